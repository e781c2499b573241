import Verif.Spec.Archiver
import Verif.Spec.Counted

/-!
# Specification: an archiver that works beside writers that make no request to append twice
-/

namespace Hudi.Spec

/-- Writers as in `WorksOnce`, and a cleaner and an archiver that work beside them, as in `Archives`. -/
inductive ArchivesOnce (S : Setting) (r q : Str) (s : Work) : Work → Prop
  | refl : ArchivesOnce S r q s s
  | step {s' s'' : Work} (h : ArchivesOnce S r q s s') (hs : ArchiveStep S r q s' s'')
    (ho : ∀ a ∈ s''.current, (a.ran.filter Request.appends).Nodup) : ArchivesOnce S r q s s''

end Hudi.Spec
