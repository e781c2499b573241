import Verif.Spec.Cleaner

/-!
# Specification: an archiver that works while writers, a cleaner and readers do

An archiver takes the files of old completed commits out of the timeline.  It keeps those from a given time on, and those
that replaced file groups.  That time need not be the one up to which the cleaner works.
-/

namespace Hudi.Spec

/-- The steps of writers, of a cleaner that keeps what reads as of `r` or later need, and of an archiver that keeps what is
in the timeline from `q` on. -/
inductive ArchiveStep (S : Setting) (r q : Str) : Work → Work → Prop
  /-- A step of a writer or the cleaner. -/
  | clean (s s' : Work) (h : CleanStep S r s s') : ArchiveStep S r q s s'
  /-- The archiver deletes the timeline file of a completed commit before `q` that is not a replacecommit. -/
  | archive (s : Work) (j : Job) (hj : j ∈ s.done) (hq : compare j.commit.ts q = .lt)
    (ha : j.commit.action ≠ .replaceCommit) :
    ArchiveStep S r q s { s with store := (Request.delete (instantAt j.commit)).run s.store }

/-- Any number of steps. -/
inductive Archives (S : Setting) (r q : Str) : Work → Work → Prop
  | refl (s : Work) : Archives S r q s s
  | step {s s' s'' : Work} (h : Archives S r q s s') (hs : ArchiveStep S r q s' s'') : Archives S r q s s''

/-- All requests of a read are answered after writers, cleaner and archiver had come to `s`; files are read after their
partitions have been listed. -/
structure SinceArchived (S : Setting) (r q : Str) (s : Work) (m : Moments) : Prop where
  replaced : ∀ i, Archives S r q s (m.replaced i)
  latest : Archives S r q s m.latest
  schema : Archives S r q s m.schema
  dirs : ∀ x, Archives S r q s (m.dirs x)
  files : ∀ x, Archives S r q s (m.files x)
  sizes : ∀ x, Archives S r q s (m.sizes x)
  data : ∀ x path, Archives S r q (m.files x) (m.data path)

end Hudi.Spec
