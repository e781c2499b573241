import Verif.Spec.Archiver
import Verif.Spec.CleanerKept

/-! # Specification: handles that are kept while an archiver works -/

namespace Hudi.Spec

/-- What a handle that was opened when writers, cleaner and archiver had come to `s0` has cached, after calls that were
made on it while they went on: any calls, each request of each of them failing, or answered at some moment since. -/
inductive KeptArchived (E : Env) (A : Arrow) (S : Setting) (M : MergeEnv A) (r q : Str) (s0 : Work) (tb : Table)
    (depth : Nat) : Cache → Prop
  | opened : KeptArchived E A S M r q s0 tb depth []
  | call {c : Cache} (m : Moments) (call : TableCall) (F : Faults) : SinceArchived S r q s0 m →
      KeptArchived E A S M r q s0 tb depth c →
      KeptArchived E A S M r q s0 tb depth (call.race E A S.C M tb depth m.race F c).2.1

end Hudi.Spec
