import Verif.Spec.Cleaner
import Verif.Spec.RacingFaults

/-! # Specification: a handle that is kept while writers and a cleaner work -/

namespace Hudi.Spec

/-- What a handle that was opened when writers and cleaner had come to `s0` has cached, after calls that were made on it
while they went on: any calls, each request of each of them failing, or answered at some moment since. -/
inductive KeptCleaned (E : Env) (A : Arrow) (S : Setting) (M : MergeEnv A) (r : Str) (s0 : Work) (tb : Table)
    (depth : Nat) : Cache → Prop
  | opened : KeptCleaned E A S M r s0 tb depth []
  | call {c : Cache} (m : Moments) (call : TableCall) (F : Faults) : SinceCleaned S r s0 m →
      KeptCleaned E A S M r s0 tb depth c →
      KeptCleaned E A S M r s0 tb depth (call.race E A S.C M tb depth m.race F c).2.1

end Hudi.Spec
