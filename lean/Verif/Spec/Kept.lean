import Verif.Spec.Faults
import Verif.Spec.Writer

/-! # A handle that is kept while writers work -/

namespace Hudi.Spec

/-- What a handle that was opened when the writers had come to `s0` has cached, after calls that were made on it while
they went on: any calls, each at any moment since, with any of their requests failing. -/
def KeptSince (E : Env) (A : Arrow) (S : Setting) (M : MergeEnv A) (s0 : Work) (tb : Table) (c : Cache) : Prop :=
  ∃ hist, CacheAfterCalls E A S.C M tb hist c ∧ ∀ t ∈ hist, ∃ s1, Works S s0 s1 ∧ t = s1.tree

end Hudi.Spec
