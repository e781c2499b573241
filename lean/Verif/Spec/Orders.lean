import Verif.Spec.Racing
import Verif.Model.Orders

/-! # Specification: answers that do not depend on the order in which hash maps are gone through -/

namespace Hudi.Spec

/-- Two outcomes are the same up to `R`: both are values related by `R`, or neither is a value. -/
def SameOutcome {α : Type} (R : α → α → Prop) (r r' : Res α) : Prop :=
  (∀ a, r = .ok a → ∃ a', r' = .ok a' ∧ R a a') ∧ (∀ a', r' = .ok a' → ∃ a, r = .ok a ∧ R a a')

/-- Two handles have seen the same: each knows every partition at most once, and for every partition either both know
nothing or both know the same file groups, in some order. -/
structure SameView (c c' : Cache) : Prop where
  once : (c.map Prod.fst).Nodup
  once' : (c'.map Prod.fst).Nodup
  held : ∀ p, Option.Rel List.Perm (hmGet p c) (hmGet p c')

/-- The same file slices, in the same number of splits of the same sizes. -/
def SameSplits (l l' : List (List FileSlice)) : Prop :=
  l.map List.length = l'.map List.length ∧ l.flatten.Perm l'.flatten

/-- Two calls through handles that have seen the same have outcomes that are the same up to `R`; if they succeed, the
handles have again seen the same. -/
def Agree {α : Type} (R : α → α → Prop) (q q' : Query α) : Prop :=
  ∀ c c', SameView c c' → SameOutcome R (q c).2 (q' c').2 ∧
    ((∃ a, (q c).2 = .ok a) → SameView (q c).1 (q' c').1)

end Hudi.Spec
