import Verif.Model.Selector

/-! # Specification: instant ranges -/

namespace Hudi

/-- `a` is strictly before `b` (second, then fraction). -/
def Spec.Before (a b : DateTime) : Prop := a.secs < b.secs ∨ a.secs = b.secs ∧ a.nanos < b.nanos

/-- The time `t` satisfies the lower bound `s`. -/
def Spec.AfterStart (inclusive : Bool) (s t : DateTime) : Prop :=
  Spec.Before s t ∨ inclusive = true ∧ t = s

/-- The time `t` satisfies the upper bound `e`. -/
def Spec.BeforeEnd (inclusive : Bool) (e t : DateTime) : Prop :=
  Spec.Before t e ∨ inclusive = true ∧ t = e

/-- The time `t` lies in the range: every bound that is present parses and is respected. -/
def Spec.InRange (ltz : LocalTz) (r : InstantRange) (t : DateTime) : Prop :=
  (∀ s, r.start = some s → ∃ d, parseDatetime ltz s r.timezone = .ok d ∧
    Spec.AfterStart r.startInclusive d t) ∧
  (∀ e, r.stop = some e → ∃ d, parseDatetime ltz e r.timezone = .ok d ∧
    Spec.BeforeEnd r.endInclusive d t)

/-- The bounds of the range are readable timestamps. -/
def Spec.RangeParses (ltz : LocalTz) (r : InstantRange) : Prop :=
  (∀ s, r.start = some s → ∃ d, parseDatetime ltz s r.timezone = .ok d) ∧
  (∀ e, r.stop = some e → ∃ d, parseDatetime ltz e r.timezone = .ok d)

end Hudi
