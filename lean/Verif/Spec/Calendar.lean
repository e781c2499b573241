import Verif.Base.Str

/-! # Specification: the calendar

Dates are counted one day at a time from 1970-01-01, with no arithmetic on years. -/

namespace Hudi.Spec

/-- The number denoted by decimal digits, by place value. -/
def placeValue : Str → Nat
  | [] => 0
  | c :: cs => (c.toNat - '0'.toNat) * 10 ^ cs.length + placeValue cs

/-- The Gregorian rule: every fourth year, but of the full centuries only every fourth. -/
def LeapYear (y : Int) : Prop := 4 ∣ y ∧ (100 ∣ y → 400 ∣ y)

instance (y : Int) : Decidable (LeapYear y) := by unfold LeapYear; infer_instance

/-- A date: year, month (January is 1) and day of the month. -/
structure Date where
  year : Int
  month : Nat
  day : Nat
  deriving DecidableEq, Repr

/-- The lengths of the months, January first. -/
def monthLengths (y : Int) : List Nat :=
  [31, if LeapYear y then 29 else 28, 31, 30, 31, 30, 31, 31, 30, 31, 30, 31]

/-- The date exists. -/
def Date.Exists (d : Date) : Prop :=
  1 ≤ d.month ∧ 1 ≤ d.day ∧ ∃ n, (monthLengths d.year)[d.month - 1]? = some n ∧ d.day ≤ n

/-- The day after. -/
def Date.next (d : Date) : Date :=
  if (monthLengths d.year)[d.month - 1]? ≠ some d.day then { d with day := d.day + 1 }
  else if d.month ≠ 12 then ⟨d.year, d.month + 1, 1⟩
  else ⟨d.year + 1, 1, 1⟩

/-- `DaysSince1970 n d`: counting days from 1970-01-01, which is day 0, the date `d` is day `n`. -/
inductive DaysSince1970 : Int → Date → Prop
  | epoch : DaysSince1970 0 ⟨1970, 1, 1⟩
  | later {n d} : DaysSince1970 n d → DaysSince1970 (n + 1) d.next
  | earlier {n d} : d.Exists → DaysSince1970 (n + 1) d.next → DaysSince1970 n d

/-- The date that a timestamp `yyyyMMdd…` names. -/
def dateOf (ts : Str) : Date :=
  ⟨placeValue (ts.take 4), placeValue ((ts.drop 4).take 2), placeValue ((ts.drop 6).take 2)⟩

/-- The hour, minute, second and millisecond that a timestamp `yyyyMMddHHmmss` or
`yyyyMMddHHmmssSSS` names. -/
def hourOf (ts : Str) : Nat := placeValue ((ts.drop 8).take 2)
@[inherit_doc hourOf] def minuteOf (ts : Str) : Nat := placeValue ((ts.drop 10).take 2)
@[inherit_doc hourOf] def secondOf (ts : Str) : Nat := placeValue ((ts.drop 12).take 2)
@[inherit_doc hourOf] def millisOf (ts : Str) : Nat := placeValue (ts.drop 14)

end Hudi.Spec
