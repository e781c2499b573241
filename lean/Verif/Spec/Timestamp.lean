import Verif.Model.Time

/-! # Specification: timestamps -/

namespace Hudi.Spec

/-- A timestamp as Hudi writers produce it: 14 digits `yyyyMMddHHmmss`, or 17 digits with
milliseconds; the second is not the leap second 60. -/
def WriterTimestamp (ts : Str) : Prop :=
  ts.all isDigit = true ∧ (ts.length = 14 ∨ ts.length = 17) ∧ (ts.drop 12).take 2 ≠ c!"60"

instance (ts : Str) : Decidable (WriterTimestamp ts) := by unfold WriterTimestamp; infer_instance

/-- The local time zone keeps the order of the local times it accepts.  (chrono's
`from_local_datetime(..).single()` rejects local times in a gap or an overlap.) -/
def MonotoneTz (ltz : LocalTz) : Prop :=
  ∀ a b a' b', ltz a = some a' → ltz b = some b' → a.epochMillis < b.epochMillis →
    a'.epochMillis < b'.epochMillis

end Hudi.Spec
