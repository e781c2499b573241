import Verif.Spec.Crash
import Verif.Spec.Avro

/-! # Specification: record schemas without nesting -/

namespace Hudi.Spec
open Avro

/-- The Avro types without parts, but for timestamps in nanoseconds and local timestamps. -/
def scalar : AvroSchema → Bool
  | .null | .boolean | .int | .long | .float | .double | .bytes | .string | .enum _ | .fixed _ | .decimal _ _ _
  | .bigDecimal | .uuid | .date | .timeMillis | .timeMicros | .timestampMillis | .timestampMicros | .duration => true
  | _ => false

/-- A record without nesting: every field is of such a type or a union of such types, under a name of its own. -/
def FlatRecord (fs : List (Str × AvroSchema)) : Prop :=
  (fs.map Prod.fst).Nodup ∧
    ∀ f ∈ fs, scalar f.2 = true ∨ ∃ vs, f.2 = .union vs ∧ ∀ s ∈ vs, scalar s = true

end Hudi.Spec
