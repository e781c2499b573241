import Verif.Base.Str
import Verif.Base.Res

/-!
# Columns, values and record batches

The part of the `arrow` crates used by the modelled code: schemas, record batches as lists of rows,
comparison kernels, casting of a string scalar and `concat_batches`.
-/

namespace Hudi

/-- Arrow's `DataType`, with the types that the model treats concretely and a catch-all.
Used at crates/core/src/expr/filter.rs:157-185. -/
inductive DType
  | utf8
  | boolean
  | int (signed : Bool) (bits : Nat)
  | other (name : Str)
  deriving DecidableEq, Repr

/-- One non-null value.  `opaque` values belong to the types `DType.other`.
Used at crates/core/src/expr/filter.rs:175-187. -/
inductive Val
  | str (s : Str)
  | bool (b : Bool)
  | int (i : Int)
  | opq (s : Str)
  deriving DecidableEq, Repr

/-- One cell of a column: null or a value.
Used at crates/core/src/file_group/reader.rs:153-169. -/
abbrev Cell := Option Val

/-- Arrow's `Field`. Used at crates/core/src/expr/filter.rs:157. -/
structure Field where
  name : Str
  dtype : DType
  nullable : Bool
  deriving DecidableEq, Repr

/-- Arrow's `Schema` (metadata not modelled). Used at crates/core/src/expr/filter.rs:157. -/
abbrev Schema := List Field

/-- Arrow's `RecordBatch`: rows are lists of cells in schema order.
Used at crates/core/src/file_group/reader.rs:153-169. -/
structure Batch where
  schema : Schema
  rows : List (List Cell)
  deriving DecidableEq, Repr

/-- The parts of arrow that the model leaves arbitrary: parsing and ordering of the types
`DType.other`, the latter being some total preorder.
Used at crates/core/src/expr/filter.rs:175-199. -/
structure Arrow where
  castOther : Str → Str → Option Str
  cmpOther : Str → Str → Ordering
  cmpOther_trans : Std.TransCmp cmpOther

/-- Arrow's order on two values of one type: strings bytewise, integers numerically, `false <
true`.  Values of different types are never compared by the modelled code (the kernels return an
error), so the mixed cases are `none`. Used at crates/core/src/expr/filter.rs:190-199. -/
def Val.cmp (A : Arrow) : Val → Val → Option Ordering
  | .str a, .str b => some (compare a b)
  | .bool a, .bool b => some (compare a b)
  | .int a, .int b => some (compare a b)
  | .opq a, .opq b => some (A.cmpOther a b)
  | _, _ => none

/-- arrow-cast's string-to-integer parser: an optional sign and at least one digit, in range.
Used at crates/core/src/expr/filter.rs:184. -/
def parseArrowInt (signed : Bool) (bits : Nat) (s : Str) : Option Int :=
  let chk (i : Int) : Option Int :=
    if signed then
      if -(2 ^ (bits - 1) : Int) ≤ i ∧ i < (2 ^ (bits - 1) : Int) then some i else none
    else if 0 ≤ i ∧ i < (2 ^ bits : Int) then some i else none
  match s with
  | '-' :: t => if t ≠ [] ∧ t.all isDigit = true then chk (-(natOfDigits t : Int)) else none
  | '+' :: t => if t ≠ [] ∧ t.all isDigit = true then chk (natOfDigits t : Int) else none
  | t => if t ≠ [] ∧ t.all isDigit = true then chk (natOfDigits t : Int) else none

/-- arrow-cast's string-to-boolean parser (trimmed, case-insensitive).
Used at crates/core/src/expr/filter.rs:184. -/
def parseArrowBool (s : Str) : Option Bool :=
  let l := lower (trim s)
  if l ∈ [c!"t", c!"tr", c!"tru", c!"true", c!"y", c!"ye", c!"yes", c!"on", c!"1"] then some true
  else if l ∈ [c!"f", c!"fa", c!"fal", c!"fals", c!"false", c!"n", c!"no", c!"of", c!"off", c!"0"]
  then some false
  else none

/-- `cast_with_options` of one string to a type, `safe: false` (arrow-cast).
Used at crates/core/src/expr/filter.rs:175-187. -/
def castStr (A : Arrow) : DType → Str → Option Val
  | .utf8, s => some (.str s)
  | .boolean, s => (parseArrowBool s).map .bool
  | .int signed bits, s => (parseArrowInt signed bits s).map .int
  | .other n, s => (A.castOther n s).map .opq

/-- The type of a value fits the column type. Used at crates/core/src/expr/filter.rs:184. -/
def Val.hasType : Val → DType → Bool
  | .str _, .utf8 => true
  | .bool _, .boolean => true
  | .int _, .int _ _ => true
  | .opq _, .other _ => true
  | _, _ => false

/-- `Schema::index_of` / `field_with_name` / `column_by_name` (arrow-schema): the first field with
the name. Used at crates/core/src/util/arrow.rs:36. -/
def Schema.indexOf : Str → Schema → Option Nat
  | _, [] => none
  | n, f :: fs => if f.name = n then some 0 else (Schema.indexOf n fs).map (· + 1)

/-- `Schema::field_with_name` (arrow-schema). Used at crates/core/src/expr/filter.rs:157. -/
def Schema.fieldWithName (n : Str) (s : Schema) : Option Field := s.find? (fun f => f.name = n)

/-- A batch is well formed: every row has one cell per field, of the field's type, and nulls occur
only in nullable columns (the invariant enforced by `RecordBatch::try_new`).
Used at crates/core/src/file_group/reader.rs:153-169. -/
def Batch.WF (b : Batch) : Prop :=
  ∀ r ∈ b.rows, r.length = b.schema.length ∧
    ∀ p ∈ b.schema.zip r,
      (p.2 = none → p.1.nullable = true) ∧ (∀ v, p.2 = some v → v.hasType p.1.dtype = true)

/-- The column at index `i`, cell by cell.
Used at crates/core/src/file_group/reader.rs:137. -/
def Batch.column (b : Batch) (i : Nat) : List Cell := b.rows.map (fun r => (r[i]?).getD none)

/-- `concat` (arrow-select) of the columns at one position: `RecordBatch::column` panics for a batch that
has no such column, and columns of different types are an error.
Used at crates/core/src/merge/record_merger.rs:98-102. -/
def concatColumn (bs : List Batch) (i : Nat) : Res Unit :=
  if bs.any (fun b => decide (b.schema.length ≤ i)) then .panic
  else if bs.all (fun b => (b.schema[i]?).map (·.dtype) = (bs.head?.bind (·.schema[i]?)).map (·.dtype)) then .ok ()
  else .err .arrow

/-- `concat_batches` (arrow-select) with at least one batch.  Columns are taken *by position*, one after
the other: a batch with fewer columns panics, columns of different types are an error, names are not
compared, extra columns are dropped.  `RecordBatch::try_new` then rejects columns of other types than the
schema's, and a null in a non-nullable column.
Used at crates/core/src/merge/record_merger.rs:98-102. -/
def concatBatches (schema : Schema) (bs : List Batch) : Res Batch := do
  let _ ← Res.mapL (concatColumn bs) (List.range schema.length)
  if bs.all (fun b => (schema.zip b.schema).all (fun p => p.1.dtype = p.2.dtype)) = false then
    .err .arrow
  else
    let rows := bs.flatMap (fun b => b.rows.map (fun r => r.take schema.length))
    if rows.all (fun r => (schema.zip r).all (fun p => p.1.nullable || p.2.isSome)) = false then
      .err .arrow
    else .ok { schema := schema, rows := rows }

end Hudi
