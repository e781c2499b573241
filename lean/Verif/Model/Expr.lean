import Verif.Model.Data

/-!
# Filter expressions

Models crates/core/src/expr/mod.rs and crates/core/src/expr/filter.rs.
-/

namespace Hudi

/-- `ExprOperator` (crates/core/src/expr/mod.rs:31-38). -/
inductive Op | eq | ne | lt | lte | gt | gte
  deriving DecidableEq, Repr

/-- `impl Display for ExprOperator` (crates/core/src/expr/mod.rs:40-52). -/
def Op.token : Op → Str
  | .eq => c!"="
  | .ne => c!"!="
  | .lt => c!"<"
  | .lte => c!"<="
  | .gt => c!">"
  | .gte => c!">="

/-- `ExprOperator::TOKEN_OP_PAIRS` (crates/core/src/expr/mod.rs:55-62). -/
def Op.pairs : List (Str × Op) :=
  [(c!"=", .eq), (c!"!=", .ne), (c!"<", .lt), (c!"<=", .lte), (c!">", .gt), (c!">=", .gte)]

/-- `ExprOperator::negate` (crates/core/src/expr/mod.rs:65-74). -/
def Op.negate : Op → Option Op
  | .eq => some .ne
  | .ne => some .eq
  | .lt => some .gte
  | .lte => some .gt
  | .gt => some .lte
  | .gte => some .lt

/-- `ExprOperator::from_str` (crates/core/src/expr/mod.rs:77-92). -/
def Op.fromStr (s : Str) : Res Op :=
  Res.ofOption .unsupported
    (Op.pairs.findSome? (fun e => if lower e.1 = lower s then some e.2 else none))

/-- `Filter` (crates/core/src/expr/filter.rs:28-33). -/
structure Filter where
  field : Str
  op : Op
  value : Str
  deriving DecidableEq, Repr

/-- `Filter::negate` (crates/core/src/expr/filter.rs:35-42). -/
def Filter.negate (f : Filter) : Option Filter := f.op.negate.map (fun op => { f with op := op })

/-- `From<Filter> for (String, String, String)` (crates/core/src/expr/filter.rs:44-52). -/
def Filter.toTuple (f : Filter) : Str × Str × Str := (f.field, f.op.token, f.value)

/-- `TryFrom<(&str, &str, &str)> for Filter` (crates/core/src/expr/filter.rs:54-72). -/
def Filter.ofTuple (t : Str × Str × Str) : Res Filter := do
  let op ← Op.fromStr t.2.1
  return { field := t.1, op := op, value := t.2.2 }

/-- `from_str_tuples` (crates/core/src/expr/filter.rs:74-76). -/
def fromStrTuples (ts : List (Str × Str × Str)) : Res (List Filter) := Res.mapL Filter.ofTuple ts

/-- `SchemableFilter` (crates/core/src/expr/filter.rs:145-150). -/
structure SFilter where
  field : Field
  op : Op
  value : Val
  deriving DecidableEq, Repr

/-- `SchemableFilter::cast_value` (crates/core/src/expr/filter.rs:175-188). -/
def castValue (A : Arrow) (v : Str) (d : DType) : Res Val := Res.ofOption .schema (castStr A d v)

/-- `TryFrom<(Filter, &Schema)> for SchemableFilter` (crates/core/src/expr/filter.rs:152-172). -/
def SFilter.ofFilter (A : Arrow) (f : Filter) (schema : Schema) : Res SFilter := do
  let field ← Res.ofOption .schema (schema.fieldWithName f.field)
  let v ← castValue A f.value field.dtype
  return { field := field, op := f.op, value := v }

/-- The comparison kernels of arrow-ord on two non-null scalars, given their order.
Used at crates/core/src/expr/filter.rs:190-199. -/
def Op.holds (op : Op) (o : Ordering) : Bool :=
  match op with
  | .eq => o == .eq
  | .ne => o != .eq
  | .lt => o == .lt
  | .lte => o.isLE
  | .gt => o == .gt
  | .gte => o.isGE

/-- `SchemableFilter::apply_comparsion` on one scalar (crates/core/src/expr/filter.rs:190-200); values
of different types are an error. -/
def SFilter.apply (A : Arrow) (f : SFilter) (v : Val) : Res Bool :=
  match v.cmp A f.value with
  | some o => .ok (f.op.holds o)
  | none => .err .arrow

end Hudi
