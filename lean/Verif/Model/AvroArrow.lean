import Verif.Model.Avro
import Verif.Base.HMap

/-!
# From Avro to Arrow

Models crates/core/src/avro_to_arrow/{schema,arrow_array_reader}.rs and the parts of `arrow` (version
54.1) that it uses to assemble arrays.  Field metadata is not modelled.
-/

namespace Hudi

/-- Arrow's `Field` over a type of data types. `doc` is the entry `avro::doc` of its metadata. It is
kept for the fields of a struct only: the metadata of a top-level field (documentation and aliases of
its type, schema.rs:229-273) is not part of a data type, so that nothing compares or shows it.
Used at crates/core/src/avro_to_arrow/schema.rs:149-154. -/
structure AFieldOf (τ : Type) where
  name : Str
  type : τ
  nullable : Bool
  doc : Option Str := none
  deriving DecidableEq, Repr

/-- Arrow's `TimeUnit`, as far as it is used.
Used at crates/core/src/avro_to_arrow/schema.rs:138-146. -/
inductive TUnit
  | milli | micro | nano
  deriving DecidableEq, Repr

/-- Arrow's `DataType`, as far as Avro schemas are mapped to it.
Used at crates/core/src/avro_to_arrow/schema.rs:56-155. -/
inductive AType
  | null | boolean | int32 | int64 | float32 | float64 | binary | largeBinary | utf8
  | fixedSizeBinary (size : Int)
  | decimal128 (precision : Nat) (scale : Int)
  | date32 | time32Milli | time64Micro
  | timestamp (unit : TUnit)
  | durationMilli
  | list (item : AFieldOf AType)
  | struct (fields : List (AFieldOf AType))
  | dictionary (key value : AType)
  | union (fields : List (AFieldOf AType))

/-- Arrow's `Field` with a full data type.
Used at crates/core/src/avro_to_arrow/schema.rs:149-154. -/
abbrev AField := AFieldOf AType

/-- One non-null value of an Arrow array.
Used at crates/core/src/avro_to_arrow/arrow_array_reader.rs:164-184. -/
inductive AVal
  | bool (b : Bool)
  | int (i : Int)
  | f32 (bits : Nat)
  | f64 (bits : Nat)
  | str (s : Str)
  | bytes (b : Bytes)
  | list (items : List (Option AVal))
  | struct (fields : List (Option AVal))

/-- One slot of an Arrow array.
Used at crates/core/src/avro_to_arrow/arrow_array_reader.rs:164-184. -/
abbrev ACell := Option AVal

namespace Avro

/-- `x as i32` / `x as i8` for an unsigned `x` (Rust casts wrap).
Used at crates/core/src/avro_to_arrow/schema.rs:131-134. -/
def wrapInt (bits : Nat) (n : Nat) : Int :=
  if n % 2 ^ bits < 2 ^ (bits - 1) then (n % 2 ^ bits : Nat) else (n % 2 ^ bits : Nat) - 2 ^ bits

/-- Is the variant `Null`?. Used at crates/core/src/avro_to_arrow/schema.rs:97. -/
def isNullSchema : AvroSchema → Bool
  | .null => true
  | _ => false

/-- `UnionSchema::find_schema_with_known_schemata(&Value::Null, ..).is_some()` (apache_avro): a union
cannot be nested directly in a union, so only a `null` variant accepts a null.
Used at crates/core/src/avro_to_arrow/schema.rs:89-91. -/
def hasNull (variants : List AvroSchema) : Bool := variants.any isNullSchema

/-- `default_field_name` (crates/core/src/avro_to_arrow/schema.rs:157-227), for the types that
occur. -/
def defaultFieldName : AType → Str
  | .null => c!"null"
  | .boolean => c!"bit"
  | .int32 => c!"int"
  | .int64 => c!"bigint"
  | .float32 => c!"float4"
  | .float64 => c!"float8"
  | .date32 => c!"dateday"
  | .time32Milli => c!"timemilli"
  | .time64Micro => c!"timemicro"
  | .timestamp .milli => c!"timestampmilli"
  | .timestamp .micro => c!"timestampmicro"
  | .timestamp .nano => c!"timestampnano"
  | .durationMilli => c!"duration"
  | .binary => c!"varbinary"
  | .fixedSizeBinary _ => c!"fixedsizebinary"
  | .largeBinary => c!"largevarbinary"
  | .utf8 => c!"varchar"
  | .list _ => c!"list"
  | .struct _ => c!"struct"
  | .union _ => c!"union"
  | .dictionary _ _ => c!"map"
  | .decimal128 _ _ => c!"decimal"

/-- `UnionFields::new(0_i8..fields.len() as i8, fields)` (arrow-schema): the shorter of the two
sequences decides. Used at crates/core/src/avro_to_arrow/schema.rs:110-111. -/
def unionFields (fs : List AField) : List AField := fs.take (wrapInt 8 fs.length).toNat

/-- The rest of `schema_to_field_with_props` once the data type is known
(crates/core/src/avro_to_arrow/schema.rs:150-155). -/
def finishField (name : Option Str) (nullable : Bool) (t : AType) : AField :=
  { name := name.getD (defaultFieldName t), type := t, nullable := nullable }

mutual
/-- `schema_to_field_with_props` (crates/core/src/avro_to_arrow/schema.rs:56-155); `todo!()` is a
panic. -/
def schemaToField (name : Option Str) (nullable : Bool) : AvroSchema → Res AField
  | .ref _ => .panic
  | .null => .ok (finishField name nullable .null)
  | .boolean => .ok (finishField name nullable .boolean)
  | .int => .ok (finishField name nullable .int32)
  | .long => .ok (finishField name nullable .int64)
  | .float => .ok (finishField name nullable .float32)
  | .double => .ok (finishField name nullable .float64)
  | .bytes => .ok (finishField name nullable .binary)
  | .string => .ok (finishField name nullable .utf8)
  | .array items => do
    let f ← schemaToField (some c!"element") false items
    return finishField name nullable (.list f)
  | .map values => do
    let f ← schemaToField (some c!"value") false values
    return finishField name nullable (.dictionary .utf8 f.type)
  | .union variants =>
    if hasNull variants = true ∧ variants.length = 2 then do
      let t ← firstNonNull variants
      return finishField name true t
    else do
      let fs ← variantFields (hasNull variants) variants
      return finishField name nullable (.union (unionFields fs))
  | .record fields docs => do
    let fs ← structFields docs fields
    return finishField name nullable (.struct fs)
  | .enum _ => .ok (finishField name nullable .utf8)
  | .fixed n => .ok (finishField name nullable (.fixedSizeBinary (wrapInt 32 n)))
  | .decimal _ p s => .ok (finishField name nullable (.decimal128 (p % 256) (wrapInt 8 s)))
  | .bigDecimal => .ok (finishField name nullable .largeBinary)
  | .uuid => .ok (finishField name nullable (.fixedSizeBinary 16))
  | .date => .ok (finishField name nullable .date32)
  | .timeMillis => .ok (finishField name nullable .time32Milli)
  | .timeMicros => .ok (finishField name nullable .time64Micro)
  | .timestampMillis => .ok (finishField name nullable (.timestamp .milli))
  | .timestampMicros => .ok (finishField name nullable (.timestamp .micro))
  | .timestampNanos => .ok (finishField name nullable (.timestamp .nano))
  | .localTimestampMillis => .panic
  | .localTimestampMicros => .panic
  | .localTimestampNanos => .panic
  | .duration => .ok (finishField name nullable .durationMilli)
/-- The data type of the first variant that is not `null`
(crates/core/src/avro_to_arrow/schema.rs:95-104). -/
def firstNonNull : List AvroSchema → Res AType
  | [] => .err .avro
  | .null :: vs => firstNonNull vs
  | s :: _ => do
    let f ← schemaToField none true s
    return f.type
/-- The fields of a union type (crates/core/src/avro_to_arrow/schema.rs:106-111). -/
def variantFields (nullable : Bool) : List AvroSchema → Res (List AField)
  | [] => .ok []
  | s :: ss => do
    let f ← schemaToField none nullable s
    let fs ← variantFields nullable ss
    return f :: fs
/-- The fields of a struct type, each with its documentation as metadata
(crates/core/src/avro_to_arrow/schema.rs:114-129). -/
def structFields (docs : List (Option Str)) : List (Str × AvroSchema) → Res (List AField)
  | [] => .ok []
  | (n, s) :: fs => do
    let f ← schemaToField (some n) false s
    let rest ← structFields docs.tail fs
    return { f with doc := docs.head?.join } :: rest
end

/-- `RecordField::is_nullable` (apache_avro): a union with a `null` variant.
Used at crates/core/src/avro_to_arrow/schema.rs:36. -/
def fieldIsNullable : AvroSchema → Bool
  | .union variants => hasNull variants
  | _ => false

/-- The fields of a record schema (crates/core/src/avro_to_arrow/schema.rs:31-40). -/
def topFields : List (Str × AvroSchema) → Res (List AField)
  | [] => .ok []
  | (n, s) :: fs => do
    let f ← schemaToField (some n) (fieldIsNullable s) s
    let rest ← topFields fs
    return f :: rest

/-- `to_arrow_schema` (crates/core/src/avro_to_arrow/schema.rs:28-46). -/
def toArrowSchema : AvroSchema → Res (List AField)
  | .record fields _ => topFields fields
  | s => do
    let f ← schemaToField (some []) false s
    return [f]

/-! ## Positions of fields -/

/-- `format!("{}.{}", a, b)`.
Used at crates/core/src/avro_to_arrow/arrow_array_reader.rs:125-138. -/
def dotted (a b : Str) : Str := a ++ '.' :: b

/-- `RecordSchema::lookup` (apache_avro) under a prefix: field names with their positions.
Used at crates/core/src/avro_to_arrow/arrow_array_reader.rs:123-127. -/
def directEntries (path : Str) : Nat → List (Str × AvroSchema) → List (Str × Nat)
  | _, [] => []
  | i, (n, _) :: fs => (dotted path n, i) :: directEntries path (i + 1) fs

mutual
/-- `child_schema_lookup` (crates/core/src/avro_to_arrow/arrow_array_reader.rs:103-144): the entries
it inserts, in order. -/
def childEntries (path : Str) : AvroSchema → List (Str × Nat)
  | .union variants =>
    if hasNull variants = true ∧ variants.length = 2 then nonNullEntries path variants else []
  | .record fields _ => directEntries path 0 fields ++ fieldEntries path fields
  | .array items => childEntries (dotted path c!"element") items
  | _ => []
/-- The entries of the first variant that is not `null`
(crates/core/src/avro_to_arrow/arrow_array_reader.rs:118-123). -/
def nonNullEntries (path : Str) : List AvroSchema → List (Str × Nat)
  | [] => []
  | .null :: vs => nonNullEntries path vs
  | s :: _ => childEntries path s
/-- The entries of the fields of a record
(crates/core/src/avro_to_arrow/arrow_array_reader.rs:130-138). -/
def fieldEntries (path : Str) : List (Str × AvroSchema) → List (Str × Nat)
  | [] => []
  | (n, s) :: fs => childEntries (dotted path n) s ++ fieldEntries path fs
end

/-- The entries of the fields of the top record
(crates/core/src/avro_to_arrow/arrow_array_reader.rs:89-92). -/
def topEntries : List (Str × AvroSchema) → List (Str × Nat)
  | [] => []
  | (n, s) :: fs => childEntries n s ++ topEntries fs

/-- `RecordSchema::lookup` of the top record.
Used at crates/core/src/avro_to_arrow/arrow_array_reader.rs:84-92. -/
def topDirect : Nat → List (Str × AvroSchema) → List (Str × Nat)
  | _, [] => []
  | i, (n, _) :: fs => (n, i) :: topDirect (i + 1) fs

/-- A map from paths to positions: `BTreeMap::get` after the insertions, the last one wins.
Used at crates/core/src/avro_to_arrow/arrow_array_reader.rs:801-806. -/
def lookupGet (entries : List (Str × Nat)) (k : Str) : Option Nat :=
  (entries.reverse.find? (fun e => e.1 = k)).map Prod.snd

/-- `schema_lookup` (crates/core/src/avro_to_arrow/arrow_array_reader.rs:84-101). -/
def schemaLookup : AvroSchema → Res (List (Str × Nat))
  | .record fields _ => .ok (topDirect 0 fields ++ topEntries fields)
  | _ => .err .arrow

/-- A record: field names and values.
Used at crates/core/src/avro_to_arrow/arrow_array_reader.rs:148-162. -/
abbrev Row := List (Str × AvroValue)

/-- `field_lookup` (crates/core/src/avro_to_arrow/arrow_array_reader.rs:801-806). -/
def fieldLookup (lk : List (Str × Nat)) (path : Str) (row : Row) : Option AvroValue :=
  (lookupGet lk path).bind fun i => (row[i]?).map Prod.snd

/-! ## Values -/

/-- `maybe_resolve_union` (crates/core/src/avro_to_arrow/arrow_array_reader.rs:938-948). -/
def unUnion : AvroValue → AvroValue
  | .union _ v => v
  | v => v

/-- The four native types that the mapped Arrow types have.
Used at crates/core/src/avro_to_arrow/arrow_array_reader.rs:950-966. -/
inductive Native
  | i32 | i64 | f32 | f64
  deriving DecidableEq

/-- `NumCast::from` of an integer (num-traits): fails when out of range.  Integers are never cast to
floating-point types here, since the array type and the values come from the same schema.
Used at crates/core/src/avro_to_arrow/arrow_array_reader.rs:958-963. -/
def castInt (t : Native) (i : Int) : Res ACell :=
  match t with
  | .i32 => .ok (if -2147483648 ≤ i ∧ i < 2147483648 then some (.int i) else none)
  | .i64 => .ok (if -9223372036854775808 ≤ i ∧ i < 9223372036854775808 then some (.int i) else none)
  | _ => .panic

/-- `Resolver::resolve` (crates/core/src/avro_to_arrow/arrow_array_reader.rs:950-970);
`unreachable!()` and `unimplemented!()` are panics. -/
def resolveNum (t : Native) (v : AvroValue) : Res ACell :=
  match unUnion v with
  | .int i => castInt t i
  | .timeMillis i => castInt t i
  | .date i => castInt t i
  | .long i => castInt t i
  | .timeMicros i => castInt t i
  | .timestampMillis i => castInt t i
  | .timestampMicros i => castInt t i
  | .float x => if t = .f32 then .ok (some (.f32 x)) else .panic
  | .double x => if t = .f64 then .ok (some (.f64 x)) else .panic
  | .null => .ok none
  | _ => .panic

/-- `resolve_string` (crates/core/src/avro_to_arrow/arrow_array_reader.rs:854-866). -/
def resolveString (v : AvroValue) : Res ACell :=
  match unUnion v with
  | .string s => .ok (some (.str s))
  | .bytes b => match utf8Decode b with
    | some s => .ok (some (.str s))
    | none => .err .arrow
  | .enum _ s => .ok (some (.str s))
  | .null => .ok none
  | _ => .err .arrow

/-- `resolve_u8` (crates/core/src/avro_to_arrow/arrow_array_reader.rs:868-881), applied to an integer
after the cast to `i32`. -/
def resolveU8 : AvroValue → Option UInt8
  | .int i => if 0 ≤ i ∧ i ≤ 255 then some (UInt8.ofNat i.toNat) else none
  | .long i =>
    let j := wrapInt 32 (i % 2 ^ 32).toNat
    if 0 ≤ j ∧ j ≤ 255 then some (UInt8.ofNat j.toNat) else none
  | _ => none

/-- `resolve_bytes` (crates/core/src/avro_to_arrow/arrow_array_reader.rs:883-902). -/
def resolveBytes (v : AvroValue) : ACell :=
  match unUnion v with
  | .bytes b => some (.bytes b)
  | .string s => some (.bytes (utf8Encode s))
  | .array vs => (vs.mapM resolveU8).map .bytes
  | _ => none

/-- `resolve_fixed` (crates/core/src/avro_to_arrow/arrow_array_reader.rs:904-916). -/
def resolveFixed (size : Nat) (v : AvroValue) : Option Bytes :=
  match unUnion v with
  | .fixed n b => if n = size then some b else none
  | _ => none

/-- `resolve_boolean` (crates/core/src/avro_to_arrow/arrow_array_reader.rs:918-928). -/
def resolveBoolean (v : AvroValue) : ACell :=
  match unUnion v with
  | .boolean b => some (.bool b)
  | _ => none

/-! ## Arrays -/

/-- `build_boolean_array` (crates/core/src/avro_to_arrow/arrow_array_reader.rs:187-202). -/
def booleanColumn (lk : List (Str × Nat)) (path : Str) (rows : List Row) : List ACell :=
  rows.map fun r => (fieldLookup lk path r).bind resolveBoolean

/-- One slot of `build_primitive_array`
(crates/core/src/avro_to_arrow/arrow_array_reader.rs:204-218). -/
def numCell (lk : List (Str × Nat)) (path : Str) (t : Native) (r : Row) : Res ACell :=
  match fieldLookup lk path r with
  | some v => resolveNum t v
  | none => .ok none

/-- `build_primitive_array` (crates/core/src/avro_to_arrow/arrow_array_reader.rs:204-218). -/
def numColumn (lk : List (Str × Nat)) (path : Str) (t : Native) (rows : List Row) :
    Res (List ACell) :=
  Res.mapL (numCell lk path t) rows

/-- One slot of a string column (crates/core/src/avro_to_arrow/arrow_array_reader.rs:680-687). -/
def stringCell (lk : List (Str × Nat)) (path : Str) (r : Row) : Res ACell :=
  match fieldLookup lk path r with
  | some v => resolveString v
  | none => .ok none

/-- One slot of `FixedSizeBinaryArray::try_from_sparse_iter_with_size` (arrow-array): a value of
another length is an error (crates/core/src/avro_to_arrow/arrow_array_reader.rs:697-705). -/
def fixedCell (lk : List (Str × Nat)) (path : Str) (size : Nat) (r : Row) : Res ACell :=
  match (fieldLookup lk path r).bind (resolveFixed size) with
  | some b => if b.length = size then .ok (some (.bytes b)) else .err .arrow
  | none => .ok none

/-- The row is given as a list, or `null` when the field is absent
(crates/core/src/avro_to_arrow/arrow_array_reader.rs:712-718). -/
def extractRow (lk : List (Str × Nat)) (path : Str) (r : Row) : AvroValue :=
  (fieldLookup lk path r).getD .null

/-- The length that a row adds to the list offsets
(crates/core/src/avro_to_arrow/arrow_array_reader.rs:436-446). -/
def listLen (v : AvroValue) : Nat :=
  match unUnion v with
  | .array vs => vs.length
  | .null => 0
  | _ => 1

/-- The validity bit of a row of a list column
(crates/core/src/avro_to_arrow/arrow_array_reader.rs:438-440). -/
def listValid (v : AvroValue) : Bool :=
  match unUnion v with
  | .array _ => true
  | _ => false

/-- The values of a list of booleans: only rows that are arrays without a union around them
contribute (crates/core/src/avro_to_arrow/arrow_array_reader.rs:455-471). -/
def boolItems : AvroValue → List ACell
  | .array vs => vs.map fun
    | .boolean b => some (.bool b)
    | _ => none
  | _ => []

/-- The values of a list of booleans: the buffers have room for all values; slots that were not filled
are valid and false (crates/core/src/avro_to_arrow/arrow_array_reader.rs:450-478). -/
def boolChild (n : Nat) (rows : List AvroValue) : List ACell :=
  rows.flatMap boolItems ++
    List.replicate (n - (rows.flatMap boolItems).length) (some (.bool false))

/-- The values that a row adds to a list of numbers
(crates/core/src/avro_to_arrow/arrow_array_reader.rs:782-796). -/
def numItems (t : Native) (v : AvroValue) : Res (List ACell) :=
  match unUnion v with
  | .array vs => Res.mapL (resolveNum t) vs
  | w => do
    match ← resolveNum t w with
    | some c => return [some c]
    | none => return []

/-- `read_primitive_list_values` (crates/core/src/avro_to_arrow/arrow_array_reader.rs:776-799). -/
def numChild (t : Native) (rows : List AvroValue) : Res (List ACell) := do
  let parts ← Res.mapL (numItems t) rows
  return parts.flatten

/-- The values that a row adds to a list of strings; a value that is not a string becomes null
(crates/core/src/avro_to_arrow/arrow_array_reader.rs:829-849). -/
def stringItems (v : AvroValue) : List ACell :=
  match unUnion v with
  | .array vs => vs.map fun s => ((resolveString s).toOption).join
  | .null => []
  | w => [((resolveString w).toOption).join]

/-- `flatten_values` for one row (crates/core/src/avro_to_arrow/arrow_array_reader.rs:809-823). -/
def flattenRow (v : AvroValue) : List AvroValue :=
  match unUnion v with
  | .array vs => vs
  | w => [w]

/-- The record in one item of a list of records, with its validity bit
(crates/core/src/avro_to_arrow/arrow_array_reader.rs:526-541). -/
def structItem (v : AvroValue) : Res (Bool × Row) :=
  match unUnion v with
  | .record r => .ok (true, r)
  | .null => .ok (false, [(c!"null", .null)])
  | _ => .panic

/-- The records in one row of a list of records; a row that is not a list adds one null record
(crates/core/src/avro_to_arrow/arrow_array_reader.rs:520-548). -/
def structItems (v : AvroValue) : Res (List (Bool × Row)) :=
  match unUnion v with
  | .array vs => Res.mapL structItem vs
  | _ => .ok [(false, [(c!"null", .null)])]

/-- The record in a struct field, with its validity bit
(crates/core/src/avro_to_arrow/arrow_array_reader.rs:734-752). -/
def structRow (lk : List (Str × Nat)) (path : Str) (r : Row) : Res (Bool × Row) :=
  match (fieldLookup lk path r).map unUnion with
  | some (.record v) => .ok (true, v)
  | some .null => .ok (false, [])
  | none => .ok (false, [])
  | _ => .panic

/-- The values between two offsets, row by row.
Used at crates/core/src/avro_to_arrow/arrow_array_reader.rs:478-580. -/
def slices : List Nat → List ACell → List (List ACell)
  | [], _ => []
  | n :: ns, child => child.take n :: slices ns (child.drop n)

/-- Has the array a null?  A `NullArray` has no validity buffer and counts none.
Used at crates/core/src/avro_to_arrow/arrow_array_reader.rs:755-762. -/
def countsNull (t : AType) (col : List ACell) : Bool :=
  match t with
  | .null => false
  | _ => col.any Option.isNone

/-- Does the array built for the type have that type?  For `LargeBinary` a `BinaryArray` is built
(crates/core/src/avro_to_arrow/arrow_array_reader.rs:689-696). -/
def builtAs : AType → Bool
  | .largeBinary => false
  | _ => true

/-- The list array (crates/core/src/avro_to_arrow/arrow_array_reader.rs:567-576) with the validation
done by `ArrayDataBuilder::build` (arrow-data): the offsets lie within the values, and items that are
not nullable contain no null.  A failure is unwrapped, hence a panic. -/
def listColumn (item : AField) (rows : List AvroValue) (child : List ACell) : Res (List ACell) :=
  if child.length < (rows.map listLen).sum then .panic
  else if item.nullable = false ∧ countsNull item.type child = true then .panic
  else .ok (List.zipWith (fun v items => if listValid v = true then some (.list items) else none)
    rows (slices (rows.map listLen) child))

/-- Rows from columns.
Used at crates/core/src/avro_to_arrow/arrow_array_reader.rs:164-184. -/
def transpose : Nat → List (List ACell) → List (List ACell)
  | 0, _ => []
  | n + 1, cols => cols.map (fun c => (c.head?).join) :: transpose n (cols.map List.tail)

/-- Validation of a struct array by `ArrayDataBuilder::build` (arrow-data): children have the types of
the fields, and a child that is not nullable has no null where the struct is valid.
Used at crates/core/src/avro_to_arrow/arrow_array_reader.rs:755-762. -/
def structValid (fields : List AField) (valid : List Bool) (cols : List (List ACell)) : Bool :=
  (fields.zip cols).all fun p =>
    builtAs p.1.type && (p.1.nullable || !(countsNull p.1.type
      ((valid.zip p.2).filterMap fun q => if q.1 then some q.2 else none)))

/-- The slots of a struct array.
Used at crates/core/src/avro_to_arrow/arrow_array_reader.rs:745-762. -/
def structColumn (valid : List Bool) (cols : List (List ACell)) : List ACell :=
  List.zipWith (fun v r => if v = true then some (.struct r) else none) valid
    (transpose valid.length cols)

/-- The path of a field (crates/core/src/avro_to_arrow/arrow_array_reader.rs:614-618). -/
def fieldPath (parent name : Str) : Str := if parent = [] then name else dotted parent name

mutual
/-- The array for a field (crates/core/src/avro_to_arrow/arrow_array_reader.rs:619-768). -/
def buildArray (lk : List (Str × Nat)) (path : Str) (rows : List Row) : AType → Res (List ACell)
  | .null => .ok (rows.map fun _ => none)
  | .boolean => .ok (booleanColumn lk path rows)
  | .float64 => numColumn lk path .f64 rows
  | .float32 => numColumn lk path .f32 rows
  | .int64 => numColumn lk path .i64 rows
  | .int32 => numColumn lk path .i32 rows
  | .timestamp _ => numColumn lk path .i64 rows
  | .date32 => numColumn lk path .i32 rows
  | .time64Micro => numColumn lk path .i64 rows
  | .time32Milli => numColumn lk path .i32 rows
  | .utf8 => Res.mapL (stringCell lk path) rows
  | .binary => .ok (rows.map fun r => (fieldLookup lk path r).bind resolveBytes)
  | .largeBinary => .ok (rows.map fun r => (fieldLookup lk path r).bind resolveBytes)
  | .fixedSizeBinary n =>
    if n < 0 then .err .arrow else Res.mapL (fixedCell lk path n.toNat) rows
  | .list item => buildListField lk path (rows.map (extractRow lk path)) item
  | .dictionary _ _ => .err .arrow
  | .struct fields => do
    let vs ← Res.mapL (structRow lk path) rows
    let cols ← buildStruct lk path (vs.map Prod.snd) fields
    if structValid fields (vs.map Prod.fst) cols = true then
      return structColumn (vs.map Prod.fst) cols
    else .err .arrow
  | .decimal128 _ _ => .err .arrow
  | .durationMilli => .err .arrow
  | .union _ => .err .arrow
/-- A list column: a list of dictionaries (Avro maps) is refused because of its key type
(crates/core/src/avro_to_arrow/arrow_array_reader.rs:229-280, 706-726). -/
def buildListField (lk : List (Str × Nat)) (path : Str) (rows : List AvroValue) :
    AField → Res (List ACell)
  | ⟨n, t, b, d⟩ => do
    let child ← listChild lk path rows n t
    listColumn ⟨n, t, b, d⟩ rows child
/-- The values of a list array, flattened
(crates/core/src/avro_to_arrow/arrow_array_reader.rs:448-565, `build_nested_list_array`). -/
def listChild (lk : List (Str × Nat)) (path : Str) (rows : List AvroValue) (name : Str) :
    AType → Res (List ACell)
  | .null => .ok (List.replicate (rows.map listLen).sum none)
  | .boolean => .ok (boolChild (rows.map listLen).sum rows)
  | .int32 => numChild .i32 rows
  | .int64 => numChild .i64 rows
  | .float32 => numChild .f32 rows
  | .float64 => numChild .f64 rows
  | .timestamp _ => .err .arrow
  | .date32 => .err .arrow
  | .time32Milli => .err .arrow
  | .time64Micro => .err .arrow
  | .utf8 => .ok (rows.flatMap stringItems)
  | .list item => buildListField lk path (rows.flatMap flattenRow) item
  | .struct fields => do
    let parts ← Res.mapL structItems rows
    let cols ← buildStruct lk (dotted path name) (parts.flatten.map Prod.snd) fields
    if structValid fields (parts.flatten.map Prod.fst) cols = true then
      return structColumn (parts.flatten.map Prod.fst) cols
    else .panic
  | _ => .err .arrow
/-- `build_struct_array` without projection
(crates/core/src/avro_to_arrow/arrow_array_reader.rs:602-773). -/
def buildStruct (lk : List (Str × Nat)) (parent : Str) (rows : List Row) :
    List AField → Res (List (List ACell))
  | [] => .ok []
  | ⟨n, t, _, _⟩ :: fs => do
    let col ← buildArray lk (fieldPath parent n) rows t
    let cols ← buildStruct lk parent rows fs
    return col :: cols
end

/-- A row of the reader must be a record
(crates/core/src/avro_to_arrow/arrow_array_reader.rs:152-161). -/
def asRecord : AvroValue → Res Row
  | .record r => .ok r
  | _ => .err .arrow

/-- A record batch with full Arrow types.
Used at crates/core/src/avro_to_arrow/arrow_array_reader.rs:164-184. -/
structure ABatch where
  fields : List AField
  rows : List (List ACell)

/-- `RecordBatch::try_new` (arrow-array): at least one column, of the types of the fields, and no null
in a column that is not nullable.
Used at crates/core/src/avro_to_arrow/arrow_array_reader.rs:184. -/
def tryNewBatch (fields : List AField) (n : Nat) (cols : List (List ACell)) : Res ABatch :=
  if fields = [] then .err .arrow
  else if structValid fields (List.replicate n true) cols = true then
    .ok { fields := fields, rows := transpose n cols }
  else .err .arrow

/-- `AvroArrowArrayReader::try_new` (crates/core/src/avro_to_arrow/arrow_array_reader.rs:67-82). -/
def readerNew (s : AvroSchema) : Res (List AField × List (Str × Nat)) := do
  let fields ← toArrowSchema s
  let lk ← schemaLookup s
  return (fields, lk)

/-- The batch made of the decoded values
(crates/core/src/avro_to_arrow/arrow_array_reader.rs:163-184). -/
def toABatch (s : AvroSchema) (vs : List AvroValue) : Res ABatch := do
  let r ← readerNew s
  let rows ← Res.mapL asRecord vs
  let cols ← buildStruct r.2 [] rows r.1
  tryNewBatch r.1 rows.length cols

/-! ## The record formats of the log reader -/

/-- What is left arbitrary about record formats: parsing of a schema text, parquet files, the bytes of
files not given as bytes, and how data types and values that the rest of the model does not look into
are written down. Used at crates/core/src/file_group/log_file/content.rs:49-123. -/
structure Formats where
  parseSchema : Str → Option AvroSchema
  parquet : Bytes → Res (List Batch)
  raw : Content → Bytes
  typeName : AType → Str
  render : AVal → Str

/-- A data type as the rest of the model sees it.
Used at crates/core/src/avro_to_arrow/schema.rs:56-155. -/
def Formats.dtype (F : Formats) : AType → DType
  | .utf8 => .utf8
  | .boolean => .boolean
  | .int32 => .int true 32
  | .int64 => .int true 64
  | t => .other (F.typeName t)

/-- A value as the rest of the model sees it.
Used at crates/core/src/avro_to_arrow/arrow_array_reader.rs:164-184. -/
def Formats.val (F : Formats) : AType → AVal → Val
  | .utf8, .str s => .str s
  | .boolean, .bool b => .bool b
  | .int32, .int i => .int i
  | .int64, .int i => .int i
  | _, v => .opq (F.render v)

/-- A batch as the rest of the model sees it.
Used at crates/core/src/avro_to_arrow/arrow_array_reader.rs:164-184. -/
def Formats.batch (F : Formats) (b : ABatch) : Batch :=
  { schema := b.fields.map fun f => { name := f.name, dtype := F.dtype f.type, nullable := f.nullable }
    rows := b.rows.map fun r => List.zipWith (fun f c => c.map (F.val f.type)) b.fields r }

/-- The record formats with Avro decoded as the code does.
Used at crates/core/src/file_group/log_file/content.rs:49-123. -/
def Formats.codec (F : Formats) : Codec where
  Schema := AvroSchema
  Value := AvroValue
  parseSchema := F.parseSchema
  checkSchema := fun s => do
    let _ ← readerNew s
    return ()
  datum := datum
  toBatch := fun s vs => do
    let b ← toABatch s vs
    return F.batch b
  parquet := F.parquet
  raw := F.raw

end Avro
end Hudi
