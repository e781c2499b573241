import Verif.Model.AvroArrow

/-!
# Specification: Avro data

The binary encoding of the Avro specification, independently of the decoder, and the Arrow values that
Avro values stand for.
-/

namespace Hudi.Spec
open Avro

/-- Zigzag: 0, -1, 1, -2, … ↦ 0, 1, 2, 3, …. -/
def zigzag (i : Int) : Nat := if 0 ≤ i then 2 * i.toNat else 2 * (-i).toNat - 1

/-- Groups of seven bits, least significant first, every group but the last marked. -/
def varintBytes (n : Nat) : Bytes :=
  if n < 128 then [UInt8.ofNat n] else UInt8.ofNat (128 + n % 128) :: varintBytes (n / 128)

/-- The encoding of an `int` or a `long`. -/
def longBytes (i : Int) : Bytes := varintBytes (zigzag i)

/-- A number as `k` little-endian bytes. -/
def le : Nat → Nat → Bytes
  | 0, _ => []
  | k + 1, n => UInt8.ofNat (n % 256) :: le k (n / 256)

/-- 32-bit integers. -/
def Fits32 (i : Int) : Prop := -2147483648 ≤ i ∧ i < 2147483648
/-- 64-bit integers. -/
def Fits64 (i : Int) : Prop := -9223372036854775808 ≤ i ∧ i < 9223372036854775808

/-- A length within the decoder's limit on allocations (512 MB). -/
def LenOk (n : Nat) : Prop := n ≤ 536870912

/-- Bytes with their length in front. -/
def lenBytes (b : Bytes) : Bytes := longBytes b.length ++ b

/-- Encodings one after the other. -/
inductive Items {α : Type} (P : α → Bytes → Prop) : List α → Bytes → Prop
  | nil : Items P [] []
  | cons {v vs b bs} : P v b → Items P vs bs → Items P (v :: vs) (b ++ bs)

/-- The blocks of an array or a map: each has a count and its items, or a negated count, a size in
bytes and its items; a zero count ends the list. -/
inductive Blocks {α : Type} (P : α → Bytes → Prop) : List α → Bytes → Prop
  | done : Blocks P [] (longBytes 0)
  | block {vs ws b bs} : vs ≠ [] → LenOk vs.length → Items P vs b → Blocks P ws bs →
      Blocks P (vs ++ ws) (longBytes vs.length ++ (b ++ bs))
  | sized {vs ws b bs} : vs ≠ [] → LenOk vs.length → Items P vs b → Fits64 b.length →
      Blocks P ws bs →
      Blocks P (vs ++ ws) (longBytes (-(vs.length : Int)) ++ (longBytes b.length ++ (b ++ bs)))

/-- The encoding of a map entry: the key as a string, the value. -/
def EncEntry (P : AvroValue → Bytes → Prop) (e : Str × AvroValue) (b : Bytes) : Prop :=
  LenOk (utf8Encode e.1).length ∧ ∃ c, P e.2 c ∧ b = lenBytes (utf8Encode e.1) ++ c

mutual
/-- `Enc s v b`: `b` is an encoding of the value `v` of schema `s`. -/
def Enc : AvroSchema → AvroValue → Bytes → Prop
  | .null, v, b => v = .null ∧ b = []
  | .boolean, v, b => ∃ x : Bool, v = .boolean x ∧ b = [if x then 1 else 0]
  | .int, v, b => ∃ i, v = .int i ∧ Fits32 i ∧ b = longBytes i
  | .long, v, b => ∃ i, v = .long i ∧ Fits64 i ∧ b = longBytes i
  | .float, v, b => ∃ n, v = .float n ∧ n < 2 ^ 32 ∧ b = le 4 n
  | .double, v, b => ∃ n, v = .double n ∧ n < 2 ^ 64 ∧ b = le 8 n
  | .bytes, v, b => ∃ x, v = .bytes x ∧ LenOk x.length ∧ b = lenBytes x
  | .string, v, b => ∃ x, v = .string x ∧ LenOk (utf8Encode x).length ∧ b = lenBytes (utf8Encode x)
  | .array s, v, b => ∃ vs, v = .array vs ∧ Blocks (Enc s) vs b
  | .map s, v, b => ∃ vs, v = .map vs ∧ Blocks (EncEntry (Enc s)) vs b
  | .union ss, v, b => ∃ k w c, v = .union k w ∧ Fits64 k ∧ EncVariant ss k w c ∧ b = longBytes k ++ c
  | .record fs _, v, b => ∃ vs, v = .record vs ∧ EncFields fs vs b
  | .enum symbols, v, b => ∃ k x, v = .enum k x ∧ symbols[k]? = some x ∧ Fits32 k ∧ b = longBytes k
  | .fixed n, v, b => v = .fixed n b ∧ b.length = n
  | .decimal none _ _, v, b => ∃ x, v = .decimal x ∧ LenOk x.length ∧ b = lenBytes x
  | .decimal (some n) _ _, v, b => v = .decimal b ∧ b.length = n
  | .bigDecimal, v, b => ∃ x, v = .bigDecimal x ∧ LenOk x.length ∧ b = lenBytes x
  | .uuid, v, b => ∃ x, v = .uuid x ∧ LenOk x.length ∧ b = lenBytes x
  | .date, v, b => ∃ i, v = .date i ∧ Fits32 i ∧ b = longBytes i
  | .timeMillis, v, b => ∃ i, v = .timeMillis i ∧ Fits32 i ∧ b = longBytes i
  | .timeMicros, v, b => ∃ i, v = .timeMicros i ∧ Fits64 i ∧ b = longBytes i
  | .timestampMillis, v, b => ∃ i, v = .timestampMillis i ∧ Fits64 i ∧ b = longBytes i
  | .timestampMicros, v, b => ∃ i, v = .timestampMicros i ∧ Fits64 i ∧ b = longBytes i
  | .timestampNanos, v, b => ∃ i, v = .timestampNanos i ∧ Fits64 i ∧ b = longBytes i
  | .localTimestampMillis, v, b => ∃ i, v = .localTimestampMillis i ∧ Fits64 i ∧ b = longBytes i
  | .localTimestampMicros, v, b => ∃ i, v = .localTimestampMicros i ∧ Fits64 i ∧ b = longBytes i
  | .localTimestampNanos, v, b => ∃ i, v = .localTimestampNanos i ∧ Fits64 i ∧ b = longBytes i
  | .duration, v, b => v = .duration b ∧ b.length = 12
  | .ref _, _, _ => False
/-- The encoding of a value of the variant with an index. -/
def EncVariant : List AvroSchema → Nat → AvroValue → Bytes → Prop
  | [], _, _, _ => False
  | s :: _, 0, v, b => Enc s v b
  | _ :: ss, k + 1, v, b => EncVariant ss k v b
/-- The encodings of the fields of a record, one after the other. -/
def EncFields : List (Str × AvroSchema) → List (Str × AvroValue) → Bytes → Prop
  | [], vs, b => vs = [] ∧ b = []
  | (n, s) :: fs, vs, b => ∃ v ws c d, vs = (n, v) :: ws ∧ Enc s v c ∧ EncFields fs ws d ∧ b = c ++ d
end

/-- `v` is a value of schema `s`. -/
def HasType (s : AvroSchema) (v : AvroValue) : Prop := ∃ b, Enc s v b

/-! ## Avro values in Arrow -/

mutual
/-- The Arrow slot that an Avro value stands for: a null is null, a union stands for the value in it,
arrays are lists, records are structs, the entries of a map are a list of pairs. -/
def arrowCell : AvroValue → ACell
  | .null => none
  | .boolean b => some (.bool b)
  | .int i => some (.int i)
  | .long i => some (.int i)
  | .float x => some (.f32 x)
  | .double x => some (.f64 x)
  | .bytes b => some (.bytes b)
  | .string s => some (.str s)
  | .fixed _ b => some (.bytes b)
  | .enum _ s => some (.str s)
  | .union _ v => arrowCell v
  | .array vs => some (.list (cellsOf vs))
  | .map kvs => some (.list (entryCells kvs))
  | .record fs => some (.struct (fieldCells fs))
  | .date i => some (.int i)
  | .timeMillis i => some (.int i)
  | .timeMicros i => some (.int i)
  | .timestampMillis i => some (.int i)
  | .timestampMicros i => some (.int i)
  | .timestampNanos i => some (.int i)
  | .localTimestampMillis i => some (.int i)
  | .localTimestampMicros i => some (.int i)
  | .localTimestampNanos i => some (.int i)
  | .decimal b => some (.bytes b)
  | .bigDecimal b => some (.bytes b)
  | .uuid b => some (.bytes b)
  | .duration b => some (.bytes b)
/-- The slots of the items of an array. -/
def cellsOf : List AvroValue → List ACell
  | [] => []
  | v :: vs => arrowCell v :: cellsOf vs
/-- The slots of the entries of a map. -/
def entryCells : List (Str × AvroValue) → List ACell
  | [] => []
  | (k, v) :: kvs => some (.struct [some (.str k), arrowCell v]) :: entryCells kvs
/-- The slots of the fields of a record. -/
def fieldCells : List (Str × AvroValue) → List ACell
  | [] => []
  | (_, v) :: fs => arrowCell v :: fieldCells fs
end

/-! ## Schemas that are read faithfully -/

/-- Where a value stands: in a field of a record (is it in a union with null? can it be missing, for
example because its record is null?), or in a list (is the list itself in a list, is the list in a
union with null, can the list be missing, is the value in a union with null?). -/
inductive Place
  | field (inUnion missing : Bool)
  | item (nested listInUnion listMissing inUnion : Bool)

/-- The place of the value in a union with null, if such a union may stand at a place. -/
def Place.opt : Place → Option Place
  | .field false _ => some (.field true true)
  | .item d lu lm false => some (.item d lu lm true)
  | _ => none

mutual
/-- Schemas whose values are all converted faithfully.  Excluded are types without conversion (maps,
decimals, UUIDs, durations, nanosecond and local timestamps, unions other than with null, references);
in lists also bytes, fixed and temporal types; lists of booleans when there is a union with null
around the list or around the items; lists of records inside lists; and lists of lists or of records
that can be missing. -/
def Faithful : Place → AvroSchema → Prop
  | _, .null => True
  | .field _ _, .boolean => True
  | .item _ lu _ u, .boolean => lu = false ∧ u = false
  | _, .int => True
  | _, .long => True
  | _, .float => True
  | _, .double => True
  | _, .string => True
  | _, .enum _ => True
  | .field _ _, .bytes => True
  | .field _ _, .fixed n => n < 2 ^ 31
  | .field _ _, .date => True
  | .field _ _, .timeMillis => True
  | .field _ _, .timeMicros => True
  | .field _ _, .timestampMillis => True
  | .field _ _, .timestampMicros => True
  | .field u m, .array s => Faithful (.item false u m false) s
  | .item _ _ lm u, .array s => lm = false ∧ Faithful (.item true u u false) s
  | .field _ m, .record fs _ => FaithfulFields m fs
  | .item d _ lm u, .record fs _ => lm = false ∧ d = false ∧ FaithfulFields u fs
  | p, .union vs => match p.opt with
    | some q => FaithfulOpt q vs
    | none => False
  | _, _ => False
/-- A union of null and one other type. -/
def FaithfulOpt (q : Place) : List AvroSchema → Prop
  | [a, b] => (isNullSchema a = true ∧ isNullSchema b = false ∧ Faithful q b) ∨
      (isNullSchema b = true ∧ isNullSchema a = false ∧ Faithful q a)
  | _ => False
/-- The fields of a record that can be missing or not. -/
def FaithfulFields (missing : Bool) : List (Str × AvroSchema) → Prop
  | [] => True
  | (_, s) :: fs => Faithful (.field false missing) s ∧ FaithfulFields missing fs
end

/-- A field name: not empty, without a dot (Avro names are letters, digits and underscores). -/
def NameOk (n : Str) : Prop := n ≠ [] ∧ '.' ∉ n

mutual
/-- In every record the field names are valid and distinct. -/
def Named : AvroSchema → Prop
  | .array s => Named s
  | .map s => Named s
  | .union vs => NamedAll vs
  | .record fs _ => NamedFields fs ∧ (fs.map Prod.fst).Nodup
  | _ => True
/-- All schemas have valid names. -/
def NamedAll : List AvroSchema → Prop
  | [] => True
  | s :: ss => Named s ∧ NamedAll ss
/-- All fields have valid names. -/
def NamedFields : List (Str × AvroSchema) → Prop
  | [] => True
  | (n, s) :: fs => NameOk n ∧ Named s ∧ NamedFields fs
end

/-- A record schema whose records are read faithfully. -/
def FaithfulRecord (fs : List (Str × AvroSchema)) : Prop :=
  fs ≠ [] ∧ Named (.record fs) ∧ FaithfulFields false fs

/-! ## Schemas -/

/-- The type admits null. -/
def admitsNull : AvroSchema → Bool
  | .null => true
  | .union vs => vs.any isNullSchema
  | _ => false

mutual
/-- The Arrow type that stands for an Avro type. The documentation of the fields of a record is part of
the type. -/
def Maps : AvroSchema → AType → Prop
  | .null, t => t = .null
  | .boolean, t => t = .boolean
  | .int, t => t = .int32
  | .long, t => t = .int64
  | .float, t => t = .float32
  | .double, t => t = .float64
  | .bytes, t => t = .binary
  | .string, t => t = .utf8
  | .enum _, t => t = .utf8
  | .fixed n, t => t = .fixedSizeBinary n
  | .decimal _ p s, t => t = .decimal128 p s
  | .bigDecimal, t => t = .largeBinary
  | .uuid, t => t = .fixedSizeBinary 16
  | .date, t => t = .date32
  | .timeMillis, t => t = .time32Milli
  | .timeMicros, t => t = .time64Micro
  | .timestampMillis, t => t = .timestamp .milli
  | .timestampMicros, t => t = .timestamp .micro
  | .timestampNanos, t => t = .timestamp .nano
  | .duration, t => t = .durationMilli
  | .array s, t => ∃ f, t = .list f ∧ f.nullable = admitsNull s ∧ Maps s f.type
  | .record fs docs, t => ∃ fields, t = .struct fields ∧ MapsFields fs fields ∧
      ∀ (i : Nat) (f : AField), fields[i]? = some f → f.doc = docs[i]?.join
  | .union vs, t => MapsOpt vs t
  | _, _ => False
/-- A union with null is represented by the other type. -/
def MapsOpt : List AvroSchema → AType → Prop
  | [a, b], t => (isNullSchema a = true ∧ Maps b t) ∨ (isNullSchema b = true ∧ Maps a t)
  | _, _ => False
/-- The same fields: names, order, types, and nullable exactly when the type admits null. -/
def MapsFields : List (Str × AvroSchema) → List AField → Prop
  | [], fields => fields = []
  | (n, s) :: fs, fields => ∃ f rest, fields = f :: rest ∧ f.name = n ∧
      f.nullable = admitsNull s ∧ Maps s f.type ∧ MapsFields fs rest
end

mutual
/-- Types with an Arrow counterpart: no references to named types, local timestamps, maps, or unions
other than of null and one other type; null only in such a union; sizes, precisions and scales within
the ranges of Arrow. -/
def Arrowable : AvroSchema → Prop
  | .null => False
  | .map _ => False
  | .ref _ => False
  | .localTimestampMillis => False
  | .localTimestampMicros => False
  | .localTimestampNanos => False
  | .fixed n => n < 2 ^ 31
  | .decimal _ p s => p < 2 ^ 8 ∧ s < 2 ^ 7
  | .array s => Arrowable s
  | .record fs _ => ArrowableFields fs
  | .union vs => ArrowableOpt vs
  | _ => True
/-- A union of null and one other type, which is not a union. -/
def ArrowableOpt : List AvroSchema → Prop
  | [a, b] => (isNullSchema a = true ∧ Arrowable b) ∨ (isNullSchema b = true ∧ Arrowable a)
  | _ => False
/-- All fields have a counterpart. -/
def ArrowableFields : List (Str × AvroSchema) → Prop
  | [] => True
  | (_, s) :: fs => Arrowable s ∧ ArrowableFields fs
end

mutual
/-- A reference to a named type occurs in the schema. -/
def refers : AvroSchema → Bool
  | .ref _ => true
  | .array s => refers s
  | .map s => refers s
  | .union vs => refersAny vs
  | .record fs _ => refersField fs
  | _ => false
/-- One occurs in a variant. -/
def refersAny : List AvroSchema → Bool
  | [] => false
  | s :: ss => refers s || refersAny ss
/-- One occurs in a field. -/
def refersField : List (Str × AvroSchema) → Bool
  | [] => false
  | (_, s) :: fs => refers s || refersField fs
end

mutual
/-- The schema without the documentation of fields. -/
def undocumented : AvroSchema → AvroSchema
  | .array s => .array (undocumented s)
  | .map s => .map (undocumented s)
  | .union vs => .union (undocumentedAll vs)
  | .record fs _ => .record (undocumentedFields fs)
  | s => s
/-- The variants without it. -/
def undocumentedAll : List AvroSchema → List AvroSchema
  | [] => []
  | s :: ss => undocumented s :: undocumentedAll ss
/-- The fields without it. -/
def undocumentedFields : List (Str × AvroSchema) → List (Str × AvroSchema)
  | [] => []
  | (n, s) :: fs => (n, undocumented s) :: undocumentedFields fs
end

end Hudi.Spec
