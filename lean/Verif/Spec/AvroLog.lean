import Verif.Spec.Avro
import Verif.Spec.Records

/-!
# Specification: tables whose log files hold Avro records

The bytes in the log files are the binary encoding of the records that commits appended.
-/

namespace Hudi.Spec
open Avro

/-- The column type for an Arrow type: text, booleans and integers are told apart, the others go by their names. -/
def shownType (F : Formats) : AType → DType
  | .utf8 => .utf8
  | .boolean => .boolean
  | .int32 => .int true 32
  | .int64 => .int true 64
  | t => .other (F.typeName t)

/-- The value for an Arrow value: texts, booleans and integers are themselves, others are written down. -/
def shownValue (F : Formats) : AType → AVal → Val
  | .utf8, .str s => .str s
  | .boolean, .bool b => .bool b
  | .int32, .int i => .int i
  | .int64, .int i => .int i
  | _, v => .opq (F.render v)

/-- The columns of the Arrow fields. -/
def columnsOf (F : Formats) (fields : List AField) : Schema :=
  fields.map fun f => { name := f.name, dtype := shownType F f.type, nullable := f.nullable }

/-- The batches hold the values, in order: their rows are the fields of the records, and their columns are the fields of the schema. -/
def HoldValues (F : Formats) (fs : List (Str × AvroSchema)) (vs : List AvroValue) (bs : List Batch) :
    Prop :=
  ∃ (fields : List AField) (rows : List (List ACell)),
    toArrowSchema (.record fs) = .ok fields ∧ fields.map (·.name) = fs.map Prod.fst ∧
    rows.map (fun r => some (AVal.struct r)) = vs.map arrowCell ∧
    bs.flatMap (·.rows) = rows.map (List.zipWith (fun f c => c.map (shownValue F f.type)) fields) ∧
    ∀ b ∈ bs, b.schema = columnsOf F fields

/-- A block of Avro records: the values `vs`, encoded in the schema given in its header. -/
structure AvroBlock (F : Formats) (w : WBlock) (fs : List (Str × AvroSchema)) (vs : List AvroValue) :
    Prop where
  content : ∃ rs, w.content = .avro rs ∧ List.Forall₂ (Enc (.record fs)) vs rs
  schema : ∃ text docs, lastValue .schema w.header = some text ∧
    F.parseSchema text = some (.record fs docs)

/-- The row that a record is: the values of its fields. -/
def rowOf (F : Formats) (fields : List AField) : AvroValue → List Cell
  | .record vs => List.zipWith (fun f c => c.map (shownValue F f.type)) fields (fieldCells vs)
  | _ => []

/-- What commits wrote: the rows of the base file that the commit with that timestamp wrote for the file
group, and the Avro records it appended to the file group. -/
structure WrittenAvro where
  base : Str → GroupKey → List (List Cell)
  appended : Str → GroupKey → List AvroValue

/-- The rows that these are. -/
def WrittenAvro.rows (W : WrittenAvro) (F : Formats) (fields : List AField) : Written where
  base := W.base
  appended := fun ts k => (W.appended ts k).map (rowOf F fields)

/-- The data files hold what the commits wrote: base files are parquet files with the columns `schema` and
one row per record key; the bytes of log files are those of the blocks `held`; a block holds records with
the fields `fs`, or is the rollback of a write that did not complete; the records appended by a commit are
those in the blocks with its timestamp. -/
structure StoresAvro (F : Formats) (ltz : LocalTz) (tz : Str) (fs : List (Str × AvroSchema))
    (schema : Schema) (t : Tree) (h : History) (W : WrittenAvro) (held : Str → List WBlock) : Prop where
  bases : ∀ c ∈ h, ∀ k token, (k, Change.write token) ∈ c.changes →
    ParquetAt t (basePathOf k token c.ts) ⟨schema, W.base c.ts k⟩ ∧
    (⟨schema, W.base c.ts k⟩ : Batch).WF ∧ ((W.base c.ts k).map (keyOf schema)).Nodup
  logs : ∀ k base l c, AppendsTo h k base l c → ∃ size,
    t.fileAt (pathSegs (logPathOf k base l)) = some (size, .bytes (logBytes (held (logPathOf k base l))))
  blocks : ∀ k base w, BlockOf h held k base w → w.WF ∧
    (∃ i d, WrittenBy w i ∧ parseDatetime ltz i tz = .ok d) ∧
    ((∃ vs, AvroBlock F w fs vs) ∨ ∃ i, RollsBack w i)
  rollbacks : ∀ k base w i, BlockOf h held k base w → RollsBack w i → ∀ c ∈ h, c.ts ≠ i
  records : ∀ k base l c, AppendsTo h k base l c → ∀ v, v ∈ W.appended c.ts k ↔
    ∃ w vs, BlockOf h held k base w ∧ WrittenBy w c.ts ∧ AvroBlock F w fs vs ∧ v ∈ vs
  nothing : ∀ c ∈ h, ∀ k, (k, Change.append []) ∈ c.changes → W.appended c.ts k = []

end Hudi.Spec
