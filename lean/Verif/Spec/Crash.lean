import Verif.Spec.Faults
import Verif.Spec.Log

/-! # Specification: what may make a call on a table crash -/

namespace Hudi.Spec

/-- The text can be cut after its fourteenth byte, as every timestamp can. -/
def Cuttable (ts : Str) : Prop := ∃ h r, ts = h ++ r ∧ byteLen h = 14

/-- A block with this header begins somewhere in the bytes. -/
def HasHeader (bytes : Bytes) (header : List (MetaKey × Str)) : Prop :=
  ∃ pre length version type post, bytes = pre ++ ([35, 72, 85, 68, 73, 35] ++ (be 8 length ++
    (be 4 version ++ (be 4 type ++ (metaBytes header ++ post)))))

/-- A block whose header gives this schema begins somewhere in the bytes. -/
def HasSchema (C : Codec) (bytes : Bytes) (s : C.Schema) : Prop :=
  ∃ header text, HasHeader bytes header ∧ lastValue .schema header = some text ∧ C.parseSchema text = some s

/-- A value that some bytes decode to. -/
def IsDatum (C : Codec) (s : C.Schema) (v : C.Value) : Prop := ∃ b n, C.datum s b = .ok (v, n)

/-- The decoder of records crashes on the schema, on some bytes, or on some values that bytes decode to. -/
def DecoderCrash (C : Codec) (s : C.Schema) : Prop :=
  C.checkSchema s = .panic ∨ (∃ b, C.datum s b = .panic) ∨
    ∃ vs, (∀ v ∈ vs, IsDatum C s v) ∧ C.toBatch s vs = .panic

/-- What may make reading the blocks of a log file crash: a block whose instant time is too short to be a
timestamp, a schema that the decoder crashes on, or a piece of the file that the parquet reader crashes on. -/
inductive LogCrash (C : Codec) (bytes : Bytes) : Prop
  | time (header : List (MetaKey × Str)) (ts : Str) : HasHeader bytes header →
      lastValue .instantTime header = some ts → ¬ Cuttable ts → LogCrash C bytes
  | decoder (s : C.Schema) : HasSchema C bytes s → DecoderCrash C s → LogCrash C bytes
  | parquet (pre file post : Bytes) : bytes = pre ++ (file ++ post) → C.parquet file = .panic → LogCrash C bytes

/-- A batch of records of a block of the file: of values decoded with the schema of a block, or of a piece of
the file that is a parquet file. -/
inductive BatchIn (C : Codec) (bytes : Bytes) (b : Batch) : Prop
  | avro (s : C.Schema) (vs : List C.Value) : HasSchema C bytes s → (∀ v ∈ vs, IsDatum C s v) →
      C.toBatch s vs = .ok b → BatchIn C bytes b
  | parquet (pre file post : Bytes) (bs : List Batch) : bytes = pre ++ (file ++ post) → C.parquet file = .ok bs →
      b ∈ bs → BatchIn C bytes b

/-- What may make reading a file slice crash: a log file that cannot be read without crashing, or one with
records that have fewer columns than the base file. -/
inductive SliceCrash (C : Codec) (t : Tree) (s : FileSlice) : Prop
  | log (l : LogFile) (size : Nat) (c : Content) : l ∈ s.logFiles →
      t.fileAt (pathSegs (s.logPath l)) = some (size, c) → LogCrash C (C.bytesOf c) → SliceCrash C t s
  | columns (l : LogFile) (size : Nat) (c : Content) (size' : Nat) (byteSize : Int) (base : Batch) (footer : Schema)
      (b : Batch) : l ∈ s.logFiles → t.fileAt (pathSegs (s.logPath l)) = some (size, c) →
      t.fileAt (pathSegs s.basePath) = some (size', .parquet byteSize base footer) →
      BatchIn C (C.bytesOf c) b → b.schema.length < base.schema.length → SliceCrash C t s

/-- The values of the options that limit the commits of which a reader returns records. -/
def optionTimes (o : List (Str × Str)) : List Str :=
  (o.filter (fun e => decide (e.1 = c!"hoodie.read.file_group.start_timestamp" ∨
    e.1 = c!"hoodie.read.file_group.end_timestamp"))).map Prod.snd

/-- The times that a call is given. -/
def TableCall.times : TableCall → List Str
  | .slicesAsOf ts _ => [ts]
  | .splitsAsOf _ ts _ => [ts]
  | .slicesBetween start stop => start.toList ++ stop.toList
  | .snapshotAsOf ts _ => [ts]
  | .incremental start stop => start :: stop.toList
  | .readSlice options _ => optionTimes options
  | _ => []

/-- The call looks up the partitions of the table. -/
def TableCall.looksUpPartitions : TableCall → Prop
  | .slices _ | .slicesAsOf _ _ | .splits _ _ | .splitsAsOf _ _ _ | .snapshot _ | .snapshotAsOf _ _ => True
  | _ => False

/-- The call reads the records of the file slice. -/
inductive ReadsSlice (E : Env) (A : Arrow) (C : Codec) (M : MergeEnv A) (tb : Table) (t : Tree) (c : Cache) :
    TableCall → FileSlice → Prop
  | snapshot (fs : List (Str × Str × Str)) (ss : List FileSlice) (s : FileSlice) :
      (TableCall.answer E A C M tb t c (.slices fs)).2 = .ok (.slices ss) → s ∈ ss →
      ReadsSlice E A C M tb t c (.snapshot fs) s
  | snapshotAsOf (ts : Str) (fs : List (Str × Str × Str)) (ss : List FileSlice) (s : FileSlice) :
      (TableCall.answer E A C M tb t c (.slicesAsOf ts fs)).2 = .ok (.slices ss) → s ∈ ss →
      ReadsSlice E A C M tb t c (.snapshotAsOf ts fs) s
  | incremental (start : Str) (stop : Option Str) (ss : List FileSlice) (s : FileSlice) :
      (TableCall.answer E A C M tb t c (.slicesBetween (some start) stop)).2 = .ok (.slices ss) → s ∈ ss →
      ReadsSlice E A C M tb t c (.incremental start stop) s
  | slice (options : List (Str × Str)) (s : FileSlice) : ReadsSlice E A C M tb t c (.readSlice options s) s

end Hudi.Spec
