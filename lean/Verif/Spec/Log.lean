import Verif.Model.Log
import Verif.Spec.Range
import Mathlib.Data.List.Forall2

/-!
# Specification: the log file format

The bytes a writer lays out for a block, independently of the reader.
-/

namespace Hudi.Spec

/-- A number as `k` big-endian bytes. -/
def be : Nat → Nat → Bytes
  | 0, _ => []
  | k + 1, n => be k (n / 256) ++ [UInt8.ofNat (n % 256)]

/-- The code of a format version. -/
def versionCode : LogVersion → Nat
  | .v0 => 0 | .v1 => 1 | .v2 => 2 | .v3 => 3

/-- The code of a block type. -/
def typeCode : BlockType → Nat
  | .command => 0 | .delete => 1 | .corrupted => 2 | .avroData => 3 | .hfileData => 4
  | .parquetData => 5 | .cdcData => 6

/-- The code of a metadata key. -/
def keyCode : MetaKey → Nat
  | .instantTime => 0 | .targetInstantTime => 1 | .schema => 2 | .commandBlockType => 3
  | .compactedBlockTimes => 4 | .recordPositions => 5 | .blockIdentifier => 6

/-- The content of a block: none for commands, the encoded records of an Avro block, a parquet file,
or the bytes of a block of another type. -/
inductive WContent
  | command
  | avro (records : List Bytes)
  | parquet (file : Bytes)
  | other (type : BlockType) (bytes : Bytes)
  deriving DecidableEq

/-- A block as a writer writes it.  The recorded block lengths are arbitrary: a reader that knows the
content length does not need them. -/
structure WBlock where
  version : LogVersion
  header : List (MetaKey × Str)
  content : WContent
  footer : List (MetaKey × Str)
  blockLength : Nat
  totalLength : Nat
  deriving DecidableEq

/-- The type of a block. -/
def WBlock.type (w : WBlock) : BlockType :=
  match w.content with
  | .command => .command
  | .avro _ => .avroData
  | .parquet _ => .parquetData
  | .other t _ => t

/-- A metadata entry: key, length of the value, value. -/
def entryBytes (e : MetaKey × Str) : Bytes :=
  be 4 (keyCode e.1) ++ (be 4 (utf8Encode e.2).length ++ utf8Encode e.2)

/-- A metadata section: number of entries, entries. -/
def metaBytes (m : List (MetaKey × Str)) : Bytes := be 4 m.length ++ m.flatMap entryBytes

/-- An Avro record: length, datum. -/
def recordBytes (r : Bytes) : Bytes := be 4 r.length ++ r

/-- The bytes of a content. -/
def contentBytes : WContent → Bytes
  | .command => []
  | .avro rs => be 4 3 ++ (be 4 rs.length ++ rs.flatMap recordBytes)
  | .parquet b => b
  | .other _ b => b

/-- What follows the content. -/
def tailBytes (w : WBlock) : Bytes :=
  if w.version = .v1 then metaBytes w.footer ++ be 8 w.totalLength else []

/-- The bytes of a block after the magic. -/
def bodyBytes (w : WBlock) : Bytes :=
  be 8 w.blockLength ++ (be 4 (versionCode w.version) ++ (be 4 (typeCode w.type) ++
    (metaBytes w.header ++ ((be 8 (contentBytes w.content).length ++ contentBytes w.content) ++
      tailBytes w))))

/-- The bytes of a block, `#HUDI#` first. -/
def blockBytes (w : WBlock) : Bytes := [35, 72, 85, 68, 73, 35] ++ bodyBytes w

/-- The bytes of a log file. -/
def logBytes (ws : List WBlock) : Bytes := ws.flatMap blockBytes

/-- The value recorded for a key: the last one written. -/
def lastValue (k : MetaKey) (m : List (MetaKey × Str)) : Option Str :=
  ((m.filter (fun e => decide (e.1 = k))).getLast?).map Prod.snd

/-- A metadata section fits its length fields. -/
def MetaFits (m : List (MetaKey × Str)) : Prop :=
  m.length < 2 ^ 32 ∧ ∀ e ∈ m, (utf8Encode e.2).length < 2 ^ 32

/-- A block in one of the formats with a header, fitting its length fields. -/
structure WBlock.WF (w : WBlock) : Prop where
  version : w.version ≠ .v0
  header : MetaFits w.header
  footer : w.version = .v1 → MetaFits w.footer
  content : (contentBytes w.content).length < 2 ^ 64
  records : ∀ rs, w.content = .avro rs → rs.length < 2 ^ 32 ∧ ∀ r ∈ rs, r.length < 2 ^ 32
  other : ∀ t b, w.content = .other t b → t ≠ .command ∧ t ≠ .avroData ∧ t ≠ .parquetData

/-- The list is cut into pieces of 1024, the last one possibly shorter. -/
def Pieces {α : Type} (vs : List α) (vss : List (List α)) : Prop :=
  vss.flatten = vs ∧ (∀ p ∈ vss.dropLast, p.length = 1024) ∧
    ∀ p ∈ vss, 0 < p.length ∧ p.length ≤ 1024

/-- The record batches that a content stands for. -/
def Decodes (C : Codec) (w : WBlock) (bs : List Batch) : Prop :=
  match w.content with
  | .command => bs = []
  | .avro rs => ∃ text s vs vss, lastValue .schema w.header = some text ∧
      C.parseSchema text = some s ∧ C.checkSchema s = .ok () ∧
      List.Forall₂ (fun r v => C.datum s r = .ok (v, r.length)) rs vs ∧ Pieces vs vss ∧
      List.Forall₂ (fun p b => C.toBatch s p = .ok b) vss bs
  | .parquet b => C.parquet b = .ok bs
  | .other _ _ => False

/-- A decoded block is the written one. -/
structure IsBlock (C : Codec) (w : WBlock) (b : LogBlock) : Prop where
  version : b.version = w.version
  type : b.type = w.type
  header : ∀ k, hmGet k b.header = lastValue k w.header
  footer : ∀ k, hmGet k b.footer = if w.version = .v1 then lastValue k w.footer else none
  content : Decodes C w b.batches

/-- `keep` marks the blocks whose instant time lies in the range; every block has a readable one. -/
def Selects (ltz : LocalTz) (tz : Str) (r : InstantRange) (keep : WBlock → Bool) (ws : List WBlock) :
    Prop :=
  ∀ w ∈ ws, ∃ t d, lastValue .instantTime w.header = some t ∧ parseDatetime ltz t tz = .ok d ∧
    (keep w = true ↔ InRange ltz r d)

/-- Decoding a datum from a stream that ends early fails, or reads all that is left.  (The decoder of
Avro data takes some values to be null when the stream ends.) -/
def Streaming (C : Codec) : Prop :=
  ∀ s l v k, C.datum s l = .ok (v, k) → ∀ p, p <+: l → p.length < k →
    ∀ x, C.datum s p = .ok x → x.2 = p.length

/-- The block needs no trailer to show that it was cut: its content is not Avro data, and no proper
prefix of its parquet file is a parquet file. -/
def Tight (C : Codec) (w : WBlock) : Prop :=
  (∀ rs, w.content ≠ .avro rs) ∧
    ∀ b, w.content = .parquet b → ∀ p, p <+: b → p ≠ b → ∀ x, C.parquet p ≠ .ok x

end Hudi.Spec
