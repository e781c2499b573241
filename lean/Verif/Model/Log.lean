import Verif.Model.Selector
import Verif.Model.Store
import Verif.Base.Utf8
import Verif.Base.HMap

/-!
# Log files

Models crates/core/src/file_group/log_file/{reader,content,avro,log_block,log_format,scanner}.rs.
A reader is the list of bytes not yet read.  Allocation failures for absurd lengths are not modelled.
-/

namespace Hudi

/-- A byte sequence. Used at crates/core/src/file_group/log_file/reader.rs:41-44. -/
abbrev Bytes := List UInt8

/-- `Result::map_err` to one kind of error.
Used at crates/core/src/file_group/log_file/reader.rs:232. -/
def Res.mapErr {α : Type} (k : ErrKind) : Res α → Res α
  | .ok a => .ok a
  | .err _ => .err k
  | .panic => .panic

/-- What the model leaves arbitrary about the formats of record contents: parsing of Avro schemas
(`AvroSchema::parse_str`), decoding of one Avro datum with the number of bytes it consumes
(`from_avro_datum`), conversion of Avro schemas and values to Arrow
(crates/core/src/avro_to_arrow), decoding of a parquet file in batches of 1024 rows
(`ParquetRecordBatchReader`), and the bytes of files that are not given as bytes.
Used at crates/core/src/file_group/log_file/content.rs:49-123. -/
structure Codec where
  Schema : Type
  Value : Type
  parseSchema : Str → Option Schema
  checkSchema : Schema → Res Unit
  datum : Schema → Bytes → Res (Value × Nat)
  toBatch : Schema → List Value → Res Batch
  parquet : Bytes → Res (List Batch)
  raw : Content → Bytes

/-- The bytes of a file. Used at crates/core/src/storage/reader.rs:32. -/
def Codec.bytesOf (C : Codec) : Content → Bytes
  | .bytes l => l
  | c => C.raw c

/-- `Timeline::get_instant_metadata_in_json` (crates/core/src/timeline/mod.rs:207-212), which
`HudiTimeline::get_instant_metadata_in_json` (python/src/internal.rs:536-547) hands on. -/
def instantMetadataText (C : Codec) (t : Tree) (i : Instant) : Res Str := do
  let f ← getFile t i.relativePath
  Res.ofOption .timeline (utf8Decode (C.bytesOf f.2))

/-- `Read::read_exact` (std): `UnexpectedEof` when fewer bytes are left.
Used at crates/core/src/file_group/log_file/reader.rs:90. -/
def readExact (n : Nat) (b : Bytes) : Res (Bytes × Bytes) :=
  if n ≤ b.length then .ok (b.take n, b.drop n) else .err .readLogFile

/-- `u32::from_be_bytes` / `u64::from_be_bytes` (std).
Used at crates/core/src/file_group/log_file/reader.rs:106. -/
def beNat (l : Bytes) : Nat := l.foldl (fun a b => a * 256 + b.toNat) 0

/-- Reading a big-endian `u32`.
Used at crates/core/src/file_group/log_file/reader.rs:177-178. -/
def readU32 (b : Bytes) : Res (Nat × Bytes) := do
  let r ← readExact 4 b
  return (beNat r.1, r.2)

/-- Reading a big-endian `u64`.
Used at crates/core/src/file_group/log_file/reader.rs:105-106. -/
def readU64 (b : Bytes) : Res (Nat × Bytes) := do
  let r ← readExact 8 b
  return (beNat r.1, r.2)

/-- `MAGIC` (crates/core/src/file_group/log_file/log_format.rs:22). -/
def logMagic : Bytes := [35, 72, 85, 68, 73, 35]

/-- `LogFormatVersion` (crates/core/src/file_group/log_file/log_format.rs:24-31). -/
inductive LogVersion
  | v0 | v1 | v2 | v3
  deriving DecidableEq, Repr

/-- `TryFrom<u32> for LogFormatVersion` (crates/core/src/file_group/log_file/log_format.rs:42-56). -/
def LogVersion.ofU32 : Nat → Res LogVersion
  | 0 => .ok .v0
  | 1 => .ok .v1
  | 2 => .ok .v2
  | 3 => .ok .v3
  | _ => .err .logFormat

/-- `has_block_type` (crates/core/src/file_group/log_file/log_format.rs:59-62). -/
def LogVersion.hasBlockType (v : LogVersion) : Bool := decide (v ≠ .v0)

/-- `has_header` (crates/core/src/file_group/log_file/log_format.rs:64-67). -/
def LogVersion.hasHeader (v : LogVersion) : Bool := decide (v ≠ .v0)

/-- `has_content_length` (crates/core/src/file_group/log_file/log_format.rs:69-72). -/
def LogVersion.hasContentLength (v : LogVersion) : Bool := decide (v ≠ .v0)

/-- `has_footer` (crates/core/src/file_group/log_file/log_format.rs:74-77). -/
def LogVersion.hasFooter (v : LogVersion) : Bool := decide (v = .v1)

/-- `has_total_log_block_length` (crates/core/src/file_group/log_file/log_format.rs:79-82). -/
def LogVersion.hasTotalLength (v : LogVersion) : Bool := decide (v = .v1)

/-- `BlockType` (crates/core/src/file_group/log_file/log_block.rs:26-36). -/
inductive BlockType
  | command | delete | corrupted | avroData | hfileData | parquetData | cdcData
  deriving DecidableEq, Repr

/-- `TryFrom<[u8; 4]> for BlockType` (crates/core/src/file_group/log_file/log_block.rs:71-90). -/
def BlockType.ofU32 : Nat → Res BlockType
  | 0 => .ok .command
  | 1 => .ok .delete
  | 2 => .ok .corrupted
  | 3 => .ok .avroData
  | 4 => .ok .hfileData
  | 5 => .ok .parquetData
  | 6 => .ok .cdcData
  | _ => .err .logFormat

/-- `BlockMetadataKey` (crates/core/src/file_group/log_file/log_block.rs:98-108). -/
inductive MetaKey
  | instantTime | targetInstantTime | schema | commandBlockType | compactedBlockTimes
  | recordPositions | blockIdentifier
  deriving DecidableEq, Repr

/-- `TryFrom<[u8; 4]> for BlockMetadataKey`
(crates/core/src/file_group/log_file/log_block.rs:110-128). -/
def MetaKey.ofU32 : Nat → Res MetaKey
  | 0 => .ok .instantTime
  | 1 => .ok .targetInstantTime
  | 2 => .ok .schema
  | 3 => .ok .commandBlockType
  | 4 => .ok .compactedBlockTimes
  | 5 => .ok .recordPositions
  | 6 => .ok .blockIdentifier
  | _ => .err .logFormat

/-- `HashMap<BlockMetadataKey, String>`.
Used at crates/core/src/file_group/log_file/log_block.rs:157. -/
abbrev BlockMeta := List (MetaKey × Str)

/-- `LogBlock` (crates/core/src/file_group/log_file/log_block.rs:152-161). -/
structure LogBlock where
  version : LogVersion
  type : BlockType
  header : BlockMeta
  batches : List Batch
  footer : BlockMeta
  skipped : Bool
  deriving DecidableEq, Repr

/-- `LogBlock::instant_time` (crates/core/src/file_group/log_file/log_block.rs:164-170). -/
def LogBlock.instantTime (b : LogBlock) : Res Str :=
  Res.ofOption .logBlock (hmGet .instantTime b.header)

/-- `LogBlock::target_instant_time` (crates/core/src/file_group/log_file/log_block.rs:172-183). -/
def LogBlock.targetInstantTime (b : LogBlock) : Res Str :=
  if b.type ≠ .command then .err .logBlock
  else Res.ofOption .logBlock (hmGet .targetInstantTime b.header)

/-- `LogBlock::is_rollback_block` with `command_block_type` and `CommandBlock::from_str`
(crates/core/src/file_group/log_file/log_block.rs:136-150, 193-212). -/
def LogBlock.isRollback (b : LogBlock) : Bool :=
  decide (b.type = .command) &&
    match hmGet MetaKey.commandBlockType b.header with
    | some v => decide (parseUnsigned u32Bound v = some 0)
    | none => false

/-- `LogFileReader::read_magic` (crates/core/src/file_group/log_file/reader.rs:88-100): fewer than six
bytes left is the end of the file. -/
def readMagic (b : Bytes) : Res (Bool × Bytes) :=
  match readExact 6 b with
  | .ok (m, b) => if m ≠ logMagic then .err .logFormat else .ok (true, b)
  | _ => .ok (false, [])

/-- `LogFileReader::read_log_format_version`
(crates/core/src/file_group/log_file/reader.rs:136-140). -/
def readLogVersion (b : Bytes) : Res (LogVersion × Bytes) := do
  let r ← readU32 b
  return (← LogVersion.ofU32 r.1, r.2)

/-- `LogFileReader::read_block_type` (crates/core/src/file_group/log_file/reader.rs:143-152). -/
def readBlockType (v : LogVersion) (b : Bytes) : Res (BlockType × Bytes) :=
  if v.hasBlockType = false then .err .logFormat
  else do
    let r ← readU32 b
    return (← BlockType.ofU32 r.1, r.2)

/-- One entry of `read_block_metadata`
(crates/core/src/file_group/log_file/reader.rs:183-192). -/
def readMetaEntry (b : Bytes) : Res ((MetaKey × Str) × Bytes) := do
  let r ← readU32 b
  let key ← MetaKey.ofU32 r.1
  let l ← readU32 r.2
  let v ← readExact l.1 l.2
  let s ← Res.ofOption .utf8 (utf8Decode v.1)
  return ((key, s), v.2)

/-- The loop of `read_block_metadata` (crates/core/src/file_group/log_file/reader.rs:182-193). -/
def readMetaEntries : Nat → BlockMeta → Bytes → Res (BlockMeta × Bytes)
  | 0, m, b => .ok (m, b)
  | n + 1, m, b => do
    let e ← readMetaEntry b
    readMetaEntries n (hmInsert e.1.1 e.1.2 m) e.2

/-- `LogFileReader::read_block_metadata` (crates/core/src/file_group/log_file/reader.rs:162-195);
`present` is `has_header` or `has_footer` of the version. -/
def readMeta (present : Bool) (b : Bytes) : Res (BlockMeta × Bytes) :=
  if present = false then .ok ([], b)
  else do
    let n ← readU32 b
    readMetaEntries n.1 [] n.2

/-- `LogFileReader::read_total_block_length`
(crates/core/src/file_group/log_file/reader.rs:198-208); the length is not used. -/
def readTotalLength (v : LogVersion) (b : Bytes) : Res Bytes :=
  if v.hasTotalLength = false then .ok b
  else do
    let r ← readU64 b
    return r.2

/-- `LogFileReader::should_skip_block`
(crates/core/src/file_group/log_file/reader.rs:210-222). -/
def shouldSkip (ltz : LocalTz) (tz : Str) (range : InstantRange) (header : BlockMeta) : Res Bool := do
  let t ← Res.ofOption .logFormat (hmGet .instantTime header)
  range.notInRange ltz t tz

/-- `AvroDataBlockContentReader::next` (crates/core/src/file_group/log_file/avro.rs:43-63), whose
errors `next_batch` turns into Arrow errors.  The datum is decoded from at most the announced number
of bytes; bytes it does not consume stay unread. -/
def readRecord (C : Codec) (s : C.Schema) (b : Bytes) : Res (C.Value × Bytes) :=
  Res.mapErr .arrow (do
    let n ← readU32 b
    let v ← C.datum s (n.2.take n.1)
    return (v.1, n.2.drop v.2))

/-- The rows of one `next_batch` (crates/core/src/avro_to_arrow/arrow_array_reader.rs:148-162). -/
def readRecords (C : Codec) (s : C.Schema) : Nat → Bytes → Res (List C.Value × Bytes)
  | 0, b => .ok ([], b)
  | n + 1, b => do
    let v ← readRecord C s b
    let vs ← readRecords C s n v.2
    return (v.1 :: vs.1, vs.2)

/-- The sizes of the batches of `count` records: full batches and a remainder
(crates/core/src/file_group/log_file/content.rs:41, 103-106). -/
def batchSizes (count : Nat) : List Nat :=
  List.replicate (count / 1024) 1024 ++ if count % 1024 = 0 then [] else [count % 1024]

/-- The `while let Some(batch)` loop of `decode_avro_record_content`
(crates/core/src/file_group/log_file/content.rs:103-106). -/
def readBatches (C : Codec) (s : C.Schema) : List Nat → Bytes → Res (List Batch × Bytes)
  | [], b => .ok ([], b)
  | n :: ns, b => do
    let vs ← readRecords C s n b
    let batch ← Res.mapErr .arrow (C.toBatch s vs.1)
    let rest ← readBatches C s ns vs.2
    return (batch :: rest.1, rest.2)

/-- `Decoder::decode_avro_record_content`
(crates/core/src/file_group/log_file/content.rs:80-108). -/
def decodeAvro (C : Codec) (s : C.Schema) (b : Bytes) : Res (List Batch × Bytes) := do
  let v ← readU32 b
  if v.1 ≠ 3 then .err .logBlock
  else do
    let n ← readU32 v.2
    C.checkSchema s
    readBatches C s (batchSizes n.1) n.2

/-- `Decoder::decode_parquet_record_content`
(crates/core/src/file_group/log_file/content.rs:110-121): reads to the end of its reader. -/
def decodeParquet (C : Codec) (b : Bytes) : Res (List Batch × Bytes) := do
  return (← C.parquet b, [])

/-- `Read::take` (std): run a reader on at most `n` bytes; what it leaves unread stays unread.
Used at crates/core/src/file_group/log_file/content.rs:63. -/
def limited {α : Type} (n : Nat) (rd : Bytes → Res (α × Bytes)) (b : Bytes) : Res (α × Bytes) := do
  let r ← rd (b.take n)
  return (r.1, b.drop ((b.take n).length - r.2.length))

/-- The content reader for a block type
(crates/core/src/file_group/log_file/content.rs:63-77). -/
def decodeByType (C : Codec) (type : BlockType) (header : BlockMeta) (b : Bytes) :
    Res (List Batch × Bytes) :=
  match type with
  | .avroData => do
    let text ← Res.ofOption .logBlock (hmGet .schema header)
    let s ← Res.ofOption .avro (C.parseSchema text)
    decodeAvro C s b
  | .parquetData => decodeParquet C b
  | .command => .ok ([], b)
  | _ => .err .logBlock

/-- The content length (crates/core/src/file_group/log_file/content.rs:55-61). -/
def readContentLength (v : LogVersion) (fallback : Nat) (b : Bytes) : Res (Nat × Bytes) :=
  if v.hasContentLength = true then readU64 b else .ok (fallback, b)

/-- `Decoder::decode_content` (crates/core/src/file_group/log_file/content.rs:47-78). -/
def decodeContent (C : Codec) (v : LogVersion) (fallback : Nat) (type : BlockType)
    (header : BlockMeta) (b : Bytes) : Res (List Batch × Bytes) := do
  let n ← readContentLength v fallback b
  limited n.1 (decodeByType C type header) n.2

/-- `LogFileReader::read_next_block` after the magic
(crates/core/src/file_group/log_file/reader.rs:229-262). -/
def readBlockBody (C : Codec) (ltz : LocalTz) (tz : Str) (range : InstantRange) (b : Bytes) :
    Res (LogBlock × Bytes) := do
  let len ← readU64 b
  let v ← readLogVersion len.2
  let ty ← readBlockType v.1 v.2
  let header ← readMeta v.1.hasHeader ty.2
  let skip ← shouldSkip ltz tz range header.1
  let content ← decodeContent C v.1 len.1 ty.1 header.1 header.2
  let footer ← readMeta v.1.hasFooter content.2
  let rest ← readTotalLength v.1 footer.2
  return (⟨v.1, ty.1, header.1, content.1, footer.1, skip⟩, rest)

/-- `LogFileReader::read_next_block` (crates/core/src/file_group/log_file/reader.rs:224-263). -/
def readNextBlock (C : Codec) (ltz : LocalTz) (tz : Str) (range : InstantRange) (b : Bytes) :
    Res (Option (LogBlock × Bytes)) := do
  let m ← readMagic b
  if m.1 = false then return none
  else do
    let r ← readBlockBody C ltz tz range m.2
    return some r

/-- The loop of `read_all_blocks`; `fuel` bounds the number of blocks, of which there are at most as
many as bytes (`readAllBlocks_eq`).
Used at crates/core/src/file_group/log_file/reader.rs:68-77. -/
def readLoop (C : Codec) (ltz : LocalTz) (tz : Str) (range : InstantRange) :
    Nat → Bytes → Res (List LogBlock)
  | 0, _ => .ok []
  | fuel + 1, b => do
    match ← readNextBlock C ltz tz range b with
    | none => return []
    | some (blk, rest) => do
      let blks ← readLoop C ltz tz range fuel rest
      return if blk.skipped then blks else blk :: blks

/-- `LogFileReader::read_all_blocks` (crates/core/src/file_group/log_file/reader.rs:68-77). -/
def readAllBlocks (C : Codec) (ltz : LocalTz) (tz : Str) (range : InstantRange) (b : Bytes) :
    Res (List LogBlock) := readLoop C ltz tz range (b.length + 1) b

/-- `LogFileReader::new` and `read_all_blocks` for a file
(crates/core/src/file_group/log_file/reader.rs:48-77, crates/core/src/storage/mod.rs:207-215). -/
def readLogFile (C : Codec) (ltz : LocalTz) (o : Opts) (t : Tree) (range : InstantRange) (path : Str) :
    Res (List LogBlock) := do
  let f ← getFile t path
  let tz ← timezoneOf o
  readAllBlocks C ltz tz range (C.bytesOf f.2)

/-- The rollback targets among the blocks of a file
(crates/core/src/file_group/log_file/scanner.rs:57-61). -/
def rollbackTargets (blocks : List LogBlock) : Res (List Str) :=
  Res.mapL LogBlock.targetInstantTime (blocks.filter LogBlock.isRollback)

/-- One iteration of the first loop of `scan`
(crates/core/src/file_group/log_file/scanner.rs:52-67). -/
def scanFile (C : Codec) (ltz : LocalTz) (o : Opts) (t : Tree) (range : InstantRange) (path : Str) :
    Res (List LogBlock × List Str) := do
  let blocks ← readLogFile C ltz o t range path
  let targets ← rollbackTargets blocks
  return (blocks, targets)

/-- The batches of a block that is not rolled back
(crates/core/src/file_group/log_file/scanner.rs:72-76). -/
def survivingBatches (targets : List Str) (b : LogBlock) : Res (Option (List Batch)) := do
  let t ← b.instantTime
  return if t ∈ targets then none else some b.batches

/-- `LogFileScanner::scan` (crates/core/src/file_group/log_file/scanner.rs:43-80). -/
def scanLogs (C : Codec) (ltz : LocalTz) (o : Opts) (t : Tree) (range : InstantRange)
    (paths : List Str) : Res (List (List Batch)) := do
  let files ← Res.mapL (scanFile C ltz o t range) paths
  let targets := files.flatMap Prod.snd
  let kept ← Res.mapL (survivingBatches targets) (files.flatMap Prod.fst)
  return kept.filterMap id

end Hudi
