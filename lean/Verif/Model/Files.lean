import Verif.Base.Sorted
import Verif.Base.HMap
import Verif.Model.Store
import Verif.Model.Instant

/-!
# Base files, log files, file slices and file groups

Models crates/core/src/file_group/{mod,base_file,file_slice}.rs and
crates/core/src/file_group/log_file/mod.rs.
-/

namespace Hudi

/-- `BaseFile` (crates/core/src/file_group/base_file.rs:27-44). -/
structure BaseFile where
  fileId : Str
  writeToken : Str
  commitTimestamp : Str
  extension : Str
  fileMeta : Option FileMeta
  deriving DecidableEq, Repr

/-- `BaseFile::parse_file_name` (crates/core/src/file_group/base_file.rs:54-78). -/
def BaseFile.parseFileName (name : Str) : Res (Str × Str × Str × Str) :=
  match rsplitOnce '.' name with
  | none => .err .fileGroup
  | some (stem, ext) =>
    match splitAll '_' stem with
    | fid :: tok :: ts :: _ => .ok (fid, tok, ts, ext)
    | _ => .err .fileGroup

/-- `BaseFile::from_str` (crates/core/src/file_group/base_file.rs:106-119). -/
def BaseFile.fromStr (name : Str) : Res BaseFile := do
  let (fid, tok, ts, ext) ← BaseFile.parseFileName name
  return { fileId := fid, writeToken := tok, commitTimestamp := ts, extension := ext,
           fileMeta := none }

/-- `BaseFile::try_from(FileMetadata)` (crates/core/src/file_group/base_file.rs:121-135). -/
def BaseFile.fromMeta (m : FileMeta) : Res BaseFile := do
  let (fid, tok, ts, ext) ← BaseFile.parseFileName m.name
  return { fileId := fid, writeToken := tok, commitTimestamp := ts, extension := ext,
           fileMeta := some m }

/-- `BaseFile::file_name` (crates/core/src/file_group/base_file.rs:81-89). -/
def BaseFile.fileName (b : BaseFile) : Str :=
  b.fileId ++ c!"_" ++ b.writeToken ++ c!"_" ++ b.commitTimestamp ++ c!"." ++ b.extension

/-- `LogFile` (crates/core/src/file_group/log_file/mod.rs:33-41). -/
structure LogFile where
  fileId : Str
  baseCommitTimestamp : Str
  extension : Str
  version : Str
  writeToken : Str
  fileMeta : Option FileMeta
  deriving DecidableEq, Repr

/-- `LogFile::parse_file_name` (crates/core/src/file_group/log_file/mod.rs:54-96). -/
def LogFile.parseFileName (name : Str) : Res (Str × Str × Str × Str × Str) :=
  match name with
  | '.' :: rest =>
    match splitOnce '_' rest with
    | none => .err .fileGroup
    | some (fid, rest) =>
      match rsplitOnce '_' rest with
      | none => .err .fileGroup
      | some (middle, tok) =>
        match splitAll '.' middle with
        | [ts, ext, ver] =>
          if fid = [] ∨ ts = [] ∨ ext = [] ∨ ver = [] ∨ tok = [] then .err .fileGroup
          else .ok (fid, ts, ext, ver, tok)
        | _ => .err .fileGroup
  | _ => .err .fileGroup

/-- `LogFile::from_str` (crates/core/src/file_group/log_file/mod.rs:112-128). -/
def LogFile.fromStr (name : Str) : Res LogFile := do
  let (fid, ts, ext, ver, tok) ← LogFile.parseFileName name
  return { fileId := fid, baseCommitTimestamp := ts, extension := ext, version := ver,
           writeToken := tok, fileMeta := none }

/-- `LogFile::try_from(FileMetadata)` (crates/core/src/file_group/log_file/mod.rs:130-146). -/
def LogFile.fromMeta (m : FileMeta) : Res LogFile := do
  let (fid, ts, ext, ver, tok) ← LogFile.parseFileName m.name
  return { fileId := fid, baseCommitTimestamp := ts, extension := ext, version := ver,
           writeToken := tok, fileMeta := some m }

/-- `LogFile::file_name` (crates/core/src/file_group/log_file/mod.rs:99-109). -/
def LogFile.fileName (l : LogFile) : Str :=
  c!"." ++ l.fileId ++ c!"_" ++ l.baseCommitTimestamp ++ c!"." ++ l.extension ++ c!"."
    ++ l.version ++ c!"_" ++ l.writeToken

/-- `impl Ord for LogFile` (crates/core/src/file_group/log_file/mod.rs:168-177): base commit
timestamp, version, write token, all compared as text. -/
def LogFile.cmp (a b : LogFile) : Ordering :=
  (compare a.baseCommitTimestamp b.baseCommitTimestamp).then
    ((compare a.version b.version).then (compare a.writeToken b.writeToken))

/-- `FileSlice` (crates/core/src/file_group/file_slice.rs:30-35); `log_files` is a `BTreeSet`. -/
structure FileSlice where
  baseFile : BaseFile
  logFiles : List LogFile
  partitionPath : Str
  deriving DecidableEq, Repr

/-- `FileSlice::new` (crates/core/src/file_group/file_slice.rs:56-62). -/
def FileSlice.new (b : BaseFile) (partition : Str) : FileSlice := ⟨b, [], partition⟩

/-- `FileSlice::has_log_file` (crates/core/src/file_group/file_slice.rs:64-67). -/
def FileSlice.hasLogFile (s : FileSlice) : Bool := !s.logFiles.isEmpty

/-- `impl PartialEq for FileSlice` (crates/core/src/file_group/file_slice.rs:47-51), with
`impl PartialEq for BaseFile` (crates/core/src/file_group/base_file.rs:98-102). -/
def FileSlice.same (a b : FileSlice) : Bool :=
  decide (a.baseFile.fileName = b.baseFile.fileName) && decide (a.partitionPath = b.partitionPath)

/-- `FileSlice::merge` (crates/core/src/file_group/file_slice.rs:69-78). -/
def FileSlice.merge (s other : FileSlice) : Res FileSlice :=
  if s.same other = false then .err .fileGroup
  else .ok { s with logFiles := setExtend LogFile.cmp s.logFiles other.logFiles }

/-- `FileSlice::relative_path_for_file` (crates/core/src/file_group/file_slice.rs:80-85). -/
def FileSlice.relativePathFor (s : FileSlice) (name : Str) : Str := pathPush s.partitionPath name

/-- `FileSlice::base_file_relative_path` (crates/core/src/file_group/file_slice.rs:87-91). -/
def FileSlice.basePath (s : FileSlice) : Str := s.relativePathFor s.baseFile.fileName

/-- `FileSlice::log_file_relative_path` (crates/core/src/file_group/file_slice.rs:93-97). -/
def FileSlice.logPath (s : FileSlice) (l : LogFile) : Str := s.relativePathFor l.fileName

/-- `FileSlice::load_metadata_if_needed` (crates/core/src/file_group/file_slice.rs:113-125). -/
def FileSlice.loadMetadata (t : Tree) (s : FileSlice) : Res FileSlice :=
  if s.baseFile.fileMeta.any (fun m => m.full) then .ok s
  else do
    let m ← getFileMetadata t s.basePath
    return { s with baseFile := { s.baseFile with fileMeta := some m } }

/-- `FileGroup` (crates/core/src/file_group/mod.rs:45-50); `file_slices` is a `BTreeMap` keyed by
the commit timestamp of the base file. -/
structure FileGroup where
  fileId : Str
  partitionPath : Str
  slices : List (Str × FileSlice)
  deriving DecidableEq, Repr

/-- `FileGroup::new` (crates/core/src/file_group/mod.rs:81-87). -/
def FileGroup.new (fileId partition : Str) : FileGroup := ⟨fileId, partition, []⟩

/-- `impl PartialEq for FileGroup` (crates/core/src/file_group/mod.rs:52-56). -/
def FileGroup.same (a b : FileGroup) : Bool :=
  decide (a.fileId = b.fileId) && decide (a.partitionPath = b.partitionPath)

/-- `FileGroup::add_base_file` (crates/core/src/file_group/mod.rs:126-140). -/
def FileGroup.addBaseFile (g : FileGroup) (b : BaseFile) : Res FileGroup :=
  match mapGet b.commitTimestamp g.slices with
  | some _ => .err .fileGroup
  | none =>
    .ok { g with
          slices := mapInsert b.commitTimestamp (FileSlice.new b g.partitionPath) g.slices }

/-- `FileGroup::add_base_file_from_name` (crates/core/src/file_group/mod.rs:120-123). -/
def FileGroup.addBaseFileFromName (g : FileGroup) (name : Str) : Res FileGroup := do
  g.addBaseFile (← BaseFile.fromStr name)

/-- `FileGroup::add_base_files` (crates/core/src/file_group/mod.rs:143-151). -/
def FileGroup.addBaseFiles (g : FileGroup) (bs : List BaseFile) : Res FileGroup :=
  Res.foldL FileGroup.addBaseFile g bs

/-- `FileGroup::new_with_base_file_name` (crates/core/src/file_group/mod.rs:90-98). -/
def FileGroup.newWithBaseFileName (fileId partition name : Str) : Res FileGroup :=
  (FileGroup.new fileId partition).addBaseFileFromName name

/-- `FileGroup::add_log_file` (crates/core/src/file_group/mod.rs:162-173). -/
def FileGroup.addLogFile (g : FileGroup) (l : LogFile) : Res FileGroup :=
  match mapGet l.baseCommitTimestamp g.slices with
  | some s =>
    .ok { g with
          slices := mapInsert l.baseCommitTimestamp
            { s with logFiles := setInsert LogFile.cmp l s.logFiles } g.slices }
  | none => .err .fileGroup

/-- `FileGroup::add_log_file_from_name` (crates/core/src/file_group/mod.rs:154-157). -/
def FileGroup.addLogFileFromName (g : FileGroup) (name : Str) : Res FileGroup := do
  g.addLogFile (← LogFile.fromStr name)

/-- `FileGroup::add_log_files` (crates/core/src/file_group/mod.rs:176-184). -/
def FileGroup.addLogFiles (g : FileGroup) (ls : List LogFile) : Res FileGroup :=
  Res.foldL FileGroup.addLogFile g ls

/-- One iteration of the loop of `FileGroup::merge` (crates/core/src/file_group/mod.rs:107-114). -/
def mergeSliceInto (slices : List (Str × FileSlice)) (e : Str × FileSlice) :
    Res (List (Str × FileSlice)) :=
  match mapGet e.1 slices with
  | some existing => do return mapInsert e.1 (← existing.merge e.2) slices
  | none => .ok (mapInsert e.1 e.2 slices)

/-- `FileGroup::merge` (crates/core/src/file_group/mod.rs:100-117). -/
def FileGroup.merge (g other : FileGroup) : Res FileGroup :=
  if g.same other = false then .err .fileGroup
  else do
    let slices ← Res.foldL mergeSliceInto g.slices other.slices
    return { g with slices := slices }

/-- The slices left behind by the loop of `FileGroup::merge`
(crates/core/src/file_group/mod.rs:107-114), which works in place: when a slice cannot be merged, the
slices handled before it have already been updated. -/
def mergeLeftover : List (Str × FileSlice) → List (Str × FileSlice) → List (Str × FileSlice)
  | slices, [] => slices
  | slices, e :: es =>
    match mergeSliceInto slices e with
    | .ok slices' => mergeLeftover slices' es
    | _ => slices

/-- The value of `self` after `FileGroup::merge`, whether it succeeded or not
(crates/core/src/file_group/mod.rs:100-117). -/
def FileGroup.afterMerge (g other : FileGroup) : FileGroup :=
  if g.same other = false then g else { g with slices := mergeLeftover g.slices other.slices }

/-- `FileGroup::get_file_slice_as_of` and `get_file_slice_mut_as_of`
(crates/core/src/file_group/mod.rs:188-206). -/
def FileGroup.sliceAsOf (g : FileGroup) (ts : Str) : Option FileSlice :=
  (mapLastLe ts g.slices).map Prod.snd

end Hudi
