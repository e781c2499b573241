import Verif.Model.Reader

/-!
# File slices handed out by name

Models the part of python/src/internal.rs that is more than a call to the core: the description of a
file slice that is given to Python code (and from there to workers in other processes), and the
reader that takes such a description.
-/

namespace Hudi

/-- `HudiFileSlice` (python/src/internal.rs:119-138). -/
structure PySlice where
  fileId : Str
  partitionPath : Str
  creationInstantTime : Str
  baseFileName : Str
  baseFileSize : Nat
  baseFileByteSize : Int
  logFileNames : List Str
  numRecords : Int
  deriving DecidableEq, Repr

/-- `impl From<&FileSlice> for HudiFileSlice` (python/src/internal.rs:179-203), with the default
`FileMetadata` when none is loaded. -/
def PySlice.ofSlice (s : FileSlice) : PySlice :=
  let m := s.baseFile.fileMeta.getD ⟨[], 0, 0, 0, false⟩
  { fileId := s.baseFile.fileId, partitionPath := s.partitionPath,
    creationInstantTime := s.baseFile.commitTimestamp, baseFileName := s.baseFile.fileName,
    baseFileSize := m.size, baseFileByteSize := m.byteSize,
    logFileNames := s.logFiles.map LogFile.fileName, numRecords := m.numRecords }

/-- `HudiFileSlice::base_file_relative_path` (python/src/internal.rs:143-156). -/
def PySlice.basePath (d : PySlice) : Str := pathPush d.partitionPath d.baseFileName

/-- `HudiFileSlice::log_files_relative_paths` (python/src/internal.rs:158-175). -/
def PySlice.logPaths (d : PySlice) : List Str := d.logFileNames.map (pathPush d.partitionPath)

/-- The file slice rebuilt from its description (python/src/internal.rs:88-107). -/
def PySlice.rebuild (d : PySlice) : Res FileSlice := do
  let g ← (FileGroup.new d.fileId d.partitionPath).addBaseFileFromName d.baseFileName
  let g ← Res.foldL FileGroup.addLogFileFromName g d.logFileNames
  match g.slices with
  | (_, s) :: _ => .ok s
  | [] => .err .fileGroup

/-- `HudiFileGroupReader::read_file_slice` (python/src/internal.rs:88-112). -/
def PySlice.read (C : Codec) (A : Arrow) (M : MergeEnv A) (ltz : LocalTz) (o : Opts) (t : Tree)
    (d : PySlice) : Res Batch := do
  let s ← d.rebuild
  readFileSlice C A M ltz o t s

end Hudi
