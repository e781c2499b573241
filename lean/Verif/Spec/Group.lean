import Verif.Model.Files

/-! # Specification: file groups built through the API -/

namespace Hudi.Spec

/-- The value of a file group after an attempt to change it: a rejected addition leaves the group as
it was. -/
def afterAdd (g : FileGroup) : Res FileGroup → FileGroup
  | .ok g' => g'
  | _ => g

/-- The file groups that can be built by any sequence of additions and merges, successful or not. -/
inductive Built : FileGroup → Prop
  | new (fileId partition : Str) : Built (FileGroup.new fileId partition)
  | addBase {g : FileGroup} (b : BaseFile) : Built g → Built (afterAdd g (g.addBaseFile b))
  | addLog {g : FileGroup} (l : LogFile) : Built g → Built (afterAdd g (g.addLogFile l))
  | merge {g o : FileGroup} : Built g → Built o → Built (g.afterMerge o)

/-- The slice of a group filed under a timestamp. -/
def sliceAt (g : FileGroup) (ts : Str) : Option FileSlice :=
  (g.slices.find? (fun e => decide (e.1 = ts))).map Prod.snd

/-- What a slice of a group must look like. -/
structure SliceWF (g : FileGroup) (ts : Str) (s : FileSlice) : Prop where
  created : s.baseFile.commitTimestamp = ts
  partition : s.partitionPath = g.partitionPath
  logs : ∀ l ∈ s.logFiles, l.baseCommitTimestamp = ts

/-- The order in which the log files of a slice are visited: version, then write token, as text. -/
def LogBefore (a b : LogFile) : Prop :=
  compare a.version b.version = .lt ∨ a.version = b.version ∧ compare a.writeToken b.writeToken = .lt

/-- A change of a file group. -/
inductive GroupOp
  | addBase (b : BaseFile)
  | addLog (l : LogFile)
  | merge (other : FileGroup)

/-- The group after an attempted change. -/
def GroupOp.apply (g : FileGroup) : GroupOp → FileGroup
  | .addBase b => afterAdd g (g.addBaseFile b)
  | .addLog l => afterAdd g (g.addLogFile l)
  | .merge o => g.afterMerge o

/-- The group after a sequence of attempted changes. -/
def GroupOp.run (g : FileGroup) (ops : List GroupOp) : FileGroup := ops.foldl GroupOp.apply g

/-- All log files of the group, and those of a list about to be added, have the same file id and
extension (they are log files of one file group). -/
def UniformLogs (fileId ext : Str) (g : FileGroup) : Prop :=
  ∀ ts s, sliceAt g ts = some s → ∀ l ∈ s.logFiles, l.fileId = fileId ∧ l.extension = ext

/-- What a reader sees of a slice: the name of its base file, its partition, and the names of its
log files in reading order. -/
def view (s : FileSlice) : Str × Str × List Str :=
  (s.baseFile.fileName, s.partitionPath, s.logFiles.map LogFile.fileName)

end Hudi.Spec
