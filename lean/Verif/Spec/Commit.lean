import Verif.Spec.Group
import Verif.Spec.Timeline
import Verif.Model.Timeline

/-!
# Specification: commit metadata

What a commit's metadata document says, independently of the reader.
-/

namespace Hudi.Spec

/-- One write recorded by a commit: a base file, and the log files written against it. -/
structure Write where
  partition : Str
  fileId : Str
  base : BaseFile
  logs : List LogFile
  deriving DecidableEq

/-- The identity of the file group written. -/
def Write.id (w : Write) : Str × Str := (w.partition, w.fileId)

/-- The identity of a file group. -/
def groupId (g : FileGroup) : Str × Str := (g.partitionPath, g.fileId)

/-- A well-formed write: the parts of the file names are free of the separators, and the log files
are log files of that file group written against that base file. -/
structure Write.WF (w : Write) : Prop where
  base_parts : '_' ∉ w.base.fileId ∧ '_' ∉ w.base.writeToken ∧ '_' ∉ w.base.commitTimestamp ∧
    '.' ∉ w.base.extension ∧ '/' ∉ w.base.fileName ∧ w.base.fileMeta = none
  log_parts : ∀ l ∈ w.logs, '_' ∉ l.fileId ∧ '.' ∉ l.baseCommitTimestamp ∧ '.' ∉ l.version ∧
    '_' ∉ l.writeToken ∧ l.fileId ≠ [] ∧ l.baseCommitTimestamp ≠ [] ∧ l.version ≠ [] ∧
    l.writeToken ≠ [] ∧ l.fileMeta = none
  log_group : ∀ l ∈ w.logs, l.fileId = w.fileId ∧ l.extension = c!"log" ∧
    l.baseCommitTimestamp = w.base.commitTimestamp

/-- The write stat `stat` records the write `w`: either with the fields `baseFile` and `logFiles`
(merge-on-read), or with the field `path` ending in the base file's name (copy-on-write). -/
def Encodes (w : Write) (stat : Json) : Prop :=
  ∃ o, stat = .obj o ∧ jGet c!"fileId" o = some (.str w.fileId) ∧
    ((jGet c!"baseFile" o = some (.str w.base.fileName) ∧
        jGet c!"logFiles" o = some (.arr (w.logs.map (fun l => .str l.fileName)))) ∨
     (jGet c!"baseFile" o = none ∧ w.logs = [] ∧
        (jGet c!"path" o = some (.str w.base.fileName) ∨
         ∃ dir, jGet c!"path" o = some (.str (dir ++ c!"/" ++ w.base.fileName)))))

/-- The document `md` records exactly the writes `ws`, in document order. -/
def RecordsWrites (md : List (Str × Json)) (ws : List Write) : Prop :=
  ∃ parts : List (Str × List (Write × Json)),
    jGet c!"partitionToWriteStats" md =
      some (.obj (parts.map (fun e => (e.1, .arr (e.2.map Prod.snd))))) ∧
    ws = parts.flatMap (fun e => e.2.map Prod.fst) ∧
    ∀ e ∈ parts, ∀ x ∈ e.2, x.1.partition = e.1 ∧ Encodes x.1 x.2

/-- `w` is the first of the writes to its file group. -/
def FirstOf (ws : List Write) (w : Write) : Prop :=
  ∃ before after, ws = before ++ w :: after ∧ ∀ v ∈ before, v.id ≠ w.id

/-- The file group `g` holds the write `w` and nothing else. -/
def Holds (g : FileGroup) (w : Write) : Prop :=
  groupId g = w.id ∧ ∃ s, sliceAt g w.base.commitTimestamp = some s ∧ s.baseFile = w.base ∧
    s.partitionPath = w.partition ∧ (∀ l, l ∈ s.logFiles ↔ l ∈ w.logs) ∧
    ∀ ts, ts ≠ w.base.commitTimestamp → sliceAt g ts = none

/-- `name` is the last name in the path: only separators and `.` come after it. -/
def LastName (path name : Str) : Prop :=
  ∃ before after, path = joinWith '/' (before ++ name :: after) ∧ (∀ s ∈ before ++ name :: after, '/' ∉ s) ∧
    name ≠ [] ∧ name ≠ c!"." ∧ name ≠ c!".." ∧ ∀ s ∈ after, s = [] ∨ s = c!"."

/-- A write stat the reader can make sense of. -/
def ReadableStat (stat : Json) : Prop :=
  ∃ o fileId, stat = .obj o ∧ jGet c!"fileId" o = some (.str fileId) ∧
    match jGet c!"baseFile" o with
    | some b => ∃ name base logs, b = .str name ∧ BaseFile.fromStr name = .ok base ∧
        jGet c!"logFiles" o = some (.arr logs) ∧
        ∀ x ∈ logs, ∃ n l, x = .str n ∧ LogFile.fromStr n = .ok l ∧
          l.baseCommitTimestamp = base.commitTimestamp
    | none => ∃ path name base, jGet c!"path" o = some (.str path) ∧ LastName path name ∧
        BaseFile.fromStr name = .ok base

/-- A commit metadata document the reader can make sense of. -/
def ReadableDoc (md : List (Str × Json)) : Prop :=
  ∃ parts, jGet c!"partitionToWriteStats" md = some (.obj parts) ∧
    ∀ e ∈ parts, ∃ stats, e.2 = .arr stats ∧ ∀ stat ∈ stats, ReadableStat stat

/-- The document `md` says that the file group `fileId` of `partition` was replaced. -/
def Replaces (md : List (Str × Json)) (partition fileId : Str) : Prop :=
  ∃ parts ids, jGet c!"partitionToReplaceFileIds" md = some (.obj parts) ∧
    (partition, .arr ids) ∈ parts ∧ .str fileId ∈ ids

/-- A document with a readable list of replaced file groups. -/
def ReadableReplaced (md : List (Str × Json)) : Prop :=
  ∃ parts, jGet c!"partitionToReplaceFileIds" md = some (.obj parts) ∧
    ∀ e ∈ parts, ∃ ids, e.2 = .arr ids ∧ ∀ x ∈ ids, ∃ s, x = .str s

/-- The metadata document of an instant: the JSON object in its timeline file. -/
def docOf (t : Tree) (i : Instant) : Option (List (Str × Json)) :=
  match t.fileAt [c!".hoodie", i.timestamp ++ c!"." ++ suffix i.action i.state] with
  | some (_, .json (.obj md)) => some md
  | _ => none

/-- The slices of one file group are exactly those made by the writes `P`: a slice for each base file
written, with that base file; and the log files written against it. -/
structure SlicesOf (P : Write → Prop) (g : FileGroup) : Prop where
  no_slice : ∀ ts, sliceAt g ts = none ↔
    ∀ w, P w → w.id = groupId g → w.base.commitTimestamp ≠ ts
  base : ∀ ts s, sliceAt g ts = some s → ∀ w, P w → w.id = groupId g →
    w.base.commitTimestamp = ts → s.baseFile = w.base
  partition : ∀ ts s, sliceAt g ts = some s → s.partitionPath = g.partitionPath
  logs : ∀ ts s, sliceAt g ts = some s → ∀ l, l ∈ s.logFiles ↔
    ∃ w, P w ∧ w.id = groupId g ∧ w.base.commitTimestamp = ts ∧ l ∈ w.logs

/-- The file groups `gs` hold exactly the writes `P`: one file group for each file group written,
with exactly the slices made by those writes. -/
structure HoldsAll (gs : List FileGroup) (P : Write → Prop) : Prop where
  distinct : gs.Pairwise (fun a b => groupId a ≠ groupId b)
  groups : ∀ id, (∃ g ∈ gs, groupId g = id) ↔ ∃ w, P w ∧ w.id = id
  slices : ∀ g ∈ gs, SlicesOf P g

/-- No two writes give one slice of one file group different base files. -/
def NoConflict (P : Write → Prop) : Prop :=
  ∀ w w', P w → P w' → w.id = w'.id → w.base.commitTimestamp = w'.base.commitTimestamp →
    w.base = w'.base

/-- The slices are exactly the latest versions, up to `stop`, among the writes `P`: one slice for each
file group written, with the latest of the base files written (or written against) not later than
`stop`, and all log files written against it. -/
structure LatestWritten (P : Write → Prop) (stop : Str) (ss : List FileSlice) : Prop where
  distinct : (ss.map (fun s => (s.partitionPath, s.baseFile.fileId))).Nodup
  groups : ∀ w, P w → (compare w.base.commitTimestamp stop).isLE →
    ∃ s ∈ ss, (s.partitionPath, s.baseFile.fileId) = w.id
  sound : ∀ s ∈ ss, (∃ w, P w ∧ w.id = (s.partitionPath, s.baseFile.fileId) ∧ s.baseFile = w.base) ∧
    (compare s.baseFile.commitTimestamp stop).isLE
  latest : ∀ s ∈ ss, ∀ w, P w → w.id = (s.partitionPath, s.baseFile.fileId) →
    (compare w.base.commitTimestamp stop).isLE →
    (compare w.base.commitTimestamp s.baseFile.commitTimestamp).isLE
  logs : ∀ s ∈ ss, ∀ l, l ∈ s.logFiles ↔ ∃ w, P w ∧ w.id = (s.partitionPath, s.baseFile.fileId) ∧
    w.base.commitTimestamp = s.baseFile.commitTimestamp ∧ l ∈ w.logs

end Hudi.Spec
