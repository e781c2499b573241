import Verif.Spec.Snapshot
import Verif.Spec.Timestamp

/-!
# Specification: commit histories

A simple model of a table, independent of how it is stored: a history is a list of completed commits,
each of which changes some file groups; the table after a history maps each file group to its current
version.  `Stores` says what files the storage holds after a history.
-/

namespace Hudi.Spec

/-- A file group: the path of its partition and its file id. -/
abbrev GroupKey := Str × Str

/-- What a commit does to a file group. -/
inductive Change
  /-- Write a new base file (with this write token): insert, update, clustering or compaction. -/
  | write (token : Str)
  /-- Append to log files (given by version and write token) against the current base file. -/
  | append (logs : List (Str × Str))
  /-- Replace the file group by others: it is no longer part of the table. -/
  | replace
  deriving DecidableEq

/-- A completed commit. -/
structure HCommit where
  ts : Str
  action : Action
  changes : List (GroupKey × Change)
  deriving DecidableEq

/-- The completed commits, in order. -/
abbrev History := List HCommit

/-- The version of a file group: the instant and write token of its base file, and the log files
written against it. -/
structure Version where
  base : Str
  token : Str
  logs : List (Str × Str)
  deriving DecidableEq

/-- The effect of a change at `ts`. -/
def Change.apply (ts : Str) : Change → Option Version → Option Version
  | .write token, _ => some ⟨ts, token, []⟩
  | .append logs, v => v.map (fun v => { v with logs := v.logs ++ logs })
  | .replace, _ => none

/-- What the commit does to the file group, if anything. -/
def HCommit.changeOf (c : HCommit) (k : GroupKey) : Option Change :=
  (c.changes.find? (fun e => decide (e.1 = k))).map Prod.snd

/-- The version of the file group after the history; `none` if it is not part of the table. -/
def versionAfter (h : History) (k : GroupKey) : Option Version :=
  h.foldl (fun v c => match c.changeOf k with | none => v | some ch => ch.apply c.ts v) none

/-- The table as of `T`: after the commits up to `T`. -/
def tableAt (h : History) (T : Str) (k : GroupKey) : Option Version :=
  versionAfter (h.filter (fun c => (compare c.ts T).isLE)) k

/-- The log files that the commits append to for the file group before they next write a base file for
it or replace it. -/
def appendsUntilWrite : History → GroupKey → List (Str × Str)
  | [], _ => []
  | c :: h, k =>
    match c.changeOf k with
    | none => appendsUntilWrite h k
    | some (.append ls) => ls ++ appendsUntilWrite h k
    | some _ => []

/-- What the names of the stored files show of the table as of `T`: the name of a log file says
against which base file it was written, but not when, so log files of later commits show too. -/
def shownAt (h : History) (T : Str) (k : GroupKey) : Option Version :=
  (tableAt h T k).map (fun v =>
    { v with logs := v.logs ++ appendsUntilWrite (h.filter (fun c => (compare c.ts T).isGT)) k })

/-- A part of a data file's name. -/
def NamePart (s : Str) : Prop :=
  s ≠ [] ∧ '_' ∉ s ∧ '.' ∉ s ∧ '/' ∉ s ∧ ∀ c ∈ s, 32 ≤ c.toNat ∧ c.toNat ≠ 127

instance (s : Str) : Decidable (NamePart s) := by unfold NamePart; infer_instance

/-- A history as Hudi writers make it, with timestamps of `n` digits. -/
structure History.WF (h : History) (n : Nat) : Prop where
  /-- Timestamps increase. -/
  ordered : h.Pairwise (fun a b => compare a.ts b.ts = .lt)
  times : ∀ c ∈ h, WriterTimestamp c.ts ∧ c.ts.length = n
  /-- A commit changes a file group once. -/
  once : ∀ c ∈ h, (c.changes.map Prod.fst).Nodup
  /-- Only replacecommits replace, and a replaced file group is never written to again. -/
  replaces : ∀ c ∈ h, ∀ k, (k, Change.replace) ∈ c.changes → c.action = .replaceCommit
  gone : h.Pairwise (fun c c' => ∀ k, (k, Change.replace) ∈ c.changes → ∀ ch, (k, ch) ∉ c'.changes)
  /-- The parts of file names are free of separators and control characters. -/
  ids : ∀ c ∈ h, ∀ e ∈ c.changes, NamePart e.1.2
  tokens : ∀ c ∈ h, ∀ k token, (k, Change.write token) ∈ c.changes → NamePart token
  logs : ∀ c ∈ h, ∀ k ls, (k, Change.append ls) ∈ c.changes → ∀ l ∈ ls, NamePart l.1 ∧ NamePart l.2

/-- The name of a base file. -/
def baseName (fileId token ts : Str) : Str :=
  fileId ++ c!"_" ++ token ++ c!"_" ++ ts ++ c!".parquet"

/-- The name of a log file. -/
def logName (fileId base version token : Str) : Str :=
  c!"." ++ fileId ++ c!"_" ++ base ++ c!".log." ++ version ++ c!"_" ++ token

/-- The history put a file of that name into the partition: a commit wrote it as a base file, or
appended to it as a log file against the base file that was current at the time. -/
def Recorded (h : History) (partition name : Str) : Prop :=
  ∃ h1 c h2 fileId, h = h1 ++ c :: h2 ∧
    ((∃ token, ((partition, fileId), Change.write token) ∈ c.changes ∧
        name = baseName fileId token c.ts) ∨
     (∃ ls l v, ((partition, fileId), Change.append ls) ∈ c.changes ∧ l ∈ ls ∧
        versionAfter h1 (partition, fileId) = some v ∧ name = logName fileId v.base l.1 l.2))

/-- The storage `t` holds the table after the history: the completed files of the timeline are those
of its commits, the metadata of replacecommits says what they replaced, and the partitions hold the
files the commits wrote, besides files that are not data files. -/
structure Stores (ltz : LocalTz) (tz : Str) (o : Opts) (t : Tree) (h : History) : Prop where
  timeline : ∀ name,
    ((∃ m ∈ listFiles t c!".hoodie", m.name = name) ∧
      ∃ i, CompletedFile ltz tz [.commit, .deltaCommit, .replaceCommit] name i) ↔
    ∃ c ∈ h, name = c.ts ++ c!"." ++ suffix c.action .completed
  replaced : ∀ c ∈ h, c.action = .replaceCommit → ∃ md size,
    t.fileAt [c!".hoodie", c.ts ++ c!"." ++ suffix c.action .completed] = some (size, .json (.obj md)) ∧
    ∀ x f, Replaces md x f ↔ ((x, f), Change.replace) ∈ c.changes
  partitions : ∀ c ∈ h, ∀ e ∈ c.changes, PartitionOf o t e.1.1
  files : ∀ x, PartitionOf o t x → ∀ name,
    (∃ size, (name, size) ∈ filesOf t x ∧ ¬ Ignored name) ↔ Recorded h x name

/-- The file group of a slice. -/
def sliceKey (s : FileSlice) : GroupKey := (s.partitionPath, s.baseFile.fileId)

/-- The version that the slice shows: the parts of its base file's name, and those of its log files. -/
def ShowsVersion (s : FileSlice) (v : Version) : Prop :=
  s.baseFile.commitTimestamp = v.base ∧ s.baseFile.writeToken = v.token ∧
  s.baseFile.extension = c!"parquet" ∧
  (∀ l ∈ s.logFiles, l.fileId = s.baseFile.fileId ∧ l.baseCommitTimestamp = v.base ∧
    l.extension = c!"log") ∧
  ∀ l, l ∈ v.logs ↔ ∃ f ∈ s.logFiles, (f.version, f.writeToken) = l

/-- The slices are exactly the file groups of `table` in the partitions `parts`, each once, each in its
current version. -/
structure ShowsTable (table : GroupKey → Option Version) (parts : Str → Prop) (ss : List FileSlice) :
    Prop where
  distinct : (ss.map sliceKey).Nodup
  groups : ∀ k, (∃ s ∈ ss, sliceKey s = k) ↔ parts k.1 ∧ table k ≠ none
  versions : ∀ s ∈ ss, ∀ v, table (sliceKey s) = some v → ShowsVersion s v

end Hudi.Spec
