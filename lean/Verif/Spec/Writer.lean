import Verif.Spec.Objects
import Verif.Spec.Remains
import Verif.Spec.Racing

/-!
# Specification: writers that can stop at any moment

How Hudi writers work on a table, as far as storage is concerned.  A write puts base files, appends to log files, and
completes by putting its file into the timeline.  It may stop after any request; then it is rolled back: its base
files are deleted, and rollback blocks are appended to the log files of the file groups it has appended to.  The
requests of a write, and those of a rollback, come in any order, as from several executors, and may be repeated.
Writers also put and delete other files, which readers do not look at, at any moment.

Several writes may be under way at the same time, if they are on different file groups (conflicting writes are kept
apart).  Readers of this library go by the timestamps of writes, not by the order in which they complete.  Writes
therefore complete in the order of their timestamps, after earlier ones that failed have been rolled back; and a
write that appends to log files is rolled back when no later one is under way.  Without that, readers see data that
is not committed (`C27_false`, `C37_false`, `C100_false`) and miss changes (`C88_false`).
-/

namespace Hudi.Spec

/-- What the writers of a table agree on: the codec of log blocks, the time zone, the table's options, the
precombine column, the partition columns, the width of timestamps and the number of partition directories. -/
structure Setting where
  C : Codec
  ltz : LocalTz
  tz : Str
  o : Opts
  pre : Str
  pcols : Schema
  width : Nat
  depth : Nat

/-- A write: the commit it wants to become, the document of that commit, the contents of the base files and the
blocks for the log files, and the rows in these blocks. -/
structure Job where
  commit : HCommit
  doc : List (Str × Json)
  base : GroupKey → Batch
  blocks : GroupKey → Str × Str → List WBlock
  appended : GroupKey → List (List Cell)

/-- The history of the writes. -/
def commitsOf (js : List Job) : History := js.map Job.commit

/-- The write of that time. -/
def jobAt (js : List Job) (ts : Str) : Option Job := js.find? (fun j => decide (j.commit.ts = ts))

/-- The rows that the writes wrote. -/
def rowsOf (js : List Job) : Written where
  base := fun ts k => (jobAt js ts).elim [] (fun j => (j.base k).rows)
  appended := fun ts k => (jobAt js ts).elim [] (fun j => j.appended k)

/-- The columns of the base files that the writes wrote. -/
def columnsBy (js : List Job) : Columns := fun ts k => (jobAt js ts).elim [] (fun j => (j.base k).schema)

/-- A partition of the table. -/
def Site (S : Setting) (x : Str) : Prop := PartitionPath S.o x ∧ (pathSegs x).length = S.depth

/-- The path of a file of a partition. -/
def inPartition (x name : Str) : List Str := pathSegs x ++ [name]

/-- The path of a base file. -/
def baseAt (k : GroupKey) (token ts : Str) : List Str := inPartition k.1 (baseName k.2 token ts)

/-- The path of a log file written against the base file of the instant `base`. -/
def logAt (k : GroupKey) (base : Str) (l : Str × Str) : List Str := inPartition k.1 (logName k.2 base l.1 l.2)

/-- The path of the timeline file of a completed commit. -/
def instantAt (c : HCommit) : List Str := [c!".hoodie", c.ts ++ c!"." ++ suffix c.action .completed]

/-- The requests for data of a write that follows the completed commits `h`. -/
def Job.requests (h : History) (j : Job) : List Request :=
  j.commit.changes.flatMap (fun e => match e.2 with
    | .write token => [.put (baseAt e.1 token j.commit.ts) (.parquet 1 (j.base e.1))]
    | .append ls => match versionAfter h e.1 with
      | some v => ls.map (fun l => .append (logAt e.1 v.base l) (j.blocks e.1 l))
      | none => []
    | .replace => [])

/-- The request that completes a write. -/
def Job.completion (j : Job) : Request := .put (instantAt j.commit) (.json (.obj j.doc))

/-- What is required of a write that follows the completed ones `before`. -/
structure JobOk (S : Setting) (before : List Job) (j : Job) : Prop where
  /-- It is later than all of them, and its timestamp is readable. -/
  later : ∀ j' ∈ before, compare j'.commit.ts j.commit.ts = .lt
  time : WriterTimestamp j.commit.ts ∧ j.commit.ts.length = S.width
  parses : ∃ d, parseDatetime S.ltz j.commit.ts S.tz = .ok d
  /-- It changes each file group once, in the partitions of the table; only replacecommits replace; it does not
  touch replaced file groups, and appends only to file groups of the table. -/
  once : (j.commit.changes.map Prod.fst).Nodup
  sites : ∀ e ∈ j.commit.changes, Site S e.1.1
  replaces : ∀ k, (k, Change.replace) ∈ j.commit.changes → j.commit.action = .replaceCommit
  gone : ∀ j' ∈ before, ∀ k, (k, Change.replace) ∈ j'.commit.changes → ∀ ch, (k, ch) ∉ j.commit.changes
  live : ∀ k ls, (k, Change.append ls) ∈ j.commit.changes → versionAfter (commitsOf before) k ≠ none
  /-- The parts of file names are free of separators and control characters. -/
  ids : ∀ e ∈ j.commit.changes, NamePart e.1.2
  tokens : ∀ k token, (k, Change.write token) ∈ j.commit.changes → NamePart token
  logs : ∀ k ls, (k, Change.append ls) ∈ j.commit.changes → ∀ l ∈ ls, NamePart l.1 ∧ NamePart l.2
  /-- If the table merges the versions of records, base files have one row per record key, and the columns that
  readers need. -/
  batches : ∀ k token, (k, Change.write token) ∈ j.commit.changes → (j.base k).WF ∧ (OverwritesWithLatest S.o →
    ((j.base k).rows.map (keyOf (j.base k).schema)).Nodup ∧ MergeColumns (j.base k).schema S.pre)
  /-- Blocks can be read, carry the timestamp of the write, have the columns of the base file they are written
  against, and hold the appended rows. -/
  blocks : ∀ k ls v, (k, Change.append ls) ∈ j.commit.changes → versionAfter (commitsOf before) k = some v →
    ∀ l ∈ ls, ∀ w ∈ j.blocks k l, GoodBlock S.C S.ltz S.tz w ∧ WrittenBy w j.commit.ts ∧ ¬ IsRollback w ∧
      BatchesFit S.C (columnsBy before v.base k) [w]
  rows : ∀ k ls, (k, Change.append ls) ∈ j.commit.changes → ∀ r, r ∈ j.appended k ↔
    ∃ l ∈ ls, ∃ w ∈ j.blocks k l, ∃ bs, Decodes S.C w bs ∧ r ∈ bs.flatMap Batch.rows
  /-- The document says what is replaced; the first file it names is a base file with the partition columns. -/
  document : j.commit.action = .replaceCommit → ReadableReplaced j.doc ∧
    ∀ x f, Replaces j.doc x f ↔ ((x, f), Change.replace) ∈ j.commit.changes
  firstFile : ∃ j' ∈ before ++ [j], ∃ k token path, (k, Change.write token) ∈ j'.commit.changes ∧
    FirstFile j.doc path ∧ pathSegs path = baseAt k token j'.commit.ts ∧
    S.pcols = (j'.base k).schema.filter (fun f => decide (f.name ∈ partitionFieldNames S.o))

/-- A write that has begun: the requests that have been made, the time of the rollback if it is being rolled back,
and the file groups in which the rollback has left a block. -/
structure Attempt where
  job : Job
  ran : List Request
  undo : Option Str
  undone : List GroupKey

/-- A table and its writers: the objects in storage, the completed writes, the writes that have begun and neither
completed nor been rolled back, and the timestamps used so far. -/
structure Work where
  store : Objects
  done : List Job
  current : List Attempt
  used : List Str

/-- The commits that have completed. -/
def Work.history (s : Work) : History := commitsOf s.done

/-- The storage, as readers see it. -/
def Work.tree (s : Work) : Tree := treeOf s.store

/-- A file that readers do not look at: in the timeline directory, one that does not record a completed commit
(such as the table's properties, or the file of a requested action or one in flight); in a partition, metadata or
a checksum. -/
def Unread (S : Setting) (p : List Str) : Prop :=
  (∃ name, p = [c!".hoodie", name] ∧ NormalName name ∧
    ¬ ∃ i, CompletedFile S.ltz S.tz [.commit, .deltaCommit, .replaceCommit] name i) ∨
  ∃ x name, p = inPartition x name ∧ Site S x ∧ NormalName name ∧ Ignored name

/-- The timestamp is later than all used before. -/
def Fresh (s : Work) (ts : Str) : Prop := ∀ u ∈ s.used, compare u ts = .lt

/-- The other writes that are under way. -/
def Work.others (s : Work) (a : Attempt) : List Attempt :=
  s.current.filter (fun b => decide (b.job.commit.ts ≠ a.job.commit.ts))

/-- The writes are on different file groups. -/
def Apart (j j' : Job) : Prop := ∀ e ∈ j.commit.changes, ∀ e' ∈ j'.commit.changes, e.1 ≠ e'.1

/-- The steps of writers. -/
inductive WorkStep (S : Setting) : Work → Work → Prop
  /-- A request for a file that readers do not look at. -/
  | aside (s : Work) (q : Request) (h : Unread S q.path) : WorkStep S s { s with store := q.run s.store }
  /-- A write begins, on other file groups than those under way. -/
  | begin (s : Work) (j : Job) (hc : ∀ b ∈ s.current, Apart b.job j) (hf : Fresh s j.commit.ts)
    (hj : JobOk S s.done j) :
    WorkStep S s { s with current := ⟨j, [], none, []⟩ :: s.current, used := j.commit.ts :: s.used }
  /-- It makes one of its requests. -/
  | request (s : Work) (a : Attempt) (q : Request) (hc : a ∈ s.current) (hu : a.undo = none)
    (hq : q ∈ a.job.requests s.history) :
    WorkStep S s { s with store := q.run s.store, current := { a with ran := q :: a.ran } :: s.others a }
  /-- It completes, when all requests have been made, and no earlier write is under way. -/
  | complete (s : Work) (a : Attempt) (hc : a ∈ s.current) (hu : a.undo = none)
    (hq : ∀ q ∈ a.job.requests s.history, q ∈ a.ran)
    (ho : ∀ b ∈ s.others a, compare a.job.commit.ts b.job.commit.ts = .lt) :
    WorkStep S s { s with store := a.job.completion.run s.store, done := s.done ++ [a.job], current := s.others a }
  /-- It has failed, and so may have earlier attempts to roll it back: a rollback begins.  If the write appends to log
  files, no later write is under way. -/
  | rollback (s : Work) (a : Attempt) (r : Str) (hc : a ∈ s.current) (hf : Fresh s r)
    (ht : WriterTimestamp r ∧ r.length = S.width) (hp : ∃ d, parseDatetime S.ltz r S.tz = .ok d)
    (ho : ∀ k ls, (k, Change.append ls) ∈ a.job.commit.changes → ∀ b ∈ s.others a,
      compare b.job.commit.ts a.job.commit.ts = .lt) :
    WorkStep S s { s with current := { a with undo := some r } :: s.others a, used := r :: s.used }
  /-- The rollback deletes a base file. -/
  | delete (s : Work) (a : Attempt) (r : Str) (k : GroupKey) (token : Str) (hc : a ∈ s.current)
    (hu : a.undo = some r) (hk : (k, Change.write token) ∈ a.job.commit.changes) :
    WorkStep S s { s with store := (Request.delete (baseAt k token a.job.commit.ts)).run s.store }
  /-- The rollback appends a rollback block to a log file of a file group that the write may have appended to. -/
  | block (s : Work) (a : Attempt) (r : Str) (k : GroupKey) (ls : List (Str × Str)) (v : Version) (l : Str × Str)
    (w : WBlock) (hc : a ∈ s.current) (hu : a.undo = some r)
    (hk : (k, Change.append ls) ∈ a.job.commit.changes) (hv : versionAfter s.history k = some v)
    (hl : NamePart l.1 ∧ NamePart l.2) (hg : GoodBlock S.C S.ltz S.tz w) (hw : WrittenBy w r)
    (hr : RollsBack w a.job.commit.ts) :
    WorkStep S s { s with store := (Request.append (logAt k v.base l) [w]).run s.store,
                          current := { a with undone := k :: a.undone } :: s.others a }
  /-- The rollback ends, when the base files are gone and there are rollback blocks in the file groups that the
  write appended to. -/
  | recovered (s : Work) (a : Attempt) (r : Str) (hc : a ∈ s.current) (hu : a.undo = some r)
    (hd : ∀ k token, (k, Change.write token) ∈ a.job.commit.changes →
      s.store.get (baseAt k token a.job.commit.ts) = none)
    (hb : ∀ k ls v l, (k, Change.append ls) ∈ a.job.commit.changes → versionAfter s.history k = some v → l ∈ ls →
      Request.append (logAt k v.base l) (a.job.blocks k l) ∈ a.ran → k ∈ a.undone) :
    WorkStep S s { s with current := s.others a }

/-- Any number of steps. -/
inductive Works (S : Setting) : Work → Work → Prop
  | refl (s : Work) : Works S s s
  | step {s s' s'' : Work} (h : Works S s s') (hs : WorkStep S s' s'') : Works S s s''

/-- A table that does not exist yet. -/
def nothingYet : Work := ⟨[], [], [], []⟩

/-- A handle `tb`, opened when the writers had come to `s`, whose options are those that the writers agree on. -/
structure HandleAt (E : Env) (S : Setting) (s : Work) (tb : Table) : Prop where
  load : ∃ o, Timeline.load E o s.tree = .ok tb.timeline
  clock : E.ltz = S.ltz
  zone : timezoneOf tb.timeline.opts = .ok S.tz
  options : tb.opts = S.o
  merges : MergingReader tb S.tz S.pre

/-- Such a handle, and filters that can be applied. -/
structure OpenedAt (E : Env) (A : Arrow) (S : Setting) (s : Work) (tb : Table) (filters : List (Str × Str × Str))
    (fs : List Filter) (hive url : Bool) : Prop extends HandleAt E S s tb where
  names : FieldNames S.pcols
  parsed : fromStrTuples filters = .ok fs
  applicable : ∀ f ∈ fs, Applicable A S.pcols f
  style : PathStyle S.o hive url
  parallelism : ∀ v, hmGet c!"hoodie.read.listing.parallelism" S.o = some v → parseUsize v ≠ some 0

end Hudi.Spec
