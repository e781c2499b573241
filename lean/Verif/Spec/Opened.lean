import Verif.Spec.Config
import Verif.Spec.Records

/-! # Specification: opening a table by its base path

Everything here is about the storage and the sources of options, not about a loaded table. -/

namespace Hudi.Spec

/-- The hudi option that a table opened at `uri` with these calls has, given the options in its own
properties file and in the global configuration. -/
def hudiOptionOf (table global : Str → Option Str) (uri : Str) (calls : List Call) (k : Str) : Option Str :=
  firstOf [table k,
    if k = c!"hoodie.base.path" then some uri else lastGiven k (calls.flatMap Call.hudi),
    if HudiKey k then lastGiven k (calls.flatMap Call.generic) else none,
    if HudiKey k then global k else none]

/-- The storage option that it has, given those of the environment. -/
def storageOptionOf (env : Str → Option Str) (calls : List Call) (k : Str) : Option Str :=
  firstOf [lastGiven k (calls.flatMap Call.storage),
    if HudiKey k then none else lastGiven k (calls.flatMap Call.generic), env k]

/-- At `uri` there is the storage `s`, reached with the storage options given by the calls and the
environment, and `o` are the options given to its table by its properties file, the calls and the global
configuration.  The properties file does not send the reader elsewhere. -/
structure TableAt (w : World) (uri : Str) (calls : List Call) (s : Storage) (o : Opts) : Prop where
  connects : ∃ env : Str → Option Str, (∀ k v, env k = some v ↔ cloudVar w.vars k v) ∧
    ∀ so, (∀ k, hmGet k so = storageOptionOf env calls k) → w.connect so uri = .ok s
  options : ∃ table global, TableOptions s table ∧ GlobalOptions w s global ∧
    ∀ k, hmGet k o = hudiOptionOf table global uri calls k
  here : hmGet c!"hoodie.base.path" o = some uri

/-- No file in the timeline directory has the name of a completed action at a time that is too short to be
one (see C03). -/
def WellNamedTimeline (t : Tree) : Prop :=
  ∀ m ∈ listFiles t c!".hoodie", ∀ ts, ∀ a : Action, '.' ∉ ts →
    (m.name = ts ++ c!"." ++ suffix a .completed ∨ m.name = ts ++ c!"." ++ suffix a .completed ++ c!".") →
    ∃ h r, ts = h ++ r ∧ byteLen h = 14

/-- The document that a commit left in the timeline directory. -/
def CommitDoc (t : Tree) (c : HCommit) (md : List (Str × Json)) : Prop :=
  ∃ size, t.fileAt [c!".hoodie", c.ts ++ c!"." ++ suffix c.action .completed] = some (size, .json (.obj md))

/-- The storage `t` holds a table with options `o` after the history `h`, whose partition columns are
`cols`, as the first file written by its last commit has them; and the filters can be applied. -/
structure StoredTable (E : Env) (A : Arrow) (o : Opts) (t : Tree) (tz : Str) (h : History) (n : Nat)
    (filters : List (Str × Str × Str)) (fs : List Filter) (cols : Schema) (hive url : Bool) : Prop where
  tree : TreeWF t
  zone : timezoneOf o = .ok tz
  history : h.WF n
  stores : Stores E.ltz tz o t h
  last : ∃ c md path s, h.getLast? = some c ∧ CommitDoc t c md ∧ FirstFile md path ∧ ColumnsAt t path s ∧
    cols = s.filter (fun f => decide (f.name ∈ partitionFieldNames o))
  docs : ∀ c ∈ h, c.action = .replaceCommit → ∃ md, CommitDoc t c md ∧ ReadableReplaced md
  style : PathStyle o hive url
  parallelism : ∀ v, hmGet c!"hoodie.read.listing.parallelism" o = some v → parseUsize v ≠ some 0
  names : FieldNames cols
  parsed : fromStrTuples filters = .ok fs
  applicable : ∀ f ∈ fs, Applicable A cols f

end Hudi.Spec
