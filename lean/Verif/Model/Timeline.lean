import Verif.Model.Selector
import Verif.Model.Builder

/-!
# Timeline

Models crates/core/src/timeline/mod.rs.  A timeline holds the instants loaded when the table was
opened; every other function reads the store at the time of the call, given as an argument.
-/

namespace Hudi

/-- `EARLIEST_START_TIMESTAMP` (crates/core/src/timeline/mod.rs:50). -/
def earliestStart : Str := c!"19700101000000000"

/-- `DEFAULT_LOADING_ACTIONS` (crates/core/src/timeline/mod.rs:51-52). -/
def defaultLoadingActions : List Action := [.commit, .deltaCommit, .replaceCommit]

/-- The loop of `Timeline::load_instants` (crates/core/src/timeline/mod.rs:100-111): errors are
ignored, panics are not. -/
def createInstants (ltz : LocalTz) (s : Selector) : List Str → Res (List Instant)
  | [] => .ok []
  | n :: ns =>
    match s.tryCreateInstant ltz n with
    | .ok i => do return i :: (← createInstants ltz s ns)
    | .err _ => createInstants ltz s ns
    | .panic => .panic

/-- `Timeline::load_instants` (crates/core/src/timeline/mod.rs:88-124). -/
def loadInstants (E : Env) (s : Selector) (t : Tree) (desc : Bool) : Res (List Instant) := do
  let names := (listFiles t hudiMetadataDir).map (fun m => m.name)
  let is ← createInstants E.ltz s names
  let sorted := E.sort is
  return if desc then sorted.reverse else sorted

/-- `Timeline` (crates/core/src/timeline/mod.rs:43-47). -/
structure Timeline where
  opts : Opts
  completed : List Instant
  deriving DecidableEq, Repr

/-- `Timeline::new_from_storage` (crates/core/src/timeline/mod.rs:69-86).  `Storage::new` is part of
opening the table and not modelled here. -/
def Timeline.load (E : Env) (o : Opts) (t : Tree) : Res Timeline := do
  let s ← completedActionsInRange E.ltz defaultLoadingActions o none none
  let is ← loadInstants E s t false
  return { opts := o, completed := is }

/-- `get_completed_commits`, `get_completed_deltacommits` and `get_completed_replacecommits`
(crates/core/src/timeline/mod.rs:134-168), one action each. -/
def Timeline.completedOf (E : Env) (tl : Timeline) (a : Action) (t : Tree) (desc : Bool) :
    Res (List Instant) := do
  let s ← completedActionsInRange E.ltz [a] tl.opts none none
  loadInstants E s t desc

/-- `Timeline::get_instant_metadata` (crates/core/src/timeline/mod.rs:198-204). -/
def instantMetadata (t : Tree) (i : Instant) : Res (List (Str × Json)) := do
  match (← getFile t i.relativePath).2 with
  | .json (.obj l) => .ok l
  | _ => .err .timeline

/-- `Timeline::get_completed_clustering_commits` (crates/core/src/timeline/mod.rs:175-196). -/
def Timeline.clusteringCommits (E : Env) (tl : Timeline) (t : Tree) (desc : Bool) :
    Res (List Instant) := do
  let is ← tl.completedOf E .replaceCommit t desc
  Res.foldL
    (fun acc i => do
      let md ← instantMetadata t i
      let op ← Res.ofOption .commitMetadata ((jGet c!"operationType" md).bind Json.asStr)
      return if op = c!"cluster" then acc ++ [i] else acc) [] is

/-- `get_latest_commit_timestamp_as_option` (crates/core/src/timeline/mod.rs:221-226). -/
def Timeline.latestTimestamp (tl : Timeline) : Option Str :=
  tl.completed.getLast?.map (fun i => i.timestamp)

/-- `get_latest_commit_timestamp` (crates/core/src/timeline/mod.rs:231-236). -/
def Timeline.latestTimestampR (tl : Timeline) : Res Str :=
  Res.ofOption .timeline tl.latestTimestamp

/-- `get_latest_commit_metadata` (crates/core/src/timeline/mod.rs:214-219). -/
def Timeline.latestMetadata (tl : Timeline) (t : Tree) : Res (List (Str × Json)) :=
  match tl.completed.getLast? with
  | some i => instantMetadata t i
  | none => .ok []

/-- `get_latest_avro_schema` (crates/core/src/timeline/mod.rs:239-254). -/
def Timeline.latestAvroSchema (tl : Timeline) (t : Tree) : Res Str := do
  let md ← tl.latestMetadata t
  Res.ofOption .commitMetadata
    (((jGet c!"extraMetadata" md).bind Json.asObj).bind
      (fun o => (jGet c!"schema" o).bind Json.asStr))

/-- The part of `get_latest_schema` after the metadata of the latest commit is read
(crates/core/src/timeline/mod.rs:259-310): the schema of the first file of the first partition written by
that commit. -/
def schemaOfCommit (t : Tree) (md : List (Str × Json)) : Res Schema := do
  let first := ((jGet c!"partitionToWriteStats" md).bind Json.asObj).bind List.head?
  let (partition, stats) ← Res.ofOption .commitMetadata first
  let stat := stats.asArr.bind List.head?
  match (stat.bind (Json.field c!"path")).bind Json.asStr with
  | some path =>
    if endsWith c!".parquet" path then getParquetSchema t path
    else do
      let base ← Res.ofOption .commitMetadata ((stat.bind (Json.field c!"baseFile")).bind Json.asStr)
      getParquetSchema t (pathPush partition base)
  | none => .err .commitMetadata

/-- `get_latest_schema` (crates/core/src/timeline/mod.rs:257-310). -/
def Timeline.latestSchema (tl : Timeline) (t : Tree) : Res Schema := do
  schemaOfCommit t (← tl.latestMetadata t)

/-- `get_replaced_file_groups_as_of` (crates/core/src/timeline/mod.rs:312-330). -/
def Timeline.replacedAsOf (E : Env) (tl : Timeline) (t : Tree) (ts : Str) :
    Res (List FileGroup) := do
  let s ← completedActionsInRange E.ltz [.replaceCommit] tl.opts none (some ts)
  Res.foldL
    (fun acc i => do
      let md ← instantMetadata t i
      return fgExtend acc (← buildReplacedFileGroups md)) [] (s.select tl.completed)

/-- One iteration of the loop of `get_file_groups_between`
(crates/core/src/timeline/mod.rs:347-354). -/
def betweenStep (t : Tree) (acc : List FileGroup × List FileGroup) (i : Instant) :
    Res (List FileGroup × List FileGroup) := do
  let md ← instantMetadata t i
  let gs ← buildFileGroups md
  let merged ← fgMerge acc.1 gs
  if i.action = .replaceCommit then
    let rs ← buildReplacedFileGroups md
    return (merged, fgExtend acc.2 rs)
  else return (merged, acc.2)

/-- `get_file_groups_between` (crates/core/src/timeline/mod.rs:334-361). -/
def Timeline.fileGroupsBetween (E : Env) (tl : Timeline) (t : Tree) (start stop : Option Str) :
    Res (List FileGroup) := do
  let s ← completedActionsInRange E.ltz defaultLoadingActions tl.opts start stop
  let r ← Res.foldL (betweenStep t) ([], []) (s.select tl.completed)
  return fgDifference r.1 r.2

end Hudi
