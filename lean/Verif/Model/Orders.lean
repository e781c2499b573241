import Verif.Model.Reader

/-!
# The order in which hash maps are gone through

The model of crates/core/src/table goes through hash maps and hash sets in the order of insertion, and lists the
partitions one after the other.  Here the same functions go through them in an arbitrary order and finish listing
the partitions in an arbitrary order.  Every function below differs from the one of the same name without `H` only
where an order is applied.
-/

namespace Hudi

/-- The orders in which one call goes through the hash maps and hash sets it meets (`std::collections::HashMap`,
`HashSet`, with a random seed per map, and `DashMap`), and in which the concurrent listings of partitions finish.
Used at crates/core/src/table/listing.rs:112, 171-184, crates/core/src/table/fs_view.rs:64, 78,
crates/core/src/timeline/mod.rs:324, 350 and crates/core/src/table/mod.rs:373. -/
structure HashOrder where
  /-- The base files of a partition by file id. -/
  files : Str → List (Str × List BaseFile) → List (Str × List BaseFile)
  files_perm : ∀ p l, (files p l).Perm l
  /-- The partitions, as their listings finish. -/
  listed : List Str → List Str
  listed_perm : ∀ l, (listed l).Perm l
  /-- The partitions of the cache. -/
  cached : Cache → Cache
  cached_perm : ∀ c, (cached c).Perm c
  /-- A set of file groups. -/
  groups : List FileGroup → List FileGroup
  groups_perm : ∀ l, (groups l).Perm l

/-- The order that the rest of the model goes by. Used at crates/core/src/table/listing.rs:112. -/
def HashOrder.inserted : HashOrder :=
  ⟨fun _ l => l, fun _ _ => .refl _, id, fun _ => .refl _, id, fun _ => .refl _, id, fun _ => .refl _⟩

/-- `FileLister::list_file_groups_for_partition` (crates/core/src/table/listing.rs:63-123). -/
def listFileGroupsH (H : HashOrder) (o : Opts) (t : Tree) (partition : Str) : Res (List FileGroup) := do
  let format ← baseFileFormatOf o
  let acc ← Res.foldL (listStep format) ⟨[], []⟩ (listFiles t partition)
  Res.mapL (listGroup partition acc.logs) (H.files partition acc.bases)

/-- The file groups of one partition with its path (crates/core/src/table/listing.rs:172-175). -/
def listWithPathH (H : HashOrder) (o : Opts) (t : Tree) (path : Str) : Res (Str × List FileGroup) := do
  return (path, ← listFileGroupsH H o t path)

/-- `FileLister::list_file_groups_for_relevant_partitions` (crates/core/src/table/listing.rs:153-187). -/
def listRelevantH (H : HashOrder) (A : Arrow) (o : Opts) (t : Tree) (p : Pruner) :
    Res (List (Str × List FileGroup)) := do
  if (← isTablePartitioned o) = false then do
    let gs ← listFileGroupsH H o t []
    return [([], gs)]
  else do
    let paths ← relevantPartitions A o t p
    let par ← listingParallelismOf o
    if par = 0 then Res.panic
    else do
      let es ← Res.mapL (listWithPathH H o t) (H.listed paths)
      return hmOfList es

/-- `FileSystemView::load_file_groups` (crates/core/src/table/fs_view.rs:57-69): the new entries are inserted in
some order. -/
def loadFileGroupsH (H : HashOrder) (A : Arrow) (o : Opts) (t : Tree) (p : Pruner) (c : Cache) : Res Cache := do
  let m ← listRelevantH H A o t p
  return hmExtend c (H.cached m)

/-- `FileSystemView::get_file_slices_as_of` (crates/core/src/table/fs_view.rs:96-105). -/
def viewSlicesAsOfH (H : HashOrder) (A : Arrow) (o : Opts) (t : Tree) (ts : Str) (p : Pruner)
    (excl : List FileGroup) (c : Cache) : Cache × Res (List FileSlice) :=
  match loadFileGroupsH H A o t p c with
  | .ok c' => collectSlices A t ts p excl (H.cached c')
  | .err e => (c, .err e)
  | .panic => (c, .panic)

/-- `get_replaced_file_groups_as_of` (crates/core/src/timeline/mod.rs:312-330). -/
def Timeline.replacedAsOfH (H : HashOrder) (E : Env) (tl : Timeline) (t : Tree) (ts : Str) :
    Res (List FileGroup) := do
  let s ← completedActionsInRange E.ltz [.replaceCommit] tl.opts none (some ts)
  Res.foldL
    (fun acc i => do
      let md ← instantMetadata t i
      return fgExtend acc (H.groups (← buildReplacedFileGroups md))) [] (s.select tl.completed)

/-- One iteration of the loop of `get_file_groups_between` (crates/core/src/timeline/mod.rs:347-354). -/
def betweenStepH (H : HashOrder) (t : Tree) (acc : List FileGroup × List FileGroup) (i : Instant) :
    Res (List FileGroup × List FileGroup) := do
  let md ← instantMetadata t i
  let gs ← buildFileGroups md
  let merged ← fgMerge acc.1 (H.groups gs)
  if i.action = .replaceCommit then
    let rs ← buildReplacedFileGroups md
    return (merged, fgExtend acc.2 (H.groups rs))
  else return (merged, acc.2)

/-- `get_file_groups_between` (crates/core/src/timeline/mod.rs:334-361). -/
def Timeline.fileGroupsBetweenH (H : HashOrder) (E : Env) (tl : Timeline) (t : Tree) (start stop : Option Str) :
    Res (List FileGroup) := do
  let s ← completedActionsInRange E.ltz defaultLoadingActions tl.opts start stop
  let r ← Res.foldL (betweenStepH H t) ([], []) (s.select tl.completed)
  return fgDifference (H.groups r.1) r.2

/-- `Table::get_file_slices_internal` (crates/core/src/table/mod.rs:320-335). -/
def Table.fileSlicesInternalH (H : HashOrder) (E : Env) (A : Arrow) (tb : Table) (t : Tree) (ts : Str)
    (filters : List Filter) : Query (List FileSlice) := do
  let excl ← Query.lift (tb.timeline.replacedAsOfH H E t ts)
  let schema ← Query.lift (tb.partitionSchema t)
  let pruner ← Query.lift (Pruner.new A filters schema tb.opts)
  viewSlicesAsOfH H A tb.opts t ts pruner excl

/-- `Table::get_file_slices` (crates/core/src/table/mod.rs:294-301). -/
def Table.fileSlicesH (H : HashOrder) (E : Env) (A : Arrow) (tb : Table) (t : Tree)
    (filters : List (Str × Str × Str)) : Query (List FileSlice) :=
  match tb.timeline.latestTimestamp with
  | some ts => do
    let fs ← Query.lift (fromStrTuples filters)
    tb.fileSlicesInternalH H E A t ts fs
  | none => pure []

/-- `Table::get_file_slices_as_of` (crates/core/src/table/mod.rs:311-318). -/
def Table.fileSlicesAsOfH (H : HashOrder) (E : Env) (A : Arrow) (tb : Table) (t : Tree) (ts : Str)
    (filters : List (Str × Str × Str)) : Query (List FileSlice) := do
  let fs ← Query.lift (fromStrTuples filters)
  tb.fileSlicesInternalH H E A t ts fs

/-- `Table::get_file_slices_splits_internal` (crates/core/src/table/mod.rs:267-285). -/
def Table.fileSlicesSplitsInternalH (H : HashOrder) (E : Env) (A : Arrow) (tb : Table) (t : Tree) (n : Nat)
    (ts : Str) (filters : List Filter) : Query (List (List FileSlice)) := do
  let l ← tb.fileSlicesInternalH H E A t ts filters
  Query.lift (splitSlices n l)

/-- `Table::get_file_slices_splits` (crates/core/src/table/mod.rs:236-248). -/
def Table.fileSlicesSplitsH (H : HashOrder) (E : Env) (A : Arrow) (tb : Table) (t : Tree) (n : Nat)
    (filters : List (Str × Str × Str)) : Query (List (List FileSlice)) :=
  match tb.timeline.latestTimestamp with
  | some ts => do
    let fs ← Query.lift (fromStrTuples filters)
    tb.fileSlicesSplitsInternalH H E A t n ts fs
  | none => pure []

/-- `Table::get_file_slices_splits_as_of` (crates/core/src/table/mod.rs:256-265). -/
def Table.fileSlicesSplitsAsOfH (H : HashOrder) (E : Env) (A : Arrow) (tb : Table) (t : Tree) (n : Nat) (ts : Str)
    (filters : List (Str × Str × Str)) : Query (List (List FileSlice)) := do
  let fs ← Query.lift (fromStrTuples filters)
  tb.fileSlicesSplitsInternalH H E A t n ts fs

/-- `Table::get_file_slices_between_internal` (crates/core/src/table/mod.rs:363-380). -/
def Table.fileSlicesBetweenInternalH (H : HashOrder) (E : Env) (tb : Table) (t : Tree) (start stop : Str) :
    Res (List FileSlice) := do
  let gs ← tb.timeline.fileGroupsBetweenH H E t (some start) (some stop)
  return gs.filterMap (fun g => g.sliceAsOf stop)

/-- `Table::get_file_slices_between` (crates/core/src/table/mod.rs:345-361). -/
def Table.fileSlicesBetweenH (H : HashOrder) (E : Env) (tb : Table) (t : Tree) (start stop : Option Str) :
    Res (List FileSlice) :=
  match stop.or tb.timeline.latestTimestamp with
  | none => .ok []
  | some stop => tb.fileSlicesBetweenInternalH H E t (start.getD earliestStart) stop

/-- `Table::read_snapshot_internal` (crates/core/src/table/mod.rs:432-447). -/
def Table.readSnapshotInternalH (H : HashOrder) (E : Env) (A : Arrow) (C : Codec) (M : MergeEnv A) (tb : Table)
    (t : Tree) (ts : Str) (filters : List Filter) : Query (List Batch) := do
  let ss ← tb.fileSlicesInternalH H E A t ts filters
  let o := tb.readerOpts [(Cfg.fileGroupEndTimestamp.key, ts)]
  Query.lift (Res.mapL (readFileSlice C A M E.ltz o t) ss)

/-- `Table::read_snapshot` (crates/core/src/table/mod.rs:409-416). -/
def Table.readSnapshotH (H : HashOrder) (E : Env) (A : Arrow) (C : Codec) (M : MergeEnv A) (tb : Table) (t : Tree)
    (filters : List (Str × Str × Str)) : Query (List Batch) :=
  match tb.timeline.latestTimestamp with
  | some ts => do
    let fs ← Query.lift (fromStrTuples filters)
    tb.readSnapshotInternalH H E A C M t ts fs
  | none => pure []

/-- `Table::read_snapshot_as_of` (crates/core/src/table/mod.rs:423-430). -/
def Table.readSnapshotAsOfH (H : HashOrder) (E : Env) (A : Arrow) (C : Codec) (M : MergeEnv A) (tb : Table)
    (t : Tree) (ts : Str) (filters : List (Str × Str × Str)) : Query (List Batch) := do
  let fs ← Query.lift (fromStrTuples filters)
  tb.readSnapshotInternalH H E A C M t ts fs

/-- `Table::read_incremental_records` (crates/core/src/table/mod.rs:456-481). -/
def Table.readIncrementalH (H : HashOrder) (E : Env) (A : Arrow) (C : Codec) (M : MergeEnv A) (tb : Table)
    (t : Tree) (start : Str) (stop : Option Str) : Res (List Batch) :=
  match stop.or tb.timeline.latestTimestamp with
  | none => .ok []
  | some stop => do
    let ss ← tb.fileSlicesBetweenInternalH H E t start stop
    let o := tb.readerOpts [(Cfg.fileGroupStartTimestamp.key, start), (Cfg.fileGroupEndTimestamp.key, stop)]
    Res.mapL (readFileSlice C A M E.ltz o t) ss

end Hudi
