import Verif.Model.Table

/-!
# Concurrent queries through one table handle

All queries through a table handle, and through its clones, share the cache of the file system view:
a `DashMap` (dashmap 6.1), which is a number of hash maps ("shards") each behind its own lock.  This
file models the interleavings of any number of such queries, at the granularity of the locks.

* `DashMap::insert` waits for the lock of the key's shard and holds it for the insertion only.
* `DashMap::iter_mut` goes through the shards in order.  It waits for the lock of a shard while it
  still holds the lock of the shard before, and holds it while the caller looks at the entries.
* Waiting for a lock blocks the operating-system thread; waiting for the storage (`.await`) does not:
  the thread goes on with other queries that it has.

The store does not change during the run, so what a query only reads from the store (the timeline's
metadata, the schema, the listing) is computed in one step.
-/

namespace Hudi

/-- A query for file slices: `Table::get_file_slices` and `Table::get_file_slices_as_of`
(crates/core/src/table/mod.rs:294-318).  The split queries divide the answer of one of these. -/
inductive Ask
  | latest (filters : List (Str × Str × Str))
  | asOf (ts : Str) (filters : List (Str × Str × Str))
  deriving DecidableEq, Repr

/-- What a query knows when it begins to use the cache: the timestamp, the partition pruner, the
replaced file groups, and the listing of the relevant partitions.
Used at crates/core/src/table/fs_view.rs:57-67. -/
structure Plan where
  ts : Str
  pruner : Pruner
  excl : List FileGroup
  listed : Cache
  deriving DecidableEq, Repr

/-- The steps of a query as of a time before it uses the cache (crates/core/src/table/mod.rs:316-331,
crates/core/src/table/fs_view.rs:57-63). -/
def Table.planAsOf (E : Env) (A : Arrow) (tb : Table) (t : Tree) (ts : Str)
    (filters : List (Str × Str × Str)) : Res Plan := do
  let fs ← fromStrTuples filters
  let excl ← tb.timeline.replacedAsOf E t ts
  let schema ← tb.partitionSchema t
  let pruner ← Pruner.new A fs schema tb.opts
  let listed ← listRelevant A tb.opts t pruner
  return ⟨ts, pruner, excl, listed⟩

/-- The same for any query; `none` if the table has no commits
(crates/core/src/table/mod.rs:294-301). -/
def Table.plan (E : Env) (A : Arrow) (tb : Table) (t : Tree) : Ask → Res (Option Plan)
  | .latest fs =>
    match tb.timeline.latestTimestamp with
    | some ts => do return some (← tb.planAsOf E A t ts fs)
    | none => .ok none
  | .asOf ts fs => do return some (← tb.planAsOf E A t ts fs)

/-- Where a query is (crates/core/src/table/fs_view.rs:57-105). -/
inductive Pc
  /-- Before the listing has come back. -/
  | start
  /-- In the loop that inserts the listed partitions (fs_view.rs:64-67). -/
  | inserting (p : Plan) (rest : List (Str × List FileGroup))
  /-- About to go to shard `k`, still holding shard `k - 1` (`IterMut::next` of dashmap). -/
  | next (p : Plan) (k : Nat) (acc : List FileSlice)
  /-- Holding shard `k`, with the partitions `rest` of the shard to look at; in the first of them, at
  the file group number `j` (fs_view.rs:78-91). -/
  | visiting (p : Plan) (k : Nat) (rest : List Str) (j : Nat) (acc : List FileSlice)
  /-- Returned. -/
  | finished (r : Res (List FileSlice))
  deriving DecidableEq, Repr

/-- The shard whose lock a query holds between two steps.
Used at crates/core/src/table/fs_view.rs:64-91. -/
def Pc.holds : Pc → Option Nat
  | .next _ (k + 1) _ => some k
  | .visiting _ k _ _ _ => some k
  | _ => none

/-- A query in progress. Used at crates/core/src/table/fs_view.rs:57-105. -/
structure QTask where
  ask : Ask
  pc : Pc
  deriving DecidableEq, Repr

/-- The cache and the queries. Used at crates/core/src/table/fs_view.rs:38-42. -/
structure Conc where
  cache : Cache
  tasks : List QTask
  deriving DecidableEq, Repr

/-- How the queries are run: the number of shards, the shard of a key (by its hash), and the thread
that runs each query. Used at crates/core/src/table/fs_view.rs:40. -/
structure Runtime where
  shards : Nat
  shard : Str → Nat
  thread : Nat → Nat

/-- A query waits for the storage, or has not begun, or has returned: its thread is free.  In the loop
over the file groups it waits for the storage when the slice's metadata is not loaded yet
(crates/core/src/file_group/file_slice.rs:113-125). -/
def Pc.suspended (A : Arrow) (c : Cache) : Pc → Bool
  | .start => true
  | .finished _ => true
  | .visiting p _ (x :: _) j _ =>
    p.pruner.shouldInclude A x &&
    match (hmGet x c).bind (fun gs => gs[j]?) with
    | some g => !fgContains p.excl g &&
      (mapLastLe p.ts g.slices).any (fun e => !e.2.baseFile.fileMeta.any (fun m => m.full))
    | none => false
  | _ => false

/-- The lock of shard `k` can be taken by query `i`: no other query holds it.
Used at crates/core/src/table/fs_view.rs:64-91. -/
def Conc.free (s : Conc) (i k : Nat) : Bool :=
  (List.range s.tasks.length).all (fun j => j == i || (s.tasks[j]?).all (fun tk => tk.pc.holds ≠ some k))

/-- The thread of query `i` is free for it: no other query of the thread is running or blocked.
Used at crates/core/src/table/fs_view.rs:64-91. -/
def Conc.scheduled (A : Arrow) (R : Runtime) (s : Conc) (i : Nat) : Bool :=
  (List.range s.tasks.length).all (fun j =>
    j == i || R.thread j != R.thread i || (s.tasks[j]?).all (fun tk => tk.pc.suspended A s.cache))

/-- The keys of the cache in shard `k`. Used at crates/core/src/table/fs_view.rs:64-91. -/
def Conc.keysIn (R : Runtime) (s : Conc) (k : Nat) : List Str :=
  (s.cache.map Prod.fst).filter (fun x => R.shard x = k)

/-- One step of a query on the cache (crates/core/src/table/fs_view.rs:57-105): the new cache and the
new place, or `none` if it is waiting for a lock.  `plan` says what the steps before the use of the cache
come to; `t` is what the storage holds.  `free k` says whether the lock of shard `k` can be
taken.  `ks` is the order in which a hash map is gone through where that matters; it must be an
order of the map's keys. -/
def pcStepWith (A : Arrow) (plan : Ask → Res (Option Plan)) (t : Tree) (R : Runtime) (free : Nat → Bool)
    (keysIn : Nat → List Str) (ks : List Str) (ask : Ask) (c : Cache) : Pc → Option (Cache × Pc)
  | .start =>
    match plan ask with
    | .ok none => some (c, .finished (.ok []))
    | .ok (some p) =>
      if ks.isPerm (p.listed.map Prod.fst) then
        some (c, .inserting p (ks.filterMap (fun x => (hmGet x p.listed).map (fun gs => (x, gs)))))
      else none
    | .err e => some (c, .finished (.err e))
    | .panic => some (c, .finished .panic)
  | .inserting p [] => some (c, .next p 0 [])
  | .inserting p ((x, gs) :: rest) =>
    if free (R.shard x) then some (hmInsert x gs c, .inserting p rest) else none
  | .next p k acc =>
    if k = R.shards then some (c, .finished (.ok acc))
    else if free k then
      if ks.isPerm (keysIn k) then some (c, .visiting p k ks 0 acc) else none
    else none
  | .visiting p k [] _ acc => some (c, .next p (k + 1) acc)
  | .visiting p k (x :: rest) j acc =>
    if p.pruner.shouldInclude A x = false then some (c, .visiting p k rest 0 acc)
    else
      match hmGet x c with
      | none => some (c, .visiting p k rest 0 acc)
      | some gs =>
        match gs[j]? with
        | none => some (c, .visiting p k rest 0 acc)
        | some g =>
          match collectGroup t p.ts p.excl g with
          | .ok (g', s) =>
            some (hmInsert x (gs.set j g') c, .visiting p k (x :: rest) (j + 1) (acc ++ s.toList))
          | .err e => some (c, .finished (.err e))
          | .panic => some (c, .finished .panic)
  | .finished _ => none

/-- One step of a query while the storage does not change
(crates/core/src/table/fs_view.rs:57-105). -/
def pcStep (E : Env) (A : Arrow) (tb : Table) (t : Tree) (R : Runtime) (free : Nat → Bool)
    (keysIn : Nat → List Str) (ks : List Str) (ask : Ask) (c : Cache) (pc : Pc) : Option (Cache × Pc) :=
  pcStepWith A (tb.plan E A t) t R free keysIn ks ask c pc

/-- One step of query `i`; `none` if it cannot go on now.
Used at crates/core/src/table/fs_view.rs:64-91. -/
def Conc.step (E : Env) (A : Arrow) (tb : Table) (t : Tree) (R : Runtime) (i : Nat) (ks : List Str)
    (s : Conc) : Option Conc :=
  match s.tasks[i]? with
  | none => none
  | some tk =>
    if s.scheduled A R i then
      match pcStep E A tb t R (s.free i) (s.keysIn R) ks tk.ask s.cache tk.pc with
      | some (c, pc) => some ⟨c, s.tasks.set i ⟨tk.ask, pc⟩⟩
      | none => none
    else none

/-- All queries at their beginning, with the cache the handle has.
Used at crates/core/src/table/fs_view.rs:64-91. -/
def Conc.init (c : Cache) (asks : List Ask) : Conc := ⟨c, asks.map (fun a => ⟨a, .start⟩)⟩

end Hudi
