import Verif.Model.Concurrent
import Verif.Model.Racing

/-!
# Concurrent queries through one table handle while the table is written

The steps of `Concurrent`, with the storage that answers each request made explicit as in `Racing`: other
processes may change the table between any two requests, so two queries may put different listings of one
partition into the cache.  Requests may fail.
-/

namespace Hudi

/-- The steps of a query as of a time before it uses the cache (crates/core/src/table/mod.rs:316-331,
crates/core/src/table/fs_view.rs:57-63). -/
def Table.planAsOfR (E : Env) (A : Arrow) (tb : Table) (depth : Nat) (R : Race) (ts : Str)
    (filters : List (Str × Str × Str)) : Res Plan := do
  let fs ← fromStrTuples filters
  let excl ← tb.timeline.replacedAsOfR E R ts
  let schema ← tb.partitionSchemaR R
  let pruner ← Pruner.new A fs schema tb.opts
  let listed ← listRelevantR A tb.opts depth R pruner
  return ⟨ts, pruner, excl, listed⟩

/-- The same for any query; `none` if the table has no commits
(crates/core/src/table/mod.rs:294-301). -/
def Table.planR (E : Env) (A : Arrow) (tb : Table) (depth : Nat) (R : Race) : Ask → Res (Option Plan)
  | .latest fs =>
    match tb.timeline.latestTimestamp with
    | some ts => do return some (← tb.planAsOfR E A depth R ts fs)
    | none => .ok none
  | .asOf ts fs => do return some (← tb.planAsOfR E A depth R ts fs)

/-- One step of query `i`; `none` if it cannot go on now.  The requests before the use of the cache have been
answered as `race` says; the metadata of a base file is what the storage `t` holds.
Used at crates/core/src/table/fs_view.rs:57-105. -/
def Conc.stepR (E : Env) (A : Arrow) (tb : Table) (depth : Nat) (R : Runtime) (race : Race) (t : Tree) (i : Nat)
    (ks : List Str) (s : Conc) : Option Conc :=
  match s.tasks[i]? with
  | none => none
  | some tk =>
    if s.scheduled A R i then
      match pcStepWith A (tb.planR E A depth race) t R (s.free i) (s.keysIn R) ks tk.ask s.cache tk.pc with
      | some (c, pc) => some ⟨c, s.tasks.set i ⟨tk.ask, pc⟩⟩
      | none => none
    else none

/-- A request that the query waits for fails: `?` returns the error (crates/core/src/table/fs_view.rs:57-91).
That a query with an invalid filter, or on a table without commits, returns before its first request is not
distinguished here. -/
def Pc.fail (A : Arrow) (c : Cache) (e : ErrKind) : Pc → Option Pc
  | .start => some (.finished (.err e))
  | .visiting p k rest j acc =>
    if (Pc.visiting p k rest j acc).suspended A c then some (.finished (.err e)) else none
  | _ => none

/-- A request that query `i` waits for fails; `none` if it waits for none.
Used at crates/core/src/table/fs_view.rs:57-91. -/
def Conc.fail (A : Arrow) (R : Runtime) (i : Nat) (e : ErrKind) (s : Conc) : Option Conc :=
  match s.tasks[i]? with
  | none => none
  | some tk =>
    if s.scheduled A R i then
      match tk.pc.fail A s.cache e with
      | some pc => some ⟨s.cache, s.tasks.set i ⟨tk.ask, pc⟩⟩
      | none => none
    else none

/-- What `Table::read_snapshot` and `read_snapshot_as_of` do with the slices of the query
(crates/core/src/table/mod.rs:409-447). -/
def Table.readSlicesR (E : Env) (A : Arrow) (C : Codec) (M : MergeEnv A) (tb : Table) (R : Race) (ask : Ask)
    (ss : List FileSlice) : Res (List Batch) :=
  match ask with
  | .latest _ =>
    match tb.timeline.latestTimestamp with
    | some ts => Res.mapL (readFileSliceR C A M E.ltz (tb.readerOpts [(Cfg.fileGroupEndTimestamp.key, ts)]) R) ss
    | none => .ok []
  | .asOf ts _ => Res.mapL (readFileSliceR C A M E.ltz (tb.readerOpts [(Cfg.fileGroupEndTimestamp.key, ts)]) R) ss

end Hudi
