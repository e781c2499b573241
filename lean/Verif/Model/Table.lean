import Verif.Model.Timeline
import Verif.Model.FsView

/-!
# Table

Models the file-slice queries of crates/core/src/table/mod.rs.  A query takes the store at the time
of the call and the cache of the handle's file system view, and returns the new cache with the
result.
-/

namespace Hudi

/-- `Table` (crates/core/src/table/mod.rs:112-119); the cache of the file system view is kept
apart. -/
structure Table where
  opts : Opts
  storageOpts : Opts
  timeline : Timeline
  deriving DecidableEq, Repr

/-- A computation that reads and updates the cache of the table's file system view.
Used at crates/core/src/table/fs_view.rs:38-42. -/
abbrev Query (α : Type) := Cache → Cache × Res α

/-- A query that neither reads nor updates the cache.
Used at crates/core/src/table/mod.rs:320-335. -/
def Query.lift {α : Type} (r : Res α) : Query α := fun c => (c, r)

/-- The `?` operator on queries. Used at crates/core/src/table/mod.rs:320-335. -/
def Query.bind {α β : Type} (x : Query α) (f : α → Query β) : Query β := fun c =>
  match x c with
  | (c', .ok a) => f a c'
  | (c', .err e) => (c', .err e)
  | (c', .panic) => (c', .panic)

instance : Monad Query where
  pure a := Query.lift (.ok a)
  bind := Query.bind

/-- `Table::get_avro_schema` (crates/core/src/table/mod.rs:197-199). -/
def Table.avroSchema (tb : Table) (t : Tree) : Res Str := tb.timeline.latestAvroSchema t

/-- `Table::get_schema` (crates/core/src/table/mod.rs:202-204). -/
def Table.schema (tb : Table) (t : Tree) : Res Schema := tb.timeline.latestSchema t

/-- `Table::get_partition_schema` (crates/core/src/table/mod.rs:207-224): the fields of the latest
schema that are partition fields, in the order of the schema. -/
def Table.partitionSchema (tb : Table) (t : Tree) : Res Schema := do
  let fields ← partitionFieldsOf tb.opts
  let schema ← tb.schema t
  return schema.filter (fun f => fields.contains f.name)

/-- `Table::get_file_slices_internal` (crates/core/src/table/mod.rs:320-335). -/
def Table.fileSlicesInternal (E : Env) (A : Arrow) (tb : Table) (t : Tree) (ts : Str)
    (filters : List Filter) : Query (List FileSlice) := do
  let excl ← Query.lift (tb.timeline.replacedAsOf E t ts)
  let schema ← Query.lift (tb.partitionSchema t)
  let pruner ← Query.lift (Pruner.new A filters schema tb.opts)
  viewSlicesAsOf A tb.opts t ts pruner excl

/-- `Table::get_file_slices` (crates/core/src/table/mod.rs:294-301). -/
def Table.fileSlices (E : Env) (A : Arrow) (tb : Table) (t : Tree)
    (filters : List (Str × Str × Str)) : Query (List FileSlice) :=
  match tb.timeline.latestTimestamp with
  | some ts => do
    let fs ← Query.lift (fromStrTuples filters)
    tb.fileSlicesInternal E A t ts fs
  | none => pure []

/-- `Table::get_file_slices_as_of` (crates/core/src/table/mod.rs:311-318). -/
def Table.fileSlicesAsOf (E : Env) (A : Arrow) (tb : Table) (t : Tree) (ts : Str)
    (filters : List (Str × Str × Str)) : Query (List FileSlice) := do
  let fs ← Query.lift (fromStrTuples filters)
  tb.fileSlicesInternal E A t ts fs

/-- Rust's `slice::chunks` (std) with a bound on the number of chunks.
Used at crates/core/src/table/mod.rs:282. -/
def chunksAux {α : Type} (k : Nat) : Nat → List α → List (List α)
  | 0, _ => []
  | _, [] => []
  | n + 1, x :: xs => (x :: xs).take k :: chunksAux k n ((x :: xs).drop k)

/-- Rust's `slice::chunks` (std): pieces of `k` elements, the last possibly shorter; `k = 0`
panics. Used at crates/core/src/table/mod.rs:282. -/
def chunks {α : Type} (k : Nat) (l : List α) : Res (List (List α)) :=
  if k = 0 then .panic else .ok (chunksAux k l.length l)

/-- The splitting of file slices (crates/core/src/table/mod.rs:273-284). -/
def splitSlices {α : Type} (n : Nat) (l : List α) : Res (List (List α)) :=
  if l.isEmpty then .ok []
  else
    let n := max 1 n
    chunks ((l.length + n - 1) / n) l

/-- `Table::get_file_slices_splits_internal` (crates/core/src/table/mod.rs:267-285). -/
def Table.fileSlicesSplitsInternal (E : Env) (A : Arrow) (tb : Table) (t : Tree) (n : Nat) (ts : Str)
    (filters : List Filter) : Query (List (List FileSlice)) := do
  let l ← tb.fileSlicesInternal E A t ts filters
  Query.lift (splitSlices n l)

/-- `Table::get_file_slices_splits` (crates/core/src/table/mod.rs:236-248). -/
def Table.fileSlicesSplits (E : Env) (A : Arrow) (tb : Table) (t : Tree) (n : Nat)
    (filters : List (Str × Str × Str)) : Query (List (List FileSlice)) :=
  match tb.timeline.latestTimestamp with
  | some ts => do
    let fs ← Query.lift (fromStrTuples filters)
    tb.fileSlicesSplitsInternal E A t n ts fs
  | none => pure []

/-- `Table::get_file_slices_splits_as_of` (crates/core/src/table/mod.rs:256-265). -/
def Table.fileSlicesSplitsAsOf (E : Env) (A : Arrow) (tb : Table) (t : Tree) (n : Nat) (ts : Str)
    (filters : List (Str × Str × Str)) : Query (List (List FileSlice)) := do
  let fs ← Query.lift (fromStrTuples filters)
  tb.fileSlicesSplitsInternal E A t n ts fs

/-- `Table::get_file_slices_between_internal` (crates/core/src/table/mod.rs:363-380). -/
def Table.fileSlicesBetweenInternal (E : Env) (tb : Table) (t : Tree) (start stop : Str) :
    Res (List FileSlice) := do
  let gs ← tb.timeline.fileGroupsBetween E t (some start) (some stop)
  return gs.filterMap (fun g => g.sliceAsOf stop)

/-- `Table::get_file_slices_between` (crates/core/src/table/mod.rs:345-361). -/
def Table.fileSlicesBetween (E : Env) (tb : Table) (t : Tree) (start stop : Option Str) :
    Res (List FileSlice) :=
  match stop.or tb.timeline.latestTimestamp with
  | none => .ok []
  | some stop => tb.fileSlicesBetweenInternal E t (start.getD earliestStart) stop

end Hudi
