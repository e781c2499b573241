import Verif.Model.Builder
import Verif.Model.Listing

/-!
# File system view

Models crates/core/src/table/fs_view.rs.  The view's cache, shared by all queries through one table
handle, is a state threaded through the calls.
-/

namespace Hudi

/-- `partition_to_file_groups` (crates/core/src/table/fs_view.rs:40). -/
abbrev Cache := List (Str × List FileGroup)

/-- `FileSystemView::load_file_groups` (crates/core/src/table/fs_view.rs:57-69): the cache afterwards
and the outcome. -/
def loadFileGroups (A : Arrow) (o : Opts) (t : Tree) (p : Pruner) (c : Cache) : Res Cache := do
  let m ← listRelevant A o t p
  return hmExtend c m

/-- The body of the inner loop of `collect_file_slices_as_of`
(crates/core/src/table/fs_view.rs:83-90): the file group with the loaded metadata, and its slice. -/
def collectGroup (t : Tree) (ts : Str) (excl : List FileGroup) (g : FileGroup) :
    Res (FileGroup × Option FileSlice) :=
  if fgContains excl g then .ok (g, none)
  else
    match mapLastLe ts g.slices with
    | none => .ok (g, none)
    | some (k, s) => do
      let s' ← s.loadMetadata t
      return ({ g with slices := mapInsert k s' g.slices }, some s')

/-- The inner loop (crates/core/src/table/fs_view.rs:82-91).  When a file group fails, the ones before
it have already been updated. -/
def collectGroups (t : Tree) (ts : Str) (excl : List FileGroup) :
    List FileGroup → List FileGroup × Res (List FileSlice)
  | [] => ([], .ok [])
  | g :: gs =>
    match collectGroup t ts excl g with
    | .ok (g', s) =>
      let r := collectGroups t ts excl gs
      (g' :: r.1, do return s.toList ++ (← r.2))
    | .err e => (g :: gs, .err e)
    | .panic => (g :: gs, .panic)

/-- The loop of `collect_file_slices_as_of` over the cached partitions
(crates/core/src/table/fs_view.rs:71-94). -/
def collectSlices (A : Arrow) (t : Tree) (ts : Str) (p : Pruner) (excl : List FileGroup) :
    Cache → Cache × Res (List FileSlice)
  | [] => ([], .ok [])
  | (path, gs) :: rest =>
    if p.shouldInclude A path = false then
      let r := collectSlices A t ts p excl rest
      ((path, gs) :: r.1, r.2)
    else
      let a := collectGroups t ts excl gs
      match a.2 with
      | .ok l =>
        let r := collectSlices A t ts p excl rest
        ((path, a.1) :: r.1, do return l ++ (← r.2))
      | .err e => ((path, a.1) :: rest, .err e)
      | .panic => ((path, a.1) :: rest, .panic)

/-- `FileSystemView::get_file_slices_as_of` (crates/core/src/table/fs_view.rs:96-105). -/
def viewSlicesAsOf (A : Arrow) (o : Opts) (t : Tree) (ts : Str) (p : Pruner)
    (excl : List FileGroup) (c : Cache) : Cache × Res (List FileSlice) :=
  match loadFileGroups A o t p c with
  | .ok c' => collectSlices A t ts p excl c'
  | .err e => (c, .err e)
  | .panic => (c, .panic)

end Hudi
