import Verif.Model.Files

/-!
# File groups from commit metadata

Models crates/core/src/file_group/builder.rs.  A `HashSet<FileGroup>` is a list without two file
groups of the same identity (`FileGroup.same`).
-/

namespace Hudi

/-- `Map::get` / `Value::get(&str)` (serde_json).
Used at crates/core/src/file_group/builder.rs:50-96. -/
def jGet (k : Str) : List (Str × Json) → Option Json
  | [] => none
  | (k', v) :: rest => if k' = k then some v else jGet k rest

/-- `Value::as_object` (serde_json). Used at crates/core/src/file_group/builder.rs:50-96. -/
def Json.asObj : Json → Option (List (Str × Json))
  | .obj l => some l
  | _ => none

/-- `Value::as_array` (serde_json). Used at crates/core/src/file_group/builder.rs:50-96. -/
def Json.asArr : Json → Option (List Json)
  | .arr l => some l
  | _ => none

/-- `Value::as_str` (serde_json). Used at crates/core/src/file_group/builder.rs:50-96. -/
def Json.asStr : Json → Option Str
  | .str s => some s
  | _ => none

/-- `Value::get(key)` (serde_json): `None` unless the value is an object with the key.
Used at crates/core/src/file_group/builder.rs:50-96. -/
def Json.field (k : Str) (j : Json) : Option Json := j.asObj.bind (jGet k)

/-- `HashSet::insert` (std): an element equal to a present one is dropped.
Used at crates/core/src/file_group/builder.rs:57-143. -/
def fgInsert (g : FileGroup) (s : List FileGroup) : List FileGroup :=
  if s.any (fun x => x.same g) then s else s ++ [g]

/-- `HashSet::contains` (std). Used at crates/core/src/table/fs_view.rs:84. -/
def fgContains (s : List FileGroup) (g : FileGroup) : Bool := s.any (fun x => x.same g)

/-- `HashSet::extend` (std). Used at crates/core/src/timeline/mod.rs:324. -/
def fgExtend (s gs : List FileGroup) : List FileGroup := gs.foldl (fun s g => fgInsert g s) s

/-- `HashSet::difference` (std). Used at crates/core/src/timeline/mod.rs:356-360. -/
def fgDifference (s t : List FileGroup) : List FileGroup := s.filter (fun g => !fgContains t g)

/-- One iteration of `FileGroupMerger::merge` (crates/core/src/file_group/builder.rs:37-44): take
the present file group out, merge, and put it back. -/
def fgMergeOne (s : List FileGroup) (g : FileGroup) : Res (List FileGroup) :=
  match s.find? (fun x => x.same g) with
  | some existing => do
    let merged ← existing.merge g
    return fgInsert merged (s.filter (fun x => !x.same g))
  | none => .ok (s ++ [g])

/-- `FileGroupMerger::merge` (crates/core/src/file_group/builder.rs:32-47).  On an error the caller
drops the set, so the state left behind is not modelled. -/
def fgMerge (s gs : List FileGroup) : Res (List FileGroup) := Res.foldL fgMergeOne s gs

/-- Remove trailing separators and trailing `/.` components, as `Path::file_name` (std) does not see
them. Used at crates/core/src/file_group/builder.rs:98-99. -/
def stripTrailing : List Str → List Str
  | [] => []
  | s :: ss => if s = [] ∨ s = c!"." then stripTrailing ss else s :: ss

/-- `Path::new(path).file_name()` (std::path, Unix): the last component, `None` when there is none
or it is `..`.  A path that is just `.` has the (current-directory) component `.`, which is not a
normal component either. Used at crates/core/src/file_group/builder.rs:98-99. -/
def pathFileName (p : Str) : Option Str :=
  match stripTrailing (splitAll '/' p).reverse with
  | [] => none
  | s :: _ => if s = c!".." then none else some s

/-- The file group of one write stat (crates/core/src/file_group/builder.rs:67-104). -/
def fileGroupOfStat (partition : Str) (stat : Json) : Res FileGroup := do
  let fileId ← Res.ofOption .commitMetadata ((stat.field c!"fileId").bind Json.asStr)
  let g := FileGroup.new fileId partition
  match stat.field c!"baseFile" with
  | some b =>
    let name ← Res.ofOption .commitMetadata b.asStr
    let g ← g.addBaseFileFromName name
    match stat.field c!"logFiles" with
    | some ls =>
      let ls ← Res.ofOption .commitMetadata ls.asArr
      Res.foldL
        (fun g l => do
          let n ← Res.ofOption .commitMetadata l.asStr
          g.addLogFileFromName n) g ls
    | none => .err .commitMetadata
  | none =>
    let path ← Res.ofOption .commitMetadata ((stat.field c!"path").bind Json.asStr)
    let name ← Res.ofOption .commitMetadata (pathFileName path)
    g.addBaseFileFromName name

/-- The loop over the write stats of one partition (crates/core/src/file_group/builder.rs:61-107). -/
def addStats (partition : Str) (s : List FileGroup) (stats : List Json) : Res (List FileGroup) :=
  Res.foldL (fun s stat => do return fgInsert (← fileGroupOfStat partition stat) s) s stats

/-- `build_file_groups` (crates/core/src/file_group/builder.rs:49-111). -/
def buildFileGroups (md : List (Str × Json)) : Res (List FileGroup) := do
  let parts ← Res.ofOption .commitMetadata ((jGet c!"partitionToWriteStats" md).bind Json.asObj)
  Res.foldL
    (fun s (e : Str × Json) => do
      let stats ← Res.ofOption .commitMetadata e.2.asArr
      addStats e.1 s stats) [] parts

/-- `build_replaced_file_groups` (crates/core/src/file_group/builder.rs:113-141). -/
def buildReplacedFileGroups (md : List (Str × Json)) : Res (List FileGroup) := do
  let parts ← Res.ofOption .commitMetadata ((jGet c!"partitionToReplaceFileIds" md).bind Json.asObj)
  Res.foldL
    (fun s (e : Str × Json) => do
      let ids ← Res.ofOption .commitMetadata e.2.asArr
      Res.foldL
        (fun s (id : Json) => do
          let id ← Res.ofOption .commitMetadata id.asStr
          return fgInsert (FileGroup.new id e.1) s) s ids) [] parts

end Hudi
