import Verif.Props.Distributed
import Verif.Props.OpenedDemo

/-! # C73: a table that meets the hypotheses, and counterexamples -/

namespace Hudi
open Spec

namespace Demo

theorem openWorld_options (t : Tree) : ByOptions (openWorld t) := fun _ _ _ _ => rfl

theorem open_connected : Connected (openWorld openTree) openTable ⟨openTree, fun _ => none⟩ :=
  C73_opened env _ (openWorld_options _) _ openCalls _ _ open_at (by simp [openCalls, Call.storage]) _ open_build

/-- The slice as of the second write. -/
def openSlice : FileSlice :=
  ⟨⟨c!"f1", c!"0-0-0", t0, c!"parquet", some ⟨morBase, 1, 1, 2, true⟩⟩,
   [⟨c!"f1", t0, c!"log", c!"1", c!"0-0-1", some ⟨morLog, 1, 0, 0, false⟩⟩], []⟩

def openRead : Batch :=
  ⟨mSchema, [mRow c!"2" c!"A" c!"x" 9, mRow c!"1" c!"C" c!"bob" 7, mRow c!"3" c!"B" c!"y" 1]⟩

/-- What the table reports as its options, and the time to read up to. -/
def workerOptions : List (Str × Str) := openTable.storageOptions ++ openTable.hudiOptions ++ upTo t2

theorem worker_options : WithTableOptions openTable (upTo t2) workerOptions := by
  intro k
  by_cases hk : k ∈ workerOptions.map Prod.fst
  · revert k
    decide +kernel
  · have h1 : ∀ l : List (Str × Str), (∀ e ∈ l, e ∈ workerOptions) → lastGiven k l = none := by
      intro l hl
      rw [← lastGiven_eq, hmGet_eq_none]
      intro h
      obtain ⟨e, he, rfl⟩ := List.mem_map.1 h
      exact hk (List.mem_map.2 ⟨e, hl e (List.mem_reverse.1 he), rfl⟩)
    have h2 : ∀ l : Opts, (∀ e ∈ l, e ∈ workerOptions) → hmGet k l = none := by
      intro l hl
      rw [hmGet_eq_none]
      intro h
      obtain ⟨e, he, rfl⟩ := List.mem_map.1 h
      exact hk (List.mem_map.2 ⟨e, hl e he, rfl⟩)
    unfold workerOptions at h1 h2
    rw [h1 (upTo t2) (by simp +contextual), h2 openTable.storageOptions (by simp +contextual),
      h2 openTable.hudiOptions (by simp +contextual)]
    exact h1 _ (fun e he => he)

/-- Both ways to a reader, for a table with storage options; the slice as of the second write is read as
the table is. -/
example : Connected (openWorld openTree) openTable ⟨openTree, fun _ => none⟩ ∧
    (∀ e ∈ openTable.hudiOptions, HudiKey e.1) ∧ WithTableOptions openTable (upTo t2) workerOptions ∧
    CacheAfter env arrow openTable [] [] ∧
    (∃ r, ReaderFor (openWorld openTree) openTable (upTo t2) r) ∧
    (openTable.fileSlicesSplitsAsOf env arrow openTree 2 t2 [] []).2 = .ok [[openSlice]] ∧
    (openTable.readSnapshotAsOf env arrow codec (mergeEnv arrow) openTree t2 [] []).2 = .ok [openRead] := by
  refine ⟨open_connected, ?_, worker_options, .opened, ?_, by decide +kernel, by decide +kernel⟩
  · intro e he
    rw [← startsWith_hudi]
    revert e
    decide
  · obtain ⟨r, hr⟩ := created_exists open_connected (upTo_hudi t2).1 (upTo_hudi t2).2
    exact ⟨r, .created hr⟩

end Demo

open Demo in
/-- **C73, without the options.**  A reader that the table creates without more options, and one made from
the table's base path alone, do not read the slices of the table as reading the table does: as of a time,
the first misses a record, because the write of it was rolled back at a later time, and the second returns
two versions of one record, because it does not know the table's properties. -/
theorem C73_false : ∃ (E : Env) (A : Arrow) (C : Codec) (M : MergeEnv A) (w : World) (uri : Str) (tb : Table)
    (s : Storage) (ts : Str) (x : FileSlice) (b : Batch), Connected w tb s ∧
    hmGet c!"hoodie.base.path" tb.hudiOptions = some uri ∧
    (tb.fileSlicesAsOf E A s.tree ts [] []).2 = .ok [x] ∧
    (tb.readSnapshotAsOf E A C M s.tree ts [] []).2 = .ok [b] ∧
    (∃ r b', tb.createReader w [] = .ok r ∧ r.readDescribed C A M E.ltz (PySlice.ofSlice x) = .ok b' ∧
      b.rows.length = 3 ∧ b'.rows.length = 2) ∧
    ∃ r b', FgReader.newWithOptions w uri [] = .ok r ∧ r.readDescribed C A M E.ltz (PySlice.ofSlice x) = .ok b' ∧
      ∃ key, (b.rows.filter (fun row => keyOf b.schema row = key)).length = 1 ∧
        (b'.rows.filter (fun row => keyOf b'.schema row = key)).length = 2 := by
  have h1 : (openTable.createReader (openWorld openTree) []) =
      .ok ⟨openTable.readerOpts [], ⟨openTree, fun _ => none⟩⟩ := rfl
  have h2 : FgReader.newWithOptions (openWorld openTree) c!"s3://b/trips" [] =
      .ok ⟨[(c!"hoodie.base.path", c!"s3://b/trips")], ⟨openTree, fun _ => none⟩⟩ := rfl
  refine ⟨env, arrow, codec, mergeEnv arrow, openWorld openTree, c!"s3://b/trips", openTable,
    ⟨openTree, fun _ => none⟩, t2, openSlice, openRead, open_connected, rfl, by decide +kernel,
    by decide +kernel, ⟨_, ⟨mSchema, [mRow c!"1" c!"C" c!"bob" 7, mRow c!"1" c!"A" c!"ann" 5]⟩, h1,
      by decide +kernel, rfl, rfl⟩,
    ⟨_, ⟨mSchema, [mRow c!"1" c!"A" c!"ann" 5, mRow c!"1" c!"C" c!"bob" 7, mRow c!"4" c!"C" c!"z" 3]⟩, h2,
      by decide +kernel, c!"C", by decide, by decide⟩⟩

end Hudi
