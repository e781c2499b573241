import Verif.Lemmas.Orders
import Verif.Props.Splits
import Verif.Props.Faults
import Verif.Props.TravelDemo

/-! # C95: answers do not depend on the order in which hash maps are gone through -/

namespace Hudi

open Spec

theorem splits_same {n : Nat} {l l' : List FileSlice} (h : l.Perm l') :
    SameOutcome SameSplits (splitSlices n l) (splitSlices n l') := by
  obtain ⟨ss, h1, d1, _⟩ := splitSlices_division n l
  obtain ⟨ss', h2, d2, _⟩ := splitSlices_division n l'
  rw [h1, h2]
  refine .ok ⟨splitSlices_lengths h.length_eq h1 h2, ?_⟩
  rw [d1.whole, d2.whole]
  exact h

/-- The file slices of a table are the same, up to order, in whatever order hash maps are gone through and partitions
are listed. -/
theorem C95_file_slices (H H' : HashOrder) (E : Env) (A : Arrow) (tb : Table) (t : Tree)
    (filters : List (Str × Str × Str)) :
    Agree List.Perm (tb.fileSlicesH H E A t filters) (tb.fileSlicesH H' E A t filters) := by
  unfold Table.fileSlicesH
  split
  · exact agree_shared _ (fun fs => fileSlicesInternalH_same H H' E A tb t _ fs)
  · exact agree_lift (.ok (.refl _))

/-- The same for the file slices as of a time. -/
theorem C95_file_slices_as_of (H H' : HashOrder) (E : Env) (A : Arrow) (tb : Table) (t : Tree) (ts : Str)
    (filters : List (Str × Str × Str)) :
    Agree List.Perm (tb.fileSlicesAsOfH H E A t ts filters) (tb.fileSlicesAsOfH H' E A t ts filters) :=
  agree_shared _ (fun fs => fileSlicesInternalH_same H H' E A tb t ts fs)

/-- The splits have the same sizes and together the same file slices. -/
theorem C95_splits (H H' : HashOrder) (E : Env) (A : Arrow) (tb : Table) (t : Tree) (n : Nat)
    (filters : List (Str × Str × Str)) :
    Agree SameSplits (tb.fileSlicesSplitsH H E A t n filters) (tb.fileSlicesSplitsH H' E A t n filters) := by
  unfold Table.fileSlicesSplitsH
  split
  · exact agree_shared _ (fun fs => agree_bind (fileSlicesInternalH_same H H' E A tb t _ fs)
      (fun l l' hl => agree_lift (splits_same hl)))
  · exact agree_lift (.ok ⟨rfl, .refl _⟩)

/-- The same for the splits as of a time. -/
theorem C95_splits_as_of (H H' : HashOrder) (E : Env) (A : Arrow) (tb : Table) (t : Tree) (n : Nat) (ts : Str)
    (filters : List (Str × Str × Str)) :
    Agree SameSplits (tb.fileSlicesSplitsAsOfH H E A t n ts filters)
      (tb.fileSlicesSplitsAsOfH H' E A t n ts filters) :=
  agree_shared _ (fun fs => agree_bind (fileSlicesInternalH_same H H' E A tb t ts fs)
    (fun _ _ hl => agree_lift (splits_same hl)))

theorem readSnapshotInternalH_same (H H' : HashOrder) (E : Env) {A : Arrow} (C : Codec) {M M' : MergeEnv A}
    (hM : M.sort = M'.sort) (tb : Table) (t : Tree) (ts : Str) (fs : List Filter) :
    Agree SameBatches (tb.readSnapshotInternalH H E A C M t ts fs)
      (tb.readSnapshotInternalH H' E A C M' t ts fs) :=
  agree_bind (fileSlicesInternalH_same H H' E A tb t ts fs)
    (fun _ _ hl => agree_lift (mapL_batches (fun s => readFileSlice_orders hM C E.ltz _ t s) hl))

/-- A snapshot has the same batches, up to the order of the batches and of the rows in each. -/
theorem C95_snapshot (H H' : HashOrder) (E : Env) (A : Arrow) (C : Codec) (M M' : MergeEnv A)
    (hM : M.sort = M'.sort) (tb : Table) (t : Tree) (filters : List (Str × Str × Str)) :
    Agree SameBatches (tb.readSnapshotH H E A C M t filters) (tb.readSnapshotH H' E A C M' t filters) := by
  unfold Table.readSnapshotH
  split
  · exact agree_shared _ (fun fs => readSnapshotInternalH_same H H' E C hM tb t _ fs)
  · exact agree_lift (.ok ⟨[], .refl _, .nil⟩)

/-- The same for a snapshot as of a time. -/
theorem C95_snapshot_as_of (H H' : HashOrder) (E : Env) (A : Arrow) (C : Codec) (M M' : MergeEnv A)
    (hM : M.sort = M'.sort) (tb : Table) (t : Tree) (ts : Str) (filters : List (Str × Str × Str)) :
    Agree SameBatches (tb.readSnapshotAsOfH H E A C M t ts filters)
      (tb.readSnapshotAsOfH H' E A C M' t ts filters) :=
  agree_shared _ (fun fs => readSnapshotInternalH_same H H' E C hM tb t ts fs)

theorem fileSlicesBetweenInternalH_same (H H' : HashOrder) (E : Env) (tb : Table) (t : Tree) (start stop : Str) :
    SameOutcome List.Perm (tb.fileSlicesBetweenInternalH H E t start stop)
      (tb.fileSlicesBetweenInternalH H' E t start stop) :=
  (fileGroupsBetweenH_same H H' E tb.timeline t (some start) (some stop)).bind (fun _ _ h => .ok (h.filterMap _))

/-- The file slices changed in a span are the same, up to order. -/
theorem C95_changed_slices (H H' : HashOrder) (E : Env) (tb : Table) (t : Tree) (start stop : Option Str) :
    SameOutcome List.Perm (tb.fileSlicesBetweenH H E t start stop) (tb.fileSlicesBetweenH H' E t start stop) := by
  unfold Table.fileSlicesBetweenH
  split
  · exact .ok (.refl _)
  · exact fileSlicesBetweenInternalH_same H H' E tb t _ _

/-- The changes of a span are the same, up to the order of the batches and of the rows in each. -/
theorem C95_changes (H H' : HashOrder) (E : Env) (A : Arrow) (C : Codec) (M M' : MergeEnv A)
    (hM : M.sort = M'.sort) (tb : Table) (t : Tree) (start : Str) (stop : Option Str) :
    SameOutcome SameBatches (tb.readIncrementalH H E A C M t start stop)
      (tb.readIncrementalH H' E A C M' t start stop) := by
  unfold Table.readIncrementalH
  split
  · exact .ok ⟨[], .refl _, .nil⟩
  · exact (fileSlicesBetweenInternalH_same H H' E tb t _ _).bind
      (fun _ _ hl => mapL_batches (fun s => readFileSlice_orders hM C E.ltz _ t s) hl)

/-- The functions that the other properties are about go through hash maps in one of these orders. -/
theorem C95_inserted (E : Env) (A : Arrow) (C : Codec) (M : MergeEnv A) (tb : Table) (t : Tree) :
    tb.fileSlicesH .inserted E A t = tb.fileSlices E A t ∧
    tb.fileSlicesAsOfH .inserted E A t = tb.fileSlicesAsOf E A t ∧
    tb.fileSlicesSplitsH .inserted E A t = tb.fileSlicesSplits E A t ∧
    tb.fileSlicesSplitsAsOfH .inserted E A t = tb.fileSlicesSplitsAsOf E A t ∧
    tb.fileSlicesBetweenH .inserted E t = tb.fileSlicesBetween E t ∧
    tb.readSnapshotH .inserted E A C M t = tb.readSnapshot E A C M t ∧
    tb.readSnapshotAsOfH .inserted E A C M t = tb.readSnapshotAsOf E A C M t ∧
    tb.readIncrementalH .inserted E A C M t = tb.readIncremental E A C M t :=
  ⟨rfl, rfl, rfl, rfl, rfl, rfl, rfl, rfl⟩

namespace Demo

/-- Every hash map is gone through backwards. -/
def backwards : HashOrder :=
  ⟨fun _ l => l.reverse, fun _ l => l.reverse_perm, List.reverse, fun l => l.reverse_perm, List.reverse,
    fun l => l.reverse_perm, List.reverse, fun l => l.reverse_perm⟩

def slicesIn (H : HashOrder) : Option (List Str) :=
  match (travelTable'.fileSlicesAsOfH H env arrow travelTree' t3 [] []).2 with
  | .ok ss => some (ss.map (fun s => s.baseFile.fileId))
  | _ => none

def rowsIn (H : HashOrder) : Option (List Nat) :=
  match (travelTable'.readSnapshotAsOfH H env arrow codec (mergeEnv arrow) travelTree' t3 [] []).2 with
  | .ok bs => some (bs.map (fun b => b.rows.length))
  | _ => none

end Demo

open Demo in
/-- A new handle has seen the same as another new handle; reading one table in two orders returns the file slices and
the batches in two different orders. -/
example : SameView [] [] ∧ (mergeEnv arrow).sort = (mergeEnv arrow).sort ∧
    slicesIn .inserted = some [c!"f1", c!"f2"] ∧ slicesIn backwards = some [c!"f2", c!"f1"] ∧
    rowsIn .inserted ≠ none ∧ rowsIn backwards = (rowsIn .inserted).map List.reverse := by
  refine ⟨⟨by simp, by simp, fun p => .none⟩, rfl, ?_⟩
  decide +kernel

end Hudi
