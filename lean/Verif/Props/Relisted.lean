import Verif.Lemmas.Relisted
import Verif.Props.Orders

/-!
# C97: the order in which the storage lists directories does not matter

`t'` holds what `t` holds, with every directory listed in some other order.  The hash maps are gone through in
arbitrary orders `H` and `H'`, and the batches of `M` and `M'` order equal rows differently.
-/

namespace Hudi

open Spec

variable {t t' : Tree} (h : Relisted t t') (hwf : TreeWF t) (hone : OneExtensionAnywhere t)
include h hwf

section
include hone

/-- **C97 (partial).** The file slices are the same, up to order.  What is missing, here and below: two log files of one
file slice whose names differ only in the extension (`C97_false`). -/
theorem C97_file_slices_partial (H H' : HashOrder) (E : Env) (A : Arrow) (tb : Table) (filters : List (Str × Str × Str)) :
    Agree List.Perm (tb.fileSlicesH H E A t filters) (tb.fileSlicesH H' E A t' filters) := by
  unfold Table.fileSlicesH
  split
  · exact agree_shared _ (fun fs => fileSlicesInternalH_relisted H H' E A tb h hwf hone _ fs)
  · exact agree_lift (.ok (.refl _))

/-- The same for the file slices as of a time.  Missing: as in `C97_file_slices_partial`. -/
theorem C97_file_slices_as_of_partial (H H' : HashOrder) (E : Env) (A : Arrow) (tb : Table) (ts : Str)
    (filters : List (Str × Str × Str)) :
    Agree List.Perm (tb.fileSlicesAsOfH H E A t ts filters) (tb.fileSlicesAsOfH H' E A t' ts filters) :=
  agree_shared _ (fun fs => fileSlicesInternalH_relisted H H' E A tb h hwf hone ts fs)

/-- The splits have the same sizes and together the same file slices.  Missing: as in `C97_file_slices_partial`. -/
theorem C97_splits_partial (H H' : HashOrder) (E : Env) (A : Arrow) (tb : Table) (n : Nat)
    (filters : List (Str × Str × Str)) :
    Agree SameSplits (tb.fileSlicesSplitsH H E A t n filters) (tb.fileSlicesSplitsH H' E A t' n filters) := by
  unfold Table.fileSlicesSplitsH
  split
  · exact agree_shared _ (fun fs => agree_bind (fileSlicesInternalH_relisted H H' E A tb h hwf hone _ fs)
      (fun l l' hl => agree_lift (splits_same hl)))
  · exact agree_lift (.ok ⟨rfl, .refl _⟩)

/-- The same for the splits as of a time.  Missing: as in `C97_file_slices_partial`. -/
theorem C97_splits_as_of_partial (H H' : HashOrder) (E : Env) (A : Arrow) (tb : Table) (n : Nat) (ts : Str)
    (filters : List (Str × Str × Str)) :
    Agree SameSplits (tb.fileSlicesSplitsAsOfH H E A t n ts filters)
      (tb.fileSlicesSplitsAsOfH H' E A t' n ts filters) :=
  agree_shared _ (fun fs => agree_bind (fileSlicesInternalH_relisted H H' E A tb h hwf hone ts fs)
    (fun _ _ hl => agree_lift (splits_same hl)))

theorem readSnapshotInternalH_relisted (H H' : HashOrder) (E : Env) {A : Arrow} (C : Codec) {M M' : MergeEnv A}
    (hM : M.sort = M'.sort) (tb : Table) (ts : Str) (fs : List Filter) :
    Agree SameBatches (tb.readSnapshotInternalH H E A C M t ts fs)
      (tb.readSnapshotInternalH H' E A C M' t' ts fs) := by
  refine agree_bind (fileSlicesInternalH_relisted H H' E A tb h hwf hone ts fs) (fun _ _ hl => ?_)
  simp only [← readFileSlice_contents (h.fileAt hwf)]
  exact agree_lift (mapL_batches (fun s => readFileSlice_orders hM C E.ltz _ t s) hl)

/-- A snapshot has the same batches, up to the order of the batches and of the rows in each.  Missing: as in
`C97_file_slices_partial`. -/
theorem C97_snapshot_partial (H H' : HashOrder) (E : Env) (A : Arrow) (C : Codec) (M M' : MergeEnv A)
    (hM : M.sort = M'.sort) (tb : Table) (filters : List (Str × Str × Str)) :
    Agree SameBatches (tb.readSnapshotH H E A C M t filters) (tb.readSnapshotH H' E A C M' t' filters) := by
  unfold Table.readSnapshotH
  split
  · exact agree_shared _ (fun fs => readSnapshotInternalH_relisted h hwf hone H H' E C hM tb _ fs)
  · exact agree_lift (.ok ⟨[], .refl _, .nil⟩)

/-- The same for a snapshot as of a time.  Missing: as in `C97_file_slices_partial`. -/
theorem C97_snapshot_as_of_partial (H H' : HashOrder) (E : Env) (A : Arrow) (C : Codec) (M M' : MergeEnv A)
    (hM : M.sort = M'.sort) (tb : Table) (ts : Str) (filters : List (Str × Str × Str)) :
    Agree SameBatches (tb.readSnapshotAsOfH H E A C M t ts filters)
      (tb.readSnapshotAsOfH H' E A C M' t' ts filters) :=
  agree_shared _ (fun fs => readSnapshotInternalH_relisted h hwf hone H H' E C hM tb ts fs)

end

/-- The file slices changed in a span are the same, up to order, whatever the names of the log files. -/
theorem C97_changed_slices (H H' : HashOrder) (E : Env) (tb : Table) (start stop : Option Str) :
    SameOutcome List.Perm (tb.fileSlicesBetweenH H E t start stop) (tb.fileSlicesBetweenH H' E t' start stop) := by
  have e : tb.fileSlicesBetweenH H' E t' start stop = tb.fileSlicesBetweenH H' E t start stop := by
    unfold Table.fileSlicesBetweenH
    split
    · rfl
    · exact (fileSlicesBetweenInternalH_contents (h.fileAt hwf) ..).symm
  rw [e]
  exact C95_changed_slices H H' E tb t start stop

/-- The changes of a span are the same, up to the order of the batches and of the rows in each. -/
theorem C97_changes (H H' : HashOrder) (E : Env) (A : Arrow) (C : Codec) (M M' : MergeEnv A)
    (hM : M.sort = M'.sort) (tb : Table) (start : Str) (stop : Option Str) :
    SameOutcome SameBatches (tb.readIncrementalH H E A C M t start stop)
      (tb.readIncrementalH H' E A C M' t' start stop) := by
  have e : tb.readIncrementalH H' E A C M' t' start stop = tb.readIncrementalH H' E A C M' t start stop := by
    unfold Table.readIncrementalH
    split
    · rfl
    · simp only [← fileSlicesBetweenInternalH_contents (h.fileAt hwf), ← readFileSlice_contents (h.fileAt hwf)]
  rw [e]
  exact C95_changes H H' E A C M M' hM tb t start stop

/-- The schemas are the same. -/
theorem C97_schemas (tb : Table) : tb.schema t = tb.schema t' ∧ tb.avroSchema t = tb.avroSchema t' ∧
    tb.partitionSchema t = tb.partitionSchema t' :=
  ⟨latestSchema_contents (h.fileAt hwf) _, latestAvroSchema_contents (h.fileAt hwf) _,
    partitionSchema_contents (h.fileAt hwf) _⟩

omit h hwf

theorem sameStore_cases {r r' : Res Storage} (h : SameStore r r') :
    (∃ s s', r = .ok s ∧ r' = .ok s' ∧ TreeWF s.tree ∧ Relisted s.tree s'.tree ∧ s.absolute = s'.absolute) ∨
      (r = r' ∧ ∀ s, r ≠ .ok s) := by
  cases h with
  | opened h1 h2 h3 => exact .inl ⟨_, _, rfl, rfl, h1, h2, h3⟩
  | refused e => exact .inr ⟨rfl, fun s e => nomatch e⟩
  | crashed => exact .inr ⟨rfl, fun s e => nomatch e⟩

theorem storage_relisted {w w' : World} (hw : RelistedWorld w w') (so ho : Opts) :
    SameStore (w.storage so ho) (w'.storage so ho) := by
  unfold World.storage
  split
  · exact .refused _
  · rename_i v _
    cases hv : v.toStr with
    | ok x => exact hw.connect so x
    | err e => exact .refused _
    | panic => exact .crashed

theorem resolveOptions_relisted {w w' : World} (hw : RelistedWorld w w') (b : TableBuilder) :
    b.resolveOptions w = b.resolveOptions w' := by
  unfold TableBuilder.resolveOptions resolveHudiOptions
  rw [hw.vars]
  simp only
  rcases sameStore_cases (storage_relisted hw (resolveCloudEnvVars w'.vars b.resolveUserProvided.storageOptions)
    b.resolveUserProvided.hudiOptions) with ⟨s, s', h1, h2, hwf, hr, ha⟩ | ⟨e, hne⟩
  · rw [h1, h2]
    simp only [Res.ok_bind]
    unfold imbueTableProperties imbueGlobalConfigs
    rw [getFile_same (hr.fileAt hwf), ha, hw.vars]
  · rw [e]
    cases hx : w'.storage (resolveCloudEnvVars w'.vars b.resolveUserProvided.storageOptions)
      b.resolveUserProvided.hudiOptions with
    | ok s => exact absurd (e.trans hx) (hne s)
    | err e => rfl
    | panic => rfl

/-- A table opened on one storage is opened as the same table on the other, if no two completed actions have the
same time (without that, `C97_false`).  Missing: completed actions with the same time (`C97_false`). -/
theorem C97_opened_partial (E E' : Env) (hE : E.ltz = E'.ltz) {w w' : World} (hw : RelistedWorld w w') (b : TableBuilder)
    (tb : Table) (hopen : b.build E w = .ok tb)
    (htimes : (tb.timeline.completed.map (fun i => i.epochMillis)).Nodup) : b.build E' w' = .ok tb := by
  unfold TableBuilder.build at hopen ⊢
  rw [← resolveOptions_relisted hw]
  obtain ⟨rb, h1, hopen⟩ := Res.bind_eq_ok.1 hopen
  rw [h1]
  simp only [Res.ok_bind]
  obtain ⟨v, h2, hopen⟩ := Res.bind_eq_ok.1 hopen
  rw [h2]
  simp only [Res.ok_bind]
  obtain ⟨s, h3, hopen⟩ := Res.bind_eq_ok.1 hopen
  obtain ⟨tl, h4, hopen⟩ := Res.bind_eq_ok.1 hopen
  rcases sameStore_cases (storage_relisted hw rb.storageOptions (hmOfList rb.hudiOptions)) with
    ⟨s0, s', h5, h6, hwf, hr, _⟩ | ⟨_, hne⟩
  · rw [h3] at h5
    cases h5
    rw [h3] at hopen
    cases hopen
    rw [h6]
    simp only [Res.ok_bind]
    have hn : (timelineNames s.tree).Perm (timelineNames s'.tree) :=
      (((hr.at hwf _).files).map _).map _
    obtain ⟨tl', h7⟩ := C06_failure_order_irrelevant E E' hE _ _ _ hn tl h4
    rw [h7, ← C06_listing_order_irrelevant E E' hE _ _ _ tl tl' hn h4 h7 htimes]
    rfl
  · exact absurd h3 (hne s)

end Hudi
