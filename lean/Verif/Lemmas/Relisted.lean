import Verif.Spec.Relisted
import Verif.Lemmas.Orders
import Verif.Lemmas.FsView
import Verif.Props.Listing
import Verif.Props.Timeline

/-! # Lemmas about storage that is listed in another order -/

namespace Hudi

open Spec

namespace Spec.Relisted

variable {t t' : Tree}

theorem refl : (t : Tree) → Relisted t t
  | .nil => .nil
  | .file n s c r => .file n s c (refl r)
  | .dir n u r => .dir n (refl u) (refl r)

theorem symm (h : Relisted t t') : Relisted t' t := by
  induction h with
  | nil => exact .nil
  | file n s c _ ih => exact .file n s c ih
  | dir n _ _ ih1 ih2 => exact .dir n ih1 ih2
  | fileFile => exact .fileFile ..
  | fileDir => exact .dirFile ..
  | dirFile => exact .fileDir ..
  | dirDir => exact .dirDir ..
  | trans _ _ ih1 ih2 => exact .trans ih2 ih1

theorem names (h : Relisted t t') : (names t).Perm (Spec.names t') := by
  induction h with
  | nil => exact .refl _
  | file n s c _ ih => exact ih.cons _
  | dir n _ _ _ ih => exact ih.cons _
  | fileFile => exact .swap ..
  | fileDir => exact .swap ..
  | dirFile => exact .swap ..
  | dirDir => exact .swap ..
  | trans _ _ ih1 ih2 => exact ih1.trans ih2

theorem files (h : Relisted t t') : t.files.Perm t'.files := by
  induction h with
  | nil => exact .refl _
  | file n s c _ ih => exact ih.cons _
  | dir n _ _ _ ih => exact ih
  | fileFile => exact .swap ..
  | fileDir => exact .refl _
  | dirFile => exact .refl _
  | dirDir => exact .refl _
  | trans _ _ ih1 ih2 => exact ih1.trans ih2

theorem dirs (h : Relisted t t') : t.dirs.Perm t'.dirs := by
  induction h with
  | nil => exact .refl _
  | file n s c _ ih => exact ih
  | dir n _ _ _ ih => exact ih.cons _
  | fileFile => exact .refl _
  | fileDir => exact .refl _
  | dirFile => exact .refl _
  | dirDir => exact .swap ..
  | trans _ _ ih1 ih2 => exact ih1.trans ih2

theorem wf (h : Relisted t t') (hw : TreeWF t) : TreeWF t' := by
  induction h with
  | nil => trivial
  | file n s c h ih => exact ⟨hw.1, fun hm => hw.2.1 (h.names.mem_iff.2 hm), ih hw.2.2⟩
  | dir n _ h ih1 ih => exact ⟨hw.1, fun hm => hw.2.1 (h.names.mem_iff.2 hm), ih1 hw.2.2.1, ih hw.2.2.2⟩
  | fileFile => simp only [TreeWF, Spec.names, List.mem_cons, not_or] at hw ⊢; grind
  | fileDir => simp only [TreeWF, Spec.names, List.mem_cons, not_or] at hw ⊢; grind
  | dirFile => simp only [TreeWF, Spec.names, List.mem_cons, not_or] at hw ⊢; grind
  | dirDir => simp only [TreeWF, Spec.names, List.mem_cons, not_or] at hw ⊢; grind
  | trans _ _ ih1 ih2 => exact ih2 (ih1 hw)

theorem file? (h : Relisted t t') (hw : TreeWF t) (n : Str) : t.file? n = t'.file? n := by
  induction h with
  | nil => rfl
  | file m s c h ih => simp only [Tree.file?, ih hw.2.2]
  | dir m _ h ih1 ih => simp only [Tree.file?, ih hw.2.2.2]
  | fileFile => simp only [TreeWF, Spec.names, List.mem_cons, not_or] at hw; simp only [Tree.file?]; grind
  | fileDir => rfl
  | dirFile => rfl
  | dirDir => rfl
  | trans h _ ih1 ih2 => exact (ih1 hw).trans (ih2 (h.wf hw))

theorem sub (h : Relisted t t') (hw : TreeWF t) (n : Str) : Relisted (t.sub n) (t'.sub n) := by
  induction h with
  | nil => exact .nil
  | file m s c h ih => exact ih hw.2.2
  | dir m h1 h ih1 ih =>
    simp only [Tree.sub]
    split
    · exact h1
    · exact ih hw.2.2.2
  | fileFile => exact refl _
  | fileDir => exact refl _
  | dirFile => exact refl _
  | dirDir =>
    simp only [TreeWF, Spec.names, List.mem_cons, not_or] at hw
    simp only [Tree.sub]
    split <;> split
    · rename_i a b; exact absurd (b.trans a.symm).symm (by grind)
    · exact refl _
    · exact refl _
    · exact refl _
  | trans h _ ih1 ih2 => exact (ih1 hw).trans (ih2 (h.wf hw))

theorem «at» (h : Relisted t t') (hw : TreeWF t) (p : List Str) : Relisted (t.at p) (t'.at p) := by
  induction p generalizing t t' with
  | nil => exact h
  | cons n p ih => exact ih (h.sub hw n) (hw.sub n)

theorem fileAt (h : Relisted t t') (hw : TreeWF t) (p : List Str) : t.fileAt p = t'.fileAt p := by
  induction p generalizing t t' with
  | nil => rfl
  | cons n p ih =>
    cases p with
    | nil => exact h.file? hw n
    | cons m p => exact ih (h.sub hw n) (hw.sub n)

theorem isDir (h : Relisted t t') (hw : TreeWF t) (p : List Str) : IsDir p t ↔ IsDir p t' := by
  induction p generalizing t t' with
  | nil => exact Iff.rfl
  | cons n p ih => exact and_congr h.dirs.mem_iff (ih (h.sub hw n) (hw.sub n))

theorem leafDir (h : Relisted t t') (hw : TreeWF t) (p : List Str) : LeafDir p t ↔ LeafDir p t' := by
  refine and_congr (h.isDir hw p) ?_
  have := (h.at hw p).dirs
  constructor
  · intro e; rw [e] at this; exact this.nil_eq.symm
  · intro e; rw [e] at this; exact this.eq_nil

theorem partitionOf (h : Relisted t t') (hw : TreeWF t) (o : Opts) (x : Str) : PartitionOf o t x ↔ PartitionOf o t' x := by
  unfold PartitionOf
  simp only [h.leafDir hw]

end Spec.Relisted

/-! ## What depends on the contents of files only -/

section
variable {t t' : Tree} (h : ∀ p, t.fileAt p = t'.fileAt p)
include h

theorem getFile_same : getFile t = getFile t' := by
  funext path; unfold getFile; rw [h]

theorem instantMetadata_contents : instantMetadata t = instantMetadata t' := by
  funext i; unfold instantMetadata; rw [getFile_same h]

theorem getParquetSchema_contents : getParquetSchema t = getParquetSchema t' := by
  funext i; unfold getParquetSchema; rw [getFile_same h]

theorem getParquetData_contents : getParquetData t = getParquetData t' := by
  funext i; unfold getParquetData; rw [getFile_same h]

theorem getFileMetadata_contents : getFileMetadata t = getFileMetadata t' := by
  funext i; unfold getFileMetadata; rw [getFile_same h]

theorem latestSchema_contents (tl : Timeline) : tl.latestSchema t = tl.latestSchema t' := by
  unfold Timeline.latestSchema Timeline.latestMetadata schemaOfCommit
  rw [instantMetadata_contents h, getParquetSchema_contents h]

theorem latestAvroSchema_contents (tl : Timeline) : tl.latestAvroSchema t = tl.latestAvroSchema t' := by
  unfold Timeline.latestAvroSchema Timeline.latestMetadata
  rw [instantMetadata_contents h]

theorem partitionSchema_contents (tb : Table) : tb.partitionSchema t = tb.partitionSchema t' := by
  unfold Table.partitionSchema Table.schema
  rw [latestSchema_contents h]

theorem loadMetadata_contents : FileSlice.loadMetadata t = FileSlice.loadMetadata t' := by
  funext s; unfold FileSlice.loadMetadata; rw [getFileMetadata_contents h]

theorem collectGroup_contents : collectGroup t = collectGroup t' := by
  funext ts excl g; unfold collectGroup; rw [loadMetadata_contents h]

theorem collectGroups_contents (ts : Str) (excl gs : List FileGroup) :
    collectGroups t ts excl gs = collectGroups t' ts excl gs := by
  induction gs with
  | nil => rfl
  | cons g gs ih => unfold collectGroups; rw [collectGroup_contents h, ih]

theorem collectSlices_contents (A : Arrow) (ts : Str) (p : Pruner) (excl : List FileGroup) (c : Cache) :
    collectSlices A t ts p excl c = collectSlices A t' ts p excl c := by
  induction c with
  | nil => rfl
  | cons e c ih => unfold collectSlices; rw [collectGroups_contents h, ih]

theorem replacedAsOfH_contents (H : HashOrder) (E : Env) (tl : Timeline) (ts : Str) :
    tl.replacedAsOfH H E t ts = tl.replacedAsOfH H E t' ts := by
  unfold Timeline.replacedAsOfH; rw [instantMetadata_contents h]

theorem betweenStepH_contents (H : HashOrder) : betweenStepH H t = betweenStepH H t' := by
  funext acc i; unfold betweenStepH; rw [instantMetadata_contents h]

theorem fileSlicesBetweenInternalH_contents (H : HashOrder) (E : Env) (tb : Table) (start stop : Str) :
    tb.fileSlicesBetweenInternalH H E t start stop = tb.fileSlicesBetweenInternalH H E t' start stop := by
  unfold Table.fileSlicesBetweenInternalH Timeline.fileGroupsBetweenH; rw [betweenStepH_contents h]

theorem readFileSlice_contents (C : Codec) (A : Arrow) (M : MergeEnv A) (ltz : LocalTz) (o : Opts) :
    readFileSlice C A M ltz o t = readFileSlice C A M ltz o t' := by
  have e1 : readBaseFile A o t = readBaseFile A o t' := by
    funext p; unfold readBaseFile; rw [getParquetData_contents h]
  have e2 : ∀ range, scanFile C ltz o t range = scanFile C ltz o t' range := by
    intro range; funext p; unfold scanFile readLogFile; rw [getFile_same h]
  funext s
  unfold readFileSlice readMerged scanLogs
  rw [e1]
  simp only [e2]

end

/-! ## Listing -/

theorem Spec.Relisted.oneExtension {t t' : Tree} (h : Relisted t t') (hw : TreeWF t) (ho : OneExtensionAnywhere t) :
    OneExtensionAnywhere t' := by
  intro p l l' h1 h2
  have hl : ∀ b, LogIn (t'.at p).files b → LogIn (t.at p).files b := fun b ⟨n, s, hm, r⟩ =>
    ⟨n, s, (h.at hw p).files.mem_iff.2 hm, r⟩
  exact ho p l l' (hl _ h1) (hl _ h2)

theorem listFileGroupsH_relisted (H H' : HashOrder) (o : Opts) {t t' : Tree} (h : Relisted t t') (hw : TreeWF t)
    (ho : OneExtensionAnywhere t) (x : Str) :
    SameOutcome List.Perm (listFileGroupsH H o t x) (listFileGroupsH H' o t' x) := by
  have hp : ∀ a b c : List FileGroup, a.Perm b → b.Perm c → a.Perm c := fun _ _ _ => List.Perm.trans
  refine (listFileGroupsH_same H .inserted o t x).trans hp
    (SameOutcome.trans hp (r' := listFileGroupsH .inserted o t' x) ?_ (listFileGroupsH_same .inserted H' o t' x))
  have hm := fun e => (h.at hw (pathSegs x)).files.mem_iff (a := e)
  refine ⟨(C23_listing_order_irrelevant o t t' x hw (h.wf hw) (ho _) hm).1, fun gs' hg' => ?_⟩
  obtain ⟨gs, h1, h2⟩ := (C23_listing_order_irrelevant o t' t x (h.wf hw) hw (h.oneExtension hw ho _)
    (fun e => (hm e).symm)).1 gs' hg'
  exact ⟨gs, h1, h2.symm⟩

theorem relevantPartitions_relisted (A : Arrow) (o : Opts) {t t' : Tree} (h : Relisted t t') (hw : TreeWF t)
    (p : Pruner) : SameOutcome List.Perm (relevantPartitions A o t p) (relevantPartitions A o t' p) := by
  obtain ⟨l, h1, n1, m1⟩ := relevantPartitions_spec A o t p hw
  obtain ⟨l', h2, n2, m2⟩ := relevantPartitions_spec A o t' p (h.wf hw)
  rw [h1, h2]
  refine .ok ((List.perm_ext_iff_of_nodup n1 n2).2 fun x => ?_)
  rw [m1, m2, h.partitionOf hw]

theorem listRelevantH_relisted (H H' : HashOrder) (A : Arrow) (o : Opts) {t t' : Tree} (h : Relisted t t')
    (hw : TreeWF t) (ho : OneExtensionAnywhere t) (p : Pruner) :
    SameOutcome SameView (listRelevantH H A o t p) (listRelevantH H' A o t' p) := by
  unfold listRelevantH
  refine (SameOutcome.refl (R := Eq) (fun _ => rfl) _).bind (fun b _ h => ?_)
  subst h
  split
  · refine (listFileGroupsH_relisted H H' o h hw ho []).bind (fun gs gs' hg => ?_)
    refine .ok ⟨by simp, by simp, fun k => ?_⟩
    by_cases hk : k = []
    · subst hk; simpa [hmGet] using Option.Rel.some hg
    · simpa [hmGet, hk] using Option.Rel.none
  · refine (relevantPartitions_relisted A o h hw p).bind (fun paths paths' hp => ?_)
    refine (SameOutcome.refl (R := Eq) (fun _ => rfl) _).bind (fun par _ h => ?_)
    subst h
    split
    · exact ⟨fun _ h => (by cases h), fun _ h => (by cases h)⟩
    · exact listAll_same (f := listFileGroupsH H o t) (f' := listFileGroupsH H' o t')
        (listFileGroupsH_relisted H H' o h hw ho)
        ((H.listed_perm _).trans (hp.trans (H'.listed_perm _).symm))

theorem viewSlicesAsOfH_relisted (H H' : HashOrder) {A : Arrow} {o : Opts} {t t' : Tree} (h : Relisted t t')
    (hw : TreeWF t) (ho : OneExtensionAnywhere t) {ts : Str} {p : Pruner}
    {excl excl' : List FileGroup} (he : ∀ g, fgContains excl g = fgContains excl' g) :
    Agree List.Perm (viewSlicesAsOfH H A o t ts p excl) (viewSlicesAsOfH H' A o t' ts p excl') := by
  intro c c' hc
  have hl : SameOutcome SameView (loadFileGroupsH H A o t p c) (loadFileGroupsH H' A o t' p c') := by
    unfold loadFileGroupsH
    refine (listRelevantH_relisted H H' A o h hw ho p).bind (fun m m' hm => .ok ?_)
    exact SameView_extend hc (SameView_perm hm (H.cached_perm _) (H'.cached_perm _))
  unfold viewSlicesAsOfH
  cases h1 : loadFileGroupsH H A o t p c with
  | ok d =>
    obtain ⟨d', h2, hd⟩ := hl.1 d h1
    rw [h2]
    simp only
    rw [← collectSlices_contents (h.fileAt hw)]
    exact collectSlices_same he (SameView_perm hd (H.cached_perm _) (H'.cached_perm _))
  | err e =>
    have : ∀ d', loadFileGroupsH H' A o t' p c' ≠ .ok d' := fun d' h2 => by
      obtain ⟨d, h3, _⟩ := hl.2 d' h2
      rw [h1] at h3; cases h3
    cases h2 : loadFileGroupsH H' A o t' p c' with
    | ok d' => exact absurd h2 (this d')
    | err e' => exact ⟨⟨fun _ h => (by cases h), fun _ h => (by cases h)⟩, fun ⟨_, h⟩ => (by cases h)⟩
    | panic => exact ⟨⟨fun _ h => (by cases h), fun _ h => (by cases h)⟩, fun ⟨_, h⟩ => (by cases h)⟩
  | panic =>
    have : ∀ d', loadFileGroupsH H' A o t' p c' ≠ .ok d' := fun d' h2 => by
      obtain ⟨d, h3, _⟩ := hl.2 d' h2
      rw [h1] at h3; cases h3
    cases h2 : loadFileGroupsH H' A o t' p c' with
    | ok d' => exact absurd h2 (this d')
    | err e' => exact ⟨⟨fun _ h => (by cases h), fun _ h => (by cases h)⟩, fun ⟨_, h⟩ => (by cases h)⟩
    | panic => exact ⟨⟨fun _ h => (by cases h), fun _ h => (by cases h)⟩, fun ⟨_, h⟩ => (by cases h)⟩

theorem fileSlicesInternalH_relisted (H H' : HashOrder) (E : Env) (A : Arrow) (tb : Table) {t t' : Tree}
    (h : Relisted t t') (hw : TreeWF t) (ho : OneExtensionAnywhere t) (ts : Str) (fs : List Filter) :
    Agree List.Perm (tb.fileSlicesInternalH H E A t ts fs) (tb.fileSlicesInternalH H' E A t' ts fs) := by
  unfold Table.fileSlicesInternalH
  rw [← replacedAsOfH_contents (h.fileAt hw), ← partitionSchema_contents (h.fileAt hw)]
  refine agree_bind (agree_lift (replacedAsOfH_same H H' E tb.timeline t ts)) (fun x x' hx => ?_)
  exact agree_shared _ (fun s => agree_shared _ (fun p => viewSlicesAsOfH_relisted H H' h hw ho hx))

end Hudi
