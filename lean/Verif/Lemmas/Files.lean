import Verif.Lemmas.Sorted
import Verif.Spec.Group

/-! Lemmas about file groups. -/

namespace Hudi

open Spec

instance : Std.TransCmp LogFile.cmp :=
  inferInstanceAs (Std.TransCmp (compareLex (compareOn LogFile.baseCommitTimestamp)
    (compareLex (compareOn LogFile.version) (compareOn LogFile.writeToken))))

theorem LogFile.cmp_eq_iff {a b : LogFile} : LogFile.cmp a b = .eq ↔
    a.baseCommitTimestamp = b.baseCommitTimestamp ∧ a.version = b.version ∧
      a.writeToken = b.writeToken := by
  unfold LogFile.cmp
  simp only [Ordering.then_eq_eq, Std.LawfulEqCmp.compare_eq_iff_eq]

theorem sliceAt_eq (g : FileGroup) (ts : Str) : sliceAt g ts = mapGet ts g.slices := by
  unfold sliceAt
  induction g.slices with
  | nil => rfl
  | cons e m ih =>
    obtain ⟨k, v⟩ := e
    rw [mapGet_cons, List.find?_cons]
    by_cases h : k = ts
    · subst h; simp
    · have : ¬ (ts = k) := fun h' => h h'.symm
      simpa [h, this, Std.LawfulEqCmp.compare_eq_iff_eq] using ih

/-- The representation invariant of file groups. -/
structure GroupWF (g : FileGroup) : Prop where
  sorted : MapSorted g.slices
  slice : ∀ ts s, mapGet ts g.slices = some s → SliceWF g ts s ∧ SetSorted LogFile.cmp s.logFiles

theorem strCmp {a b : Str} : compare a b = .eq ↔ a = b := Std.LawfulEqCmp.compare_eq_iff_eq

theorem mapGet_insert {β : Type} (k k' : Str) (v : β) (m : List (Str × β)) :
    mapGet k (mapInsert k' v m) = if k = k' then some v else mapGet k m := by
  rw [mapGet_mapInsert]
  simp only [strCmp]

theorem GroupWF.addBase {g g' : FileGroup} {b : BaseFile} (h : GroupWF g)
    (ha : g.addBaseFile b = .ok g') : GroupWF g' := by
  unfold FileGroup.addBaseFile at ha
  split at ha
  · cases ha
  · rename_i hn
    cases ha
    refine ⟨mapInsert_sorted h.sorted, ?_⟩
    intro ts s hs
    rw [mapGet_insert] at hs
    split at hs
    · rename_i heq
      cases hs
      exact ⟨⟨heq.symm, rfl, by intro l hl; cases hl⟩, .nil⟩
    · have := h.slice ts s hs
      exact ⟨⟨this.1.1, this.1.2, this.1.3⟩, this.2⟩

theorem GroupWF.addLog {g g' : FileGroup} {l : LogFile} (h : GroupWF g)
    (ha : g.addLogFile l = .ok g') : GroupWF g' := by
  unfold FileGroup.addLogFile at ha
  split at ha
  · rename_i s₀ hn
    cases ha
    refine ⟨mapInsert_sorted h.sorted, ?_⟩
    intro ts s hs
    rw [mapGet_insert] at hs
    split at hs
    · rename_i heq
      cases hs
      obtain ⟨⟨h1, h2, h3⟩, h4⟩ := h.slice _ _ hn
      refine ⟨⟨by rw [heq]; exact h1, h2, ?_⟩, setInsert_sorted h4⟩
      intro l' hl'
      rcases setInsert_sub l _ l' hl' with rfl | hl'
      · exact heq.symm
      · rw [heq]; exact h3 l' hl'
    · have := h.slice ts s hs
      exact ⟨⟨this.1.1, this.1.2, this.1.3⟩, this.2⟩
  · cases ha

theorem setExtend_sub {α : Type} {cmp : α → α → Ordering} [Std.TransCmp cmp] (xs l : List α) :
    ∀ y ∈ setExtend cmp l xs, y ∈ l ∨ y ∈ xs := by
  unfold setExtend
  induction xs generalizing l with
  | nil => exact fun y hy => .inl hy
  | cons x xs ih =>
    intro y hy
    rcases ih _ y hy with h | h
    · rcases setInsert_sub x l y h with rfl | h
      · exact .inr (by simp)
      · exact .inl h
    · exact .inr (by simp [h])

theorem sub_setExtend {α : Type} {cmp : α → α → Ordering} [Std.TransCmp cmp] (xs l : List α) :
    ∀ y ∈ l, y ∈ setExtend cmp l xs := by
  unfold setExtend
  induction xs generalizing l with
  | nil => exact fun y hy => hy
  | cons x xs ih => exact fun y hy => ih _ y (sub_setInsert x l y hy)

theorem FileSlice.merge_ok {s o r : FileSlice} (h : s.merge o = .ok r) :
    s.baseFile.fileName = o.baseFile.fileName ∧ s.partitionPath = o.partitionPath ∧
      r = { s with logFiles := setExtend LogFile.cmp s.logFiles o.logFiles } := by
  unfold FileSlice.merge at h
  split at h
  · cases h
  · rename_i hs
    cases h
    simp only [FileSlice.same, Bool.not_eq_false, Bool.and_eq_true, decide_eq_true_eq] at hs
    exact ⟨hs.1, hs.2, rfl⟩

/-- The invariant on slices alone. -/
structure SlicesWF (p : Str) (m : List (Str × FileSlice)) : Prop where
  sorted : MapSorted m
  slice : ∀ ts s, mapGet ts m = some s → s.baseFile.commitTimestamp = ts ∧ s.partitionPath = p ∧
    (∀ l ∈ s.logFiles, l.baseCommitTimestamp = ts) ∧ SetSorted LogFile.cmp s.logFiles

theorem groupWF_iff {g : FileGroup} : GroupWF g ↔ SlicesWF g.partitionPath g.slices := by
  constructor
  · rintro ⟨h1, h2⟩
    exact ⟨h1, fun ts s h => ⟨(h2 ts s h).1.1, (h2 ts s h).1.2, (h2 ts s h).1.3, (h2 ts s h).2⟩⟩
  · rintro ⟨h1, h2⟩
    exact ⟨h1, fun ts s h => ⟨⟨(h2 ts s h).1, (h2 ts s h).2.1, (h2 ts s h).2.2.1⟩, (h2 ts s h).2.2.2⟩⟩

theorem SlicesWF.step {p : Str} {m m' : List (Str × FileSlice)} {ts : Str} {s : FileSlice}
    (h : SlicesWF p m)
    (hs : s.baseFile.commitTimestamp = ts ∧ s.partitionPath = p ∧
      (∀ l ∈ s.logFiles, l.baseCommitTimestamp = ts) ∧ SetSorted LogFile.cmp s.logFiles)
    (hm : mergeSliceInto m (ts, s) = .ok m') : SlicesWF p m' := by
  unfold mergeSliceInto at hm
  split at hm
  · rename_i ex hex
    obtain ⟨r, h1, h2⟩ := Res.bind_eq_ok.1 hm
    cases h2
    obtain ⟨_, _, rfl⟩ := FileSlice.merge_ok h1
    refine ⟨mapInsert_sorted h.sorted, ?_⟩
    intro ts' s' hs'
    rw [mapGet_insert] at hs'
    split at hs'
    · rename_i heq
      subst heq
      cases hs'
      obtain ⟨e1, e2, e3, e4⟩ := h.slice _ _ hex
      refine ⟨e1, e2, ?_, setExtend_sorted e4⟩
      intro l hl
      rcases setExtend_sub _ _ l hl with hl | hl
      · exact e3 l hl
      · exact hs.2.2.1 l hl
    · exact h.slice ts' s' hs'
  · rename_i hn
    cases hm
    refine ⟨mapInsert_sorted h.sorted, ?_⟩
    intro ts' s' hs'
    rw [mapGet_insert] at hs'
    split at hs'
    · rename_i heq; subst heq; cases hs'; exact hs
    · exact h.slice ts' s' hs'

theorem SlicesWF.leftover {p : Str} {m es : List (Str × FileSlice)} (h : SlicesWF p m)
    (hes : ∀ e ∈ es, e.2.baseFile.commitTimestamp = e.1 ∧ e.2.partitionPath = p ∧
      (∀ l ∈ e.2.logFiles, l.baseCommitTimestamp = e.1) ∧ SetSorted LogFile.cmp e.2.logFiles) :
    SlicesWF p (mergeLeftover m es) := by
  induction es generalizing m with
  | nil => exact h
  | cons e es ih =>
    unfold mergeLeftover
    cases hm : mergeSliceInto m e with
    | ok m' =>
      exact ih (h.step (hes e (by simp)) hm) (fun x hx => hes x (by simp [hx]))
    | err _ => exact h
    | panic => exact h

theorem same_iff {g o : FileGroup} : g.same o = true ↔ g.fileId = o.fileId ∧ g.partitionPath = o.partitionPath := by
  simp [FileGroup.same]

theorem SlicesWF.entries {p : Str} {m : List (Str × FileSlice)} (h : SlicesWF p m) :
    ∀ e ∈ m, e.2.baseFile.commitTimestamp = e.1 ∧ e.2.partitionPath = p ∧
      (∀ l ∈ e.2.logFiles, l.baseCommitTimestamp = e.1) ∧ SetSorted LogFile.cmp e.2.logFiles := by
  rintro ⟨ts, s⟩ he
  exact h.slice ts s ((mapGet_eq_some h.sorted).2 he)

theorem GroupWF.afterMerge {g o : FileGroup} (h : GroupWF g) (ho : GroupWF o) :
    GroupWF (g.afterMerge o) := by
  unfold FileGroup.afterMerge
  split
  · exact h
  · rename_i hs
    obtain ⟨_, hp⟩ := same_iff.1 (by simpa using hs)
    rw [groupWF_iff] at *
    rw [← hp] at ho
    exact h.leftover ho.entries

theorem built_wf {g : FileGroup} (h : Built g) : GroupWF g := by
  induction h with
  | new => exact ⟨.nil, by intro ts s hs; cases hs⟩
  | @addBase g b _ ih =>
    cases ha : g.addBaseFile b with
    | ok g' => exact ih.addBase ha
    | err _ => exact ih
    | panic => exact ih
  | @addLog g l _ ih =>
    cases ha : g.addLogFile l with
    | ok g' => exact ih.addLog ha
    | err _ => exact ih
    | panic => exact ih
  | merge _ _ ih1 ih2 => exact ih1.afterMerge ih2

/-- A slice after a change is the same slice with possibly more log files. -/
def Extends (s s' : FileSlice) : Prop :=
  s'.baseFile = s.baseFile ∧ s'.partitionPath = s.partitionPath ∧ ∀ l ∈ s.logFiles, l ∈ s'.logFiles

theorem Extends.refl (s : FileSlice) : Extends s s := ⟨rfl, rfl, fun _ h => h⟩

theorem Extends.trans {a b c : FileSlice} (h : Extends a b) (h' : Extends b c) : Extends a c :=
  ⟨h'.1.trans h.1, h'.2.1.trans h.2.1, fun l hl => h'.2.2 l (h.2.2 l hl)⟩

theorem mergeSliceInto_keeps {m m' : List (Str × FileSlice)} {e : Str × FileSlice}
    (h : mergeSliceInto m e = .ok m') {ts : Str} {s : FileSlice} (hs : mapGet ts m = some s) :
    ∃ s', mapGet ts m' = some s' ∧ Extends s s' := by
  unfold mergeSliceInto at h
  split at h
  · rename_i ex hex
    obtain ⟨r, h1, h2⟩ := Res.bind_eq_ok.1 h
    cases h2
    obtain ⟨_, _, rfl⟩ := FileSlice.merge_ok h1
    rw [mapGet_insert]
    by_cases heq : ts = e.1
    · subst heq
      rw [hs] at hex
      cases hex
      simp only [if_true]
      exact ⟨_, rfl, rfl, rfl, sub_setExtend _ _⟩
    · simp only [heq, if_false]
      exact ⟨s, hs, .refl s⟩
  · rename_i hn
    cases h
    rw [mapGet_insert]
    by_cases heq : ts = e.1
    · subst heq; rw [hs] at hn; cases hn
    · simp only [heq, if_false]
      exact ⟨s, hs, .refl s⟩

theorem mergeLeftover_keeps {m es : List (Str × FileSlice)} {ts : Str} {s : FileSlice}
    (hs : mapGet ts m = some s) : ∃ s', mapGet ts (mergeLeftover m es) = some s' ∧ Extends s s' := by
  induction es generalizing m s with
  | nil => exact ⟨s, hs, .refl s⟩
  | cons e es ih =>
    unfold mergeLeftover
    cases hm : mergeSliceInto m e with
    | ok m' =>
      obtain ⟨s1, h1, h2⟩ := mergeSliceInto_keeps hm hs
      obtain ⟨s2, h3, h4⟩ := ih h1
      exact ⟨s2, h3, h2.trans h4⟩
    | err _ => exact ⟨s, hs, .refl s⟩
    | panic => exact ⟨s, hs, .refl s⟩


section Ext

variable {α : Type} {cmp : α → α → Ordering} [Std.TransCmp cmp]

theorem setInsert_covers (x : α) (l : List α) : ∃ z ∈ setInsert cmp x l, cmp x z = .eq := by
  rcases mem_setInsert_self_or (cmp := cmp) x l with h | ⟨y, hy, h⟩
  · exact ⟨x, h, Std.ReflCmp.compare_self (cmp := cmp)⟩
  · exact ⟨y, sub_setInsert x l y hy, h⟩

theorem setExtend_covers (l xs : List α) :
    ∀ x, x ∈ l ∨ x ∈ xs → ∃ z ∈ setExtend cmp l xs, cmp x z = .eq := by
  induction xs generalizing l with
  | nil =>
    rintro x (h | h)
    · exact ⟨x, h, Std.ReflCmp.compare_self (cmp := cmp)⟩
    · cases h
  | cons a xs ih =>
    rintro x h
    have key : ∀ z ∈ setInsert cmp a l, ∃ w ∈ setExtend cmp l (a :: xs), cmp z w = .eq :=
      fun z hz => ih _ z (.inl hz)
    rcases h with h | h
    · exact key x (sub_setInsert a l x h)
    · rcases List.mem_cons.1 h with rfl | h
      · obtain ⟨z, hz, he⟩ := setInsert_covers (cmp := cmp) x l
        obtain ⟨w, hw, he'⟩ := key z hz
        exact ⟨w, hw, Std.TransCmp.eq_trans he he'⟩
      · exact ih _ x (.inr h)

theorem mem_setExtend {l xs : List α} (h : SetSorted cmp l)
    (hxs : xs.Pairwise (fun a b => cmp a b ≠ .eq)) (y : α) :
    y ∈ setExtend cmp l xs ↔ y ∈ l ∨ (y ∈ xs ∧ ∀ z ∈ l, cmp y z ≠ .eq) := by
  induction xs generalizing l with
  | nil => simp [setExtend]
  | cons a xs ih =>
    obtain ⟨ha, hxs⟩ := List.pairwise_cons.1 hxs
    have e : setExtend cmp l (a :: xs) = setExtend cmp (setInsert cmp a l) xs := rfl
    rw [e, ih (setInsert_sorted h) hxs, mem_setInsert h]
    constructor
    · rintro ((h1 | ⟨rfl, h1⟩) | ⟨h1, h2⟩)
      · exact .inl h1
      · exact .inr ⟨by simp, h1⟩
      · exact .inr ⟨by simp [h1], fun z hz => h2 z (sub_setInsert a l z hz)⟩
    · rintro (h1 | ⟨h1, h2⟩)
      · exact .inl (.inl h1)
      · rcases List.mem_cons.1 h1 with rfl | h1
        · exact .inl (.inr ⟨rfl, h2⟩)
        · have h3 := ‹y ∈ xs›
          refine .inr ⟨h3, fun z hz => ?_⟩
          rcases setInsert_sub a l z hz with rfl | hz
          · exact fun hc => ha y h3 (Std.OrientedCmp.eq_symm hc)
          · exact h2 z hz

omit [Std.TransCmp cmp] in
theorem SetSorted.ne {l : List α} (h : SetSorted cmp l) : l.Pairwise (fun a b => cmp a b ≠ .eq) :=
  List.Pairwise.imp (fun {a b} hab => by rw [hab]; decide) h

theorem setExtend_perm {l xs ys : List α} (h : SetSorted cmp l)
    (hxs : xs.Pairwise (fun a b => cmp a b ≠ .eq)) (hp : xs.Perm ys) :
    setExtend cmp l xs = setExtend cmp l ys := by
  have hys : ys.Pairwise (fun a b => cmp a b ≠ .eq) :=
    hp.pairwise hxs (fun {a b} hab hc => hab (Std.OrientedCmp.eq_symm hc))
  refine (setExtend_sorted h).ext (setExtend_sorted h) (fun x => ?_)
  rw [mem_setExtend h hxs, mem_setExtend h hys, hp.mem_iff]

theorem setExtend_of_covered {l xs : List α} (h : SetSorted cmp l)
    (hc : ∀ x ∈ xs, ∃ z ∈ l, cmp x z = .eq) : setExtend cmp l xs = l := by
  induction xs with
  | nil => rfl
  | cons a xs ih =>
    have e : setExtend cmp l (a :: xs) = setExtend cmp (setInsert cmp a l) xs := rfl
    have : setInsert cmp a l = l := by
      refine (setInsert_sorted h).ext h (fun x => ?_)
      rw [mem_setInsert h]
      obtain ⟨z, hz, hq⟩ := hc a (by simp)
      exact ⟨fun h' => h'.elim id (fun ⟨_, h''⟩ => absurd hq (h'' z hz)), .inl⟩
    rw [e, this]
    exact ih (fun x hx => hc x (by simp [hx]))

theorem setExtend_assoc {a b c : List α} (ha : SetSorted cmp a) (hb : SetSorted cmp b)
    (hc : SetSorted cmp c) :
    setExtend cmp (setExtend cmp a b) c = setExtend cmp a (setExtend cmp b c) := by
  refine (setExtend_sorted (setExtend_sorted ha)).ext (setExtend_sorted ha) (fun y => ?_)
  rw [mem_setExtend (setExtend_sorted ha) hc.ne, mem_setExtend ha hb.ne,
    mem_setExtend ha (setExtend_sorted hb).ne, mem_setExtend hb hc.ne]
  have key : (∀ z ∈ setExtend cmp a b, cmp y z ≠ .eq) ↔
      (∀ z ∈ a, cmp y z ≠ .eq) ∧ (∀ z ∈ b, cmp y z ≠ .eq) := by
    constructor
    · intro h
      refine ⟨fun z hz => h z (sub_setExtend _ _ z hz), fun z hz hq => ?_⟩
      obtain ⟨w, hw, hzw⟩ := setExtend_covers (cmp := cmp) a b z (.inr hz)
      exact h w hw (Std.TransCmp.eq_trans hq hzw)
    · rintro ⟨h1, h2⟩ z hz
      rcases setExtend_sub _ _ z hz with hz | hz
      · exact h1 z hz
      · exact h2 z hz
  rw [key]
  constructor
  · rintro ((h | h) | ⟨h1, h2, h3⟩)
    · exact .inl h
    · exact .inr ⟨.inl h.1, h.2⟩
    · exact .inr ⟨.inr ⟨h1, h3⟩, h2⟩
  · rintro (h | ⟨h | h, h'⟩)
    · exact .inl (.inl h)
    · exact .inl (.inr ⟨h, h'⟩)
    · exact .inr ⟨h.1, h', h.2⟩

end Ext

/-- What a sequence of log-file additions does to every slice. -/
theorem addLogFiles_ok {g : FileGroup} {ls : List LogFile}
    (h : ∀ l ∈ ls, mapGet l.baseCommitTimestamp g.slices ≠ none) (hg : MapSorted g.slices) :
    ∃ g', g.addLogFiles ls = .ok g' ∧ g'.fileId = g.fileId ∧ g'.partitionPath = g.partitionPath ∧
      MapSorted g'.slices ∧
      ∀ ts, mapGet ts g'.slices = (mapGet ts g.slices).map (fun s =>
        { s with logFiles := setExtend LogFile.cmp s.logFiles
                  (ls.filter (fun l => l.baseCommitTimestamp = ts)) }) := by
  induction ls generalizing g with
  | nil =>
    refine ⟨g, rfl, rfl, rfl, hg, fun ts => ?_⟩
    cases mapGet ts g.slices <;> rfl
  | cons l ls ih =>
    cases hs : mapGet l.baseCommitTimestamp g.slices with
    | none => exact absurd hs (h l (by simp))
    | some s =>
      have e : g.addLogFile l = .ok { g with
          slices := mapInsert l.baseCommitTimestamp
            { s with logFiles := setInsert LogFile.cmp l s.logFiles } g.slices } := by
        unfold FileGroup.addLogFile; rw [hs]
      obtain ⟨g', h1, h2, h3, h4, h5⟩ := ih (g := { g with
          slices := mapInsert l.baseCommitTimestamp
            { s with logFiles := setInsert LogFile.cmp l s.logFiles } g.slices }) (by
        intro l' hl'
        rw [mapGet_insert]
        split
        · simp
        · exact h l' (by simp [hl'])) (mapInsert_sorted hg)
      refine ⟨g', ?_, h2, h3, h4, fun ts => ?_⟩
      · unfold FileGroup.addLogFiles at *
        rw [Res.foldL_cons, e]; exact h1
      · rw [h5, mapGet_insert]
        by_cases ht : ts = l.baseCommitTimestamp
        · subst ht
          rw [hs]
          simp only [if_true, Option.map_some, List.filter_cons, decide_true]
          rfl
        · have ht' : ¬ (l.baseCommitTimestamp = ts) := fun h => ht h.symm
          simp [ht, List.filter_cons, ht']

theorem addLogFiles_err {g : FileGroup} {ls : List LogFile}
    (h : ∃ l ∈ ls, mapGet l.baseCommitTimestamp g.slices = none) :
    g.addLogFiles ls = .err .fileGroup := by
  induction ls generalizing g with
  | nil => obtain ⟨l, hl, _⟩ := h; cases hl
  | cons l ls ih =>
    unfold FileGroup.addLogFiles
    rw [Res.foldL_cons]
    cases hs : mapGet l.baseCommitTimestamp g.slices with
    | none => simp [FileGroup.addLogFile, hs]
    | some s =>
      simp only [FileGroup.addLogFile, hs, Res.ok_bind]
      refine ih ?_
      obtain ⟨l', hl', hn⟩ := h
      rcases List.mem_cons.1 hl' with rfl | hl'
      · rw [hs] at hn; cases hn
      · refine ⟨l', hl', ?_⟩
        rw [mapGet_insert]
        split
        · rename_i heq; rw [heq, hs] at hn; cases hn
        · exact hn

/-- The slice a merge makes of the two slices (if any) of one timestamp. -/
def combine : Option FileSlice → Option FileSlice → Option FileSlice
  | some s, some t => some { s with logFiles := setExtend LogFile.cmp s.logFiles t.logFiles }
  | some s, none => some s
  | none, o => o

theorem foldMerge_ok {m es : List (Str × FileSlice)} (hm : MapSorted m) (hes : MapSorted es)
    (h : ∀ ts s t, mapGet ts m = some s → mapGet ts es = some t → s.same t = true) :
    ∃ m', Res.foldL mergeSliceInto m es = .ok m' ∧ MapSorted m' ∧
      ∀ ts, mapGet ts m' = combine (mapGet ts m) (mapGet ts es) := by
  induction es generalizing m with
  | nil =>
    refine ⟨m, rfl, hm, fun ts => ?_⟩
    show _ = combine _ none
    cases mapGet ts m <;> rfl
  | cons e es ih =>
    obtain ⟨k, t⟩ := e
    obtain ⟨hk, hes⟩ := List.pairwise_cons.1 hes
    have hkn : mapGet k es = none := mapGet_eq_none.2 (fun e he heq => by
      have := hk e he
      rw [heq] at this
      rw [Std.ReflCmp.compare_self (cmp := compare)] at this; cases this)
    have hget : ∀ ts, mapGet ts ((k, t) :: es) = if ts = k then some t else mapGet ts es := by
      intro ts; rw [mapGet_cons]; simp only [strCmp]
    have hstep : ∃ m1, mergeSliceInto m (k, t) = .ok m1 ∧ MapSorted m1 ∧
        ∀ ts, mapGet ts m1 = if ts = k then combine (mapGet k m) (some t) else mapGet ts m := by
      cases hs : mapGet k m with
      | none =>
        refine ⟨mapInsert k t m, ?_, mapInsert_sorted hm, fun ts => ?_⟩
        · simp [mergeSliceInto, hs]
        · rw [mapGet_insert]; rfl
      | some s =>
        have hsame := h k s t hs (by rw [hget]; simp)
        refine ⟨mapInsert k { s with logFiles := setExtend LogFile.cmp s.logFiles t.logFiles } m,
          ?_, mapInsert_sorted hm, fun ts => ?_⟩
        · simp [mergeSliceInto, hs, FileSlice.merge, hsame]
        · rw [mapGet_insert]; rfl
    obtain ⟨m1, h1, h2, h3⟩ := hstep
    obtain ⟨m', h4, h5, h6⟩ := ih h2 hes (by
      intro ts s t' hs ht
      by_cases hts : ts = k
      · subst hts; rw [hkn] at ht; cases ht
      · rw [h3, if_neg hts] at hs
        exact h ts s t' hs (by rw [hget, if_neg hts]; exact ht))
    refine ⟨m', by rw [Res.foldL_cons, h1]; exact h4, h5, fun ts => ?_⟩
    rw [h6, h3, hget]
    by_cases hts : ts = k
    · subst hts
      simp only [if_true, hkn]
      cases mapGet ts m <;> rfl
    · simp only [hts, if_false]

theorem foldMerge_err {m es : List (Str × FileSlice)} (hes : MapSorted es)
    (h : ∃ ts s t, mapGet ts m = some s ∧ mapGet ts es = some t ∧ s.same t = false) :
    Res.foldL mergeSliceInto m es = .err .fileGroup := by
  induction es generalizing m with
  | nil => obtain ⟨_, _, _, _, h, _⟩ := h; cases h
  | cons e es ih =>
    obtain ⟨k, t⟩ := e
    obtain ⟨hk, hes⟩ := List.pairwise_cons.1 hes
    have hget : ∀ ts, mapGet ts ((k, t) :: es) = if ts = k then some t else mapGet ts es := by
      intro ts; rw [mapGet_cons]; simp only [strCmp]
    obtain ⟨ts, s, t', h1, h2, h3⟩ := h
    rw [Res.foldL_cons]
    rw [hget] at h2
    by_cases hts : ts = k
    · subst hts
      rw [if_pos rfl] at h2; cases h2
      simp [mergeSliceInto, h1, FileSlice.merge, h3]
    · rw [if_neg hts] at h2
      cases hs : mapGet k m with
      | none =>
        simp only [mergeSliceInto, hs, Res.ok_bind]
        exact ih hes ⟨ts, s, t', by rw [mapGet_insert, if_neg hts]; exact h1, h2, h3⟩
      | some s0 =>
        simp only [mergeSliceInto, hs, FileSlice.merge]
        cases hsame : s0.same t with
        | false => simp
        | true =>
          simp only [Bool.true_eq_false, if_false, Res.ok_bind, Res.pure_eq]
          exact ih hes ⟨ts, s, t', by rw [mapGet_insert, if_neg hts]; exact h1, h2, h3⟩

/-- `FileGroup::merge` in full: when it succeeds and what it gives. -/
theorem merge_ok_iff {g o r : FileGroup} (hg : MapSorted g.slices) (ho : MapSorted o.slices) :
    g.merge o = .ok r ↔ (g.fileId = o.fileId ∧ g.partitionPath = o.partitionPath ∧
        ∀ ts s t, mapGet ts g.slices = some s → mapGet ts o.slices = some t → s.same t = true) ∧
      (r.fileId = g.fileId ∧ r.partitionPath = g.partitionPath ∧ MapSorted r.slices ∧
        ∀ ts, mapGet ts r.slices = combine (mapGet ts g.slices) (mapGet ts o.slices)) := by
  constructor
  · intro h
    unfold FileGroup.merge at h
    split at h
    · cases h
    · rename_i hs
      obtain ⟨h1, h2⟩ := same_iff.1 (by simpa using hs)
      obtain ⟨m', h3, h4⟩ := Res.bind_eq_ok.1 h
      cases h4
      have hc : ∀ ts s t, mapGet ts g.slices = some s → mapGet ts o.slices = some t → s.same t = true := by
        intro ts s t hs ht
        cases hh : s.same t with
        | true => rfl
        | false => rw [foldMerge_err ho ⟨ts, s, t, hs, ht, hh⟩] at h3; cases h3
      obtain ⟨m2, h5, h6, h7⟩ := foldMerge_ok hg ho hc
      rw [h3] at h5; cases h5
      exact ⟨⟨h1, h2, hc⟩, rfl, rfl, h6, h7⟩
  · rintro ⟨⟨h1, h2, hc⟩, h3, h4, h5, h6⟩
    obtain ⟨m2, h7, h8, h9⟩ := foldMerge_ok hg ho hc
    have hs : g.same o = true := same_iff.2 ⟨h1, h2⟩
    unfold FileGroup.merge
    rw [hs, h7]
    have : m2 = r.slices := h8.ext h5 (fun k => by rw [h9, h6])
    subst this
    cases r; simp_all

theorem merge_err_of_not {g o : FileGroup} (hg : MapSorted g.slices) (ho : MapSorted o.slices)
    (h : ¬ (g.fileId = o.fileId ∧ g.partitionPath = o.partitionPath ∧
        ∀ ts s t, mapGet ts g.slices = some s → mapGet ts o.slices = some t → s.same t = true)) :
    g.merge o = .err .fileGroup := by
  unfold FileGroup.merge
  split
  · rfl
  · rename_i hs
    obtain ⟨h1, h2⟩ := same_iff.1 (by simpa using hs)
    have : ¬ ∀ ts s t, mapGet ts g.slices = some s → mapGet ts o.slices = some t → s.same t = true :=
      fun h' => h ⟨h1, h2, h'⟩
    have : ∃ ts s t, mapGet ts g.slices = some s ∧ mapGet ts o.slices = some t ∧ s.same t = false := by
      refine Classical.byContradiction fun hc => this fun ts s t a b => ?_
      cases hh : s.same t with
      | true => rfl
      | false => exact absurd ⟨ts, s, t, a, b, hh⟩ hc
    rw [foldMerge_err ho this]; rfl

theorem merge_wf {g o r : FileGroup} (hg : GroupWF g) (ho : GroupWF o) (h : g.merge o = .ok r) :
    GroupWF r := by
  have hm := (merge_ok_iff hg.sorted ho.sorted).1 h
  obtain ⟨⟨h1, h2, hc⟩, h3, h4, h5, h6⟩ := hm
  rw [groupWF_iff] at hg ho ⊢
  refine ⟨h5, fun ts s hs => ?_⟩
  rw [h6] at hs
  cases hgs : mapGet ts g.slices with
  | none =>
    rw [hgs] at hs
    have := ho.slice ts s hs
    rw [← h2, ← h4] at this; exact this
  | some a =>
    have ha := hg.slice ts a hgs
    cases hos : mapGet ts o.slices with
    | none => rw [hgs, hos] at hs; cases hs; rw [← h4] at ha; exact ha
    | some b =>
      have hb := ho.slice ts b hos
      rw [hgs, hos] at hs; cases hs
      refine ⟨ha.1, by rw [h4]; exact ha.2.1, ?_, setExtend_sorted ha.2.2.2⟩
      intro l hl
      rcases setExtend_sub _ _ l hl with hl | hl
      · exact ha.2.2.1 l hl
      · exact hb.2.2.1 l hl

end Hudi
