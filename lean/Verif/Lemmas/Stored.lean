import Verif.Lemmas.History
import Verif.Props.Answers

/-! # Lemmas: snapshots of stored histories -/

namespace Hudi
open Spec

theorem timelineNames_normal {t : Tree} (hwf : TreeWF t) : ∀ n ∈ timelineNames t, Spec.NormalName n := by
  intro n hn
  simp only [timelineNames, listFiles, List.map_map, List.mem_map, Function.comp] at hn
  obtain ⟨e, he, rfl⟩ := hn
  exact ((hwf.at _).files_normal e he)

theorem completed_name {ts ts' : Str} {a a' : Action} (h1 : '.' ∉ ts) (h2 : '.' ∉ ts')
    (h : ts ++ c!"." ++ suffix a .completed = ts' ++ c!"." ++ suffix a' .completed ∨
      ts ++ c!"." ++ suffix a .completed = ts' ++ c!"." ++ suffix a' .completed ++ c!".") :
    ts = ts' ∧ a = a' := by
  have key : ∀ s s' : Str, ts ++ c!"." ++ s = ts' ++ c!"." ++ s' → ts = ts' ∧ s = s' := by
    intro s s' he
    have e1 : splitOnce '.' (ts ++ '.' :: s) = some (ts, s) := splitOnce_eq_some.2 ⟨rfl, h1⟩
    have e2 : splitOnce '.' (ts' ++ '.' :: s') = some (ts', s') := splitOnce_eq_some.2 ⟨rfl, h2⟩
    have : ts ++ '.' :: s = ts' ++ '.' :: s' := by simpa using he
    rw [this, e2] at e1
    exact ⟨(Prod.mk.inj (Option.some.inj e1)).1.symm, (Prod.mk.inj (Option.some.inj e1)).2.symm⟩
  rcases h with h | h
  · obtain ⟨rfl, hs⟩ := key _ _ h
    refine ⟨rfl, ?_⟩
    revert hs
    cases a <;> cases a' <;> decide
  · obtain ⟨rfl, hs⟩ := key _ (suffix a' .completed ++ c!".") (by simpa using h)
    exfalso
    revert hs
    cases a <;> cases a' <;> decide

/-- The loaded timeline is that of the commits whose files the timeline directory holds. -/
theorem timeline_of {E : Env} {o : Opts} {t : Tree} {tl : Timeline}
    (hload : Timeline.load E o t = .ok tl) {tz : Str} (htz : timezoneOf tl.opts = .ok tz) {h : History}
    {n : Nat} (hw : h.WF n)
    (hst : ∀ name, ((∃ m ∈ listFiles t c!".hoodie", m.name = name) ∧
      ∃ i, CompletedFile E.ltz tz [.commit, .deltaCommit, .replaceCommit] name i) ↔
      ∃ c ∈ h, name = c.ts ++ c!"." ++ suffix c.action .completed) :
    (∀ i ∈ tl.completed, ∃ c ∈ h, ∃ d, parseDatetime E.ltz c.ts tz = .ok d ∧
      i = ⟨c.ts, c.action, .completed, d.epochMillis⟩) ∧
    (∀ c ∈ h, ∃ d, parseDatetime E.ltz c.ts tz = .ok d ∧
      (⟨c.ts, c.action, .completed, d.epochMillis⟩ : Instant) ∈ tl.completed) ∧
    tl.completed.Pairwise (fun a b => a.epochMillis ≤ b.epochMillis) := by
  obtain ⟨tz', htz', hopts, ⟨f, hf, hp⟩, hsorted⟩ := C05_loaded_timeline E o t tl hload
  rw [hopts, htz'] at htz; cases htz
  have hmem : ∀ i, i ∈ tl.completed ↔ ∃ m ∈ timelineNames t,
      CompletedFile E.ltz tz [.commit, .deltaCommit, .replaceCommit] m i := by
    intro i
    rw [hp.mem_iff, List.mem_filterMap]
    constructor
    · rintro ⟨m, h1, h2⟩; exact ⟨m, h1, (hf m i).1 h2⟩
    · rintro ⟨m, h1, h2⟩; exact ⟨m, h1, (hf m i).2 h2⟩
  refine ⟨?_, ?_, hsorted⟩
  · intro i hi
    obtain ⟨m, h1, h2⟩ := (hmem i).1 hi
    obtain ⟨fm, h3, h4⟩ := List.mem_map.1 h1
    obtain ⟨c, hc, he⟩ := (hst m).1 ⟨⟨fm, h3, h4⟩, i, h2⟩
    obtain ⟨ts, a, d, _, hd, hn, hpd, rfl⟩ := h2
    rw [he] at hn
    obtain ⟨rfl, rfl⟩ := completed_name (digits_part (hw.times c hc).1).2.2.1 hd hn
    exact ⟨c, hc, d, hpd, rfl⟩
  · intro c hc
    obtain ⟨⟨fm, h3, h4⟩, i, hi⟩ := (hst _).2 ⟨c, hc, rfl⟩
    have hin : i ∈ tl.completed := (hmem i).2 ⟨_, List.mem_map.2 ⟨fm, h3, h4⟩, hi⟩
    obtain ⟨ts, a, d, _, hd, hn, hpd, rfl⟩ := hi
    obtain ⟨rfl, rfl⟩ := completed_name (digits_part (hw.times c hc).1).2.2.1 hd hn
    exact ⟨d, hpd, hin⟩

/-- The loaded timeline of a stored history is its commits. -/
theorem stored_timeline {E : Env} {o o' : Opts} {t : Tree} {tl : Timeline}
    (hload : Timeline.load E o t = .ok tl) {tz : Str} (htz : timezoneOf tl.opts = .ok tz) {h : History}
    {n : Nat} (hw : h.WF n) (hst : Stores E.ltz tz o' t h) :
    (∀ i ∈ tl.completed, ∃ c ∈ h, ∃ d, parseDatetime E.ltz c.ts tz = .ok d ∧
      i = ⟨c.ts, c.action, .completed, d.epochMillis⟩) ∧
    (∀ c ∈ h, ∃ d, parseDatetime E.ltz c.ts tz = .ok d ∧
      (⟨c.ts, c.action, .completed, d.epochMillis⟩ : Instant) ∈ tl.completed) ∧
    tl.completed.Pairwise (fun a b => a.epochMillis ≤ b.epochMillis) :=
  timeline_of hload htz hw hst.timeline

theorem docOf_eq {t : Tree} {i : Instant} {md : List (Str × Json)} {size : Nat}
    (h : t.fileAt [c!".hoodie", i.timestamp ++ c!"." ++ suffix i.action i.state] =
      some (size, .json (.obj md))) : docOf t i = some md := by
  unfold docOf; rw [h]

/-- The replaced file groups are those that the commits of the timeline replaced, if their documents say so. -/
theorem replaced_of {E : Env} {t : Tree} {tl : Timeline}
    {tz : Str} {h : History} (hmono : MonotoneTz E.ltz) {n : Nat} (hw : h.WF n) {ts : Str} {T : Int}
    (h1 : ∀ i ∈ tl.completed, ∃ c ∈ h, ∃ d, parseDatetime E.ltz c.ts tz = .ok d ∧
      i = ⟨c.ts, c.action, .completed, d.epochMillis⟩)
    (h2 : ∀ c ∈ h, ∃ d, parseDatetime E.ltz c.ts tz = .ok d ∧
      (⟨c.ts, c.action, .completed, d.epochMillis⟩ : Instant) ∈ tl.completed)
    (hst : ∀ c ∈ h, (compare c.ts ts).isLE = true → c.action = .replaceCommit → ∃ md size,
      t.fileAt [c!".hoodie", c.ts ++ c!"." ++ suffix c.action .completed] = some (size, .json (.obj md)) ∧
      ∀ x f, Replaces md x f ↔ ((x, f), Change.replace) ∈ c.changes)
    (hts : WriterTimestamp ts ∧ ts.length = n) (hT : Bound E.ltz tz (some ts) (some T)) (x f : Str) :
    ReplacedBy tl t T x f ↔ ∃ c ∈ h, (compare c.ts ts).isLE ∧ c.changeOf (x, f) = some .replace := by
  obtain ⟨dT, hdT, hTe⟩ := hT
  have hle : ∀ c ∈ h, ∀ d, parseDatetime E.ltz c.ts tz = .ok d →
      ((compare c.ts ts).isLE = true ↔ d.epochMillis ≤ T) := by
    intro c hc d hd
    obtain ⟨q1, q2⟩ := hw.times c hc
    rw [C04_same_width_partial E.ltz hmono tz _ _ _ _ q1 hts.1 (by rw [q2, hts.2]) hd hdT,
      Int.isLE_compare, hTe]
  constructor
  · rintro ⟨i, hi, ha, hle', md, hdoc, hr⟩
    obtain ⟨c, hc, d, hd, rfl⟩ := h1 i hi
    obtain ⟨md', size, hfile, hmd⟩ := hst c hc ((hle c hc d hd).2 hle') ha
    rw [docOf_eq (i := ⟨c.ts, c.action, .completed, d.epochMillis⟩) hfile] at hdoc
    cases hdoc
    exact ⟨c, hc, (hle c hc d hd).2 hle', (hw.of_mem hc).2 ((hmd x f).1 hr)⟩
  · rintro ⟨c, hc, hle', hch⟩
    have hm := (hw.of_mem hc).1 hch
    have ha := hw.replaces c hc _ hm
    obtain ⟨d, hd, hi⟩ := h2 c hc
    obtain ⟨md, size, hfile, hmd⟩ := hst c hc hle' ha
    exact ⟨_, hi, ha, (hle c hc d hd).1 hle', md, docOf_eq hfile, (hmd x f).2 hm⟩

/-- The replaced file groups of a stored history are those its commits replaced. -/
theorem stored_replaced {E : Env} {o o' : Opts} {t : Tree} {tl : Timeline}
    (hload : Timeline.load E o t = .ok tl) {tz : Str} (htz : timezoneOf tl.opts = .ok tz) {h : History}
    (hmono : MonotoneTz E.ltz) {n : Nat} (hw : h.WF n) (hst : Stores E.ltz tz o' t h) {ts : Str} {T : Int}
    (hts : WriterTimestamp ts ∧ ts.length = n) (hT : Bound E.ltz tz (some ts) (some T)) (x f : Str) :
    ReplacedBy tl t T x f ↔ ∃ c ∈ h, (compare c.ts ts).isLE ∧ c.changeOf (x, f) = some .replace := by
  obtain ⟨h1, h2, _⟩ := stored_timeline hload htz hw hst
  exact replaced_of hmono hw h1 h2 (fun c hc _ => hst.replaced c hc) hts hT x f

/-- A snapshot of a stored history shows its table. -/
theorem snapshot_history {E : Env} {o o' : Opts} {t : Tree} {tl : Timeline}
    (hload : Timeline.load E o t = .ok tl) {tz : Str} (htz : timezoneOf tl.opts = .ok tz) {h : History}
    (hmono : MonotoneTz E.ltz) {n : Nat} (hw : h.WF n) (hst : Stores E.ltz tz o' t h) {ts : Str} {T : Int}
    (hts : WriterTimestamp ts ∧ ts.length = n) (hT : Bound E.ltz tz (some ts) (some T))
    {kept : Str → Prop} {ss : List FileSlice}
    (hs : SnapshotOf t (fun x => PartitionOf o' t x ∧ kept x) (ReplacedBy tl t T) ts ss) :
    ShowsTable (shownAt h ts) kept ss := by
  have hrep := stored_replaced hload htz hmono hw hst hts hT
  have hsplit := history_split hw.ordered ts
  generalize hp : h.filter (fun c => (compare c.ts ts).isLE) = p at hsplit
  generalize hqe : h.filter (fun c => (compare c.ts ts).isGT) = q at hsplit
  have hpm : ∀ c, c ∈ p ↔ c ∈ h ∧ (compare c.ts ts).isLE = true := by
    intro c; rw [← hp, List.mem_filter]
  have hshown : ∀ k, shownAt h ts k = (versionAfter p k).map (fun v =>
      { v with logs := v.logs ++ appendsUntilWrite q k }) := by
    intro k; unfold shownAt tableAt; rw [hp, hqe]
  -- a write as of `ts`, for a group not replaced, makes it part of the table
  have hlive : ∀ x f c tok, c ∈ p → c.changeOf (x, f) = some (.write tok) → ¬ ReplacedBy tl t T x f →
      versionAfter p (x, f) ≠ none := by
    intro x f c tok hc hch hnr
    rw [hrep] at hnr
    have hno : ∀ c ∈ p, c.changeOf (x, f) ≠ some .replace := by
      intro c hc hr
      exact hnr ⟨c, ((hpm c).1 hc).1, ((hpm c).1 hc).2, hr⟩
    clear hs hshown hpm hp hsplit hqe
    induction p using List.reverseRecOn with
    | nil => cases hc
    | append_singleton p d ih =>
      rw [versionAfter_snoc]
      have hrec : c ∈ p → versionAfter p (x, f) ≠ none := fun hc =>
        ih hc (fun c hc => hno c (List.mem_append_left _ hc))
      rcases List.mem_append.1 hc with hc | hc
      · cases hd : d.changeOf (x, f) with
        | none => exact hrec hc
        | some ch =>
          cases ch with
          | write _ => simp [Change.apply]
          | append ls => simpa [Change.apply] using hrec hc
          | replace => exact absurd hd (hno d (by simp))
      · rw [List.mem_singleton.1 hc] at hch
        rw [hch]
        simp [Change.apply]
  have hnrep : ∀ x f v, versionAfter p (x, f) = some v → ¬ ReplacedBy tl t T x f := by
    intro x f v hv hr
    obtain ⟨c, hc, hle, hch⟩ := (hrep x f).1 hr
    obtain ⟨a, d, b, he, e1, e2, e3, _⟩ := versionAfter_some.1 hv
    have hcp : c ∈ p := (hpm c).2 ⟨hc, hle⟩
    rw [he] at hcp
    rcases List.mem_append.1 hcp with hca | hcb
    · obtain ⟨a1, a2, rfl⟩ := List.append_of_mem hca
      have hd : d ∈ a2 ++ d :: b ++ q := by simp
      have hg := hw.gone
      rw [show h = a1 ++ c :: (a2 ++ d :: b ++ q) by rw [hsplit, he]; simp] at hg
      exact (List.pairwise_cons.1 (List.pairwise_append.1 hg).2.1).1 d hd _ ((hw.of_mem hc).1 hch) _
        (changeOf_mem e1)
    · rcases List.mem_cons.1 hcb with rfl | hcb
      · rw [e1] at hch; cases hch
      · rcases e3 c hcb with h' | ⟨ls, h'⟩ <;> rw [h'] at hch <;> cases hch
  refine ⟨hs.distinct, ?_, ?_⟩
  · rintro ⟨x, f⟩
    rw [hshown]
    simp only [ne_eq, Option.map_eq_none_iff]
    constructor
    · rintro ⟨s, hsm, hk⟩
      obtain ⟨⟨hx, hkept⟩, hnr, b, m, hb, hbe⟩ := hs.sound s hsm
      obtain ⟨rfl, rfl⟩ := Prod.mk.inj hk
      obtain ⟨c, hc, hch, hct, _⟩ := stored_base hw hst hx hb
      have hle := hs.notLater s hsm
      rw [hbe] at hle hnr ⊢
      simp only at hle hnr ⊢
      refine ⟨hkept, hlive _ _ c _ ((hpm c).2 ⟨hc, by rw [← hct]; exact hle⟩) hch hnr⟩
    · rintro ⟨hkept, hne⟩
      obtain ⟨v, hv⟩ := Option.ne_none_iff_exists'.1 hne
      obtain ⟨a, d, b, he, e1, e2, e3, _⟩ := versionAfter_some.1 hv
      have hd := (hpm d).1 (by rw [he]; simp)
      obtain ⟨hx, bf, k1, k2, k3, k4⟩ := base_stored hw hst hd.1 e1
      obtain ⟨s, q1, q2, q3⟩ := hs.complete x ⟨hx, hkept⟩ bf k1 (by rw [k4]; exact hd.2)
        (by rw [k2]; exact hnrep _ _ v hv)
      exact ⟨s, q1, by unfold sliceKey; rw [q2, q3, k2]⟩
  · intro s hsm v hv
    rw [hshown] at hv
    obtain ⟨w, hw', rfl⟩ := Option.map_eq_some_iff.1 hv
    obtain ⟨⟨hx, hkept⟩, hnr, b, m, hb, hbe⟩ := hs.sound s hsm
    obtain ⟨c, hc, hch, hct, hext, _⟩ := stored_base hw hst hx hb
    obtain ⟨a, d, r, he, e1, e2, e3, e4⟩ := versionAfter_some.1 hw'
    have hfid : s.baseFile.fileId = b.fileId := by rw [hbe]
    have hbts : s.baseFile.commitTimestamp = c.ts := by rw [hbe]; exact hct
    have hd := (hpm d).1 (by rw [he]; simp)
    -- the slice's base file is the one last written
    have hcd : c.ts = d.ts := by
      obtain ⟨_, bf, k1, k2, k3, k4⟩ := base_stored hw hst hd.1 e1
      have hle1 := hs.latest s hsm bf k1 k2 (by rw [k4]; exact hd.2)
      rw [k4, hbts] at hle1
      have hcp : c ∈ p := (hpm c).2 ⟨hc, by rw [← hbts]; exact hs.notLater s hsm⟩
      refine str_le_antisymm ?_ hle1
      rw [he] at hcp
      have hord : (a ++ d :: r).Pairwise (fun a b => compare a.ts b.ts = .lt) := by
        rw [← he, ← hp]; exact hw.ordered.filter _
      rcases List.mem_append.1 hcp with hca | hcb
      · have := (List.pairwise_append.1 hord).2.2 c hca d (by simp)
        rw [this]; rfl
      · rcases List.mem_cons.1 hcb with rfl | hcb
        · rw [Std.ReflCmp.compare_self (cmp := (compare : Str → Str → Ordering))]; rfl
        · unfold sliceKey at e3
          rcases e3 c hcb with h' | ⟨ls, h'⟩ <;> rw [hfid, hch] at h' <;> cases h'
    have hsplit' : h = a ++ d :: (r ++ q) := by rw [hsplit, he]; simp
    obtain ⟨a', b', hc'⟩ := List.append_of_mem hc
    obtain ⟨rfl, rfl, rfl⟩ := split_unique hw.ordered hc' hsplit' hcd
    have htok : b.writeToken = w.token := by
      unfold sliceKey at e1
      rw [hfid, hch] at e1
      injection e1 with e1; injection e1
    have hlog := hs.logs s hsm
    refine ⟨by rw [hbts, e2], by rw [hbe]; exact htok, by rw [hbe]; exact hext, ?_, ?_⟩
    · intro l hl
      obtain ⟨k1, k2, k3⟩ := (hlog l).1 hl
      obtain ⟨_, k4, _⟩ := stored_log hw hst hx k1
      exact ⟨k2, by rw [k3, hbts, e2], k4⟩
    · intro l
      have hl1 : w.logs ++ appendsUntilWrite q (sliceKey s) = appendsUntilWrite (r ++ q) (sliceKey s) := by
        rw [appends_append e3, e4]
      simp only [hl1]
      rw [mem_appends]
      constructor
      · rintro ⟨a2, c2, b2, ls, g1, g2, g3, g4⟩
        have hv2 : versionAfter (a' ++ c :: a2) (sliceKey s) =
            some ⟨w.base, w.token, appendsUntilWrite a2 (sliceKey s)⟩ :=
          versionAfter_some.2 ⟨a', c, a2, rfl, e1, e2, g2, rfl⟩
        obtain ⟨lf, m1, m2, m3, m4⟩ := log_stored hw hst (a := a' ++ c :: a2) (c := c2) (b := b2) (x := s.partitionPath)
          (f := s.baseFile.fileId) (by rw [hc', g1]; simp) g3 g4 hv2
        exact ⟨lf, (hlog lf).2 ⟨m1, m2, by rw [m3, hbts, e2]⟩, m4⟩
      · rintro ⟨lf, hlf, rfl⟩
        obtain ⟨k1, k2, k3⟩ := (hlog lf).1 hlf
        obtain ⟨⟨a2, c2, b2, ls, v2, g1, g2, g3, g4, g5⟩, _⟩ := stored_log hw hst hx k1
        obtain ⟨a3, c3, b3, j1, j2, j3, j4, _⟩ := versionAfter_some.1 g4
        have hh : h = a3 ++ c3 :: (b3 ++ c2 :: b2) := by rw [g1, j1]; simp
        obtain ⟨rfl, rfl, hrest⟩ := split_unique hw.ordered hc' hh (by rw [j3, g5, k3, hbts])
        have hkey : sliceKey s = (s.partitionPath, lf.fileId) := by unfold sliceKey; rw [k2]
        rw [hkey]
        exact ⟨b3, c2, b2, ls, hrest, j4, g2, g3⟩

end Hudi
