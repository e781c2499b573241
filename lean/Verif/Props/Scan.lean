import Verif.Props.LogDemo
import Verif.Spec.Scan
import Verif.Props.Timeline

/-! # C36, C37: scanning log files -/

namespace Hudi
open Spec

theorem isRollback_iff {C : Codec} {w : WBlock} (hwf : w.WF) {b : LogBlock} (h : IsBlock C w b) :
    b.isRollback = true ↔ IsRollback w := by
  unfold LogBlock.isRollback IsRollback
  rw [h.type, h.header]
  have ht : w.type = .command ↔ w.content = .command := by
    unfold WBlock.type
    cases hc : w.content with
    | command => simp
    | avro rs => simp
    | parquet b => simp
    | other t b => simpa using (hwf.other t b hc).1
  rw [Bool.and_eq_true, decide_eq_true_eq, ht]
  cases lastValue MetaKey.commandBlockType w.header with
  | none => simp
  | some v => simp

theorem rollbackTargets_ok {C : Codec} {ws : List WBlock} {bs : List LogBlock}
    (hwf : ∀ w ∈ ws, w.WF) (h : List.Forall₂ (IsBlock C) ws bs)
    (htgt : ∀ w ∈ ws, IsRollback w → ∃ t, lastValue .targetInstantTime w.header = some t) :
    ∃ ts, rollbackTargets bs = .ok ts ∧ ∀ t, t ∈ ts ↔ ∃ w ∈ ws, RollsBack w t := by
  unfold rollbackTargets
  induction h with
  | nil => exact ⟨[], rfl, by simp⟩
  | @cons w b ws bs h1 h2 ih =>
    obtain ⟨ts, h3, h4⟩ := ih (fun w hw => hwf w (by simp [hw])) (fun w hw => htgt w (by simp [hw]))
    have hr := isRollback_iff (hwf w (by simp)) h1
    by_cases hb : b.isRollback = true
    · rw [List.filter_cons_of_pos hb]
      obtain ⟨t, ht⟩ := htgt w (by simp) (hr.1 hb)
      have htt : b.targetInstantTime = .ok t := by
        unfold LogBlock.targetInstantTime
        have hty : b.type = .command := by
          unfold LogBlock.isRollback at hb
          rw [Bool.and_eq_true, decide_eq_true_eq] at hb
          exact hb.1
        rw [if_neg (by simp [hty]), h1.header, ht]
        rfl
      refine ⟨t :: ts, ?_, ?_⟩
      · unfold Res.mapL
        rw [htt, h3]; rfl
      · intro x
        rw [List.mem_cons, h4]
        constructor
        · rintro (rfl | ⟨w', h5, h6⟩)
          · exact ⟨w, by simp, hr.1 hb, ht⟩
          · exact ⟨w', by simp [h5], h6⟩
        · rintro ⟨w', h5, h6⟩
          rcases List.mem_cons.1 h5 with rfl | h5
          · left
            have := h6.2
            rw [ht] at this
            cases this
            rfl
          · exact .inr ⟨w', h5, h6⟩
    · rw [List.filter_cons_of_neg hb]
      refine ⟨ts, h3, ?_⟩
      intro x
      rw [h4]
      constructor
      · rintro ⟨w', h5, h6⟩; exact ⟨w', by simp [h5], h6⟩
      · rintro ⟨w', h5, h6⟩
        rcases List.mem_cons.1 h5 with rfl | h5
        · exact absurd (hr.2 h6.1) hb
        · exact ⟨w', h5, h6⟩

/-- The surviving batches, block by block. -/
theorem surviving_ok {C : Codec} {keepR : WBlock → Bool} {ws : List WBlock} {bs : List LogBlock}
    {ts : List Str} (h : List.Forall₂ (IsBlock C) ws bs)
    (htime : ∀ w ∈ ws, ∃ t, lastValue .instantTime w.header = some t)
    (hk : ∀ w ∈ ws, keepR w = true ↔ ¬ ∃ t ∈ ts, WrittenBy w t) :
    ∃ kept, Res.mapL (survivingBatches ts) bs = .ok kept ∧
      List.Forall₂ (Decodes C) (ws.filter keepR) (kept.filterMap id) := by
  induction h with
  | nil => exact ⟨[], rfl, .nil⟩
  | @cons w b ws bs h1 h2 ih =>
    obtain ⟨kept, h3, h4⟩ := ih (fun w hw => htime w (by simp [hw])) (fun w hw => hk w (by simp [hw]))
    obtain ⟨t, ht⟩ := htime w (by simp)
    have hs : survivingBatches ts b = .ok (if t ∈ ts then none else some b.batches) := by
      unfold survivingBatches LogBlock.instantTime
      rw [h1.header, ht]
      rfl
    refine ⟨(if t ∈ ts then none else some b.batches) :: kept, ?_, ?_⟩
    · unfold Res.mapL
      rw [hs, h3]; rfl
    · have hkw := hk w (by simp)
      by_cases hm : t ∈ ts
      · have : ¬ keepR w = true := fun h => hkw.1 h ⟨t, hm, ht⟩
        rw [if_pos hm, List.filter_cons_of_neg this, List.filterMap_cons_none rfl]
        exact h4
      · have : keepR w = true := hkw.2 (by
          rintro ⟨t', h5, h6⟩
          unfold WrittenBy at h6
          rw [ht] at h6
          cases h6
          exact hm h5)
        rw [if_neg hm, List.filter_cons_of_pos this]
        exact .cons h1.content h4

theorem readLogFile_ok {C : Codec} {ltz : LocalTz} {o : Opts} {t : Tree} {tz path : Str}
    {r : InstantRange} {keep : WBlock → Bool} {ws : List WBlock} (htz : timezoneOf o = .ok tz)
    (hat : LogAt C t path ws) (hr : RangeParses ltz r) (hwf : ∀ w ∈ ws, w.WF)
    (hdec : ∀ w ∈ ws, ∃ bs, Decodes C w bs) (hsel : Selects ltz tz r keep ws) :
    ∃ bs, readLogFile C ltz o t r path = .ok bs ∧ List.Forall₂ (IsBlock C) (ws.filter keep) bs := by
  obtain ⟨size, c, h1, h2⟩ := hat
  obtain ⟨bs, h3, h4⟩ := C34_blocks_are_read_back_partial C ltz tz r keep hr ws hwf hdec hsel
  refine ⟨bs, ?_, h4⟩
  unfold readLogFile getFile
  rw [h1, htz]
  simp only [Res.ofOption_some, Res.ok_bind, h2, h3]

/-- Scanning log files each of which is read from a store of its own. -/
theorem scan_with (C : Codec) (ltz : LocalTz) (o : Opts) (f : Str → Tree) (tz : Str)
    (r : InstantRange) (keep keepR : WBlock → Bool) (paths : List Str) (wss : List (List WBlock))
    (htz : timezoneOf o = .ok tz) (hat : List.Forall₂ (fun p ws => LogAt C (f p) p ws) paths wss)
    (hr : RangeParses ltz r)
    (hwf : ∀ w ∈ wss.flatten, w.WF) (hdec : ∀ w ∈ wss.flatten, ∃ bs, Decodes C w bs)
    (hsel : Selects ltz tz r keep wss.flatten)
    (htgt : ∀ w ∈ wss.flatten, IsRollback w → ∃ i, lastValue .targetInstantTime w.header = some i)
    (hkeepR : ∀ w ∈ wss.flatten,
      keepR w = true ↔ keep w = true ∧ ¬ RolledBack (wss.flatten.filter keep) w) :
    ∃ files kept, Res.mapL (fun p => scanFile C ltz o (f p) r p) paths = .ok files ∧
      Res.mapL (survivingBatches (files.flatMap Prod.snd)) (files.flatMap Prod.fst) = .ok kept ∧
      List.Forall₂ (Decodes C) (wss.flatten.filter keepR) (kept.filterMap id) := by
  -- reading the files
  have hfiles : ∃ files, Res.mapL (fun p => scanFile C ltz o (f p) r p) paths = .ok files ∧
      List.Forall₂ (IsBlock C) (wss.flatten.filter keep) (files.flatMap Prod.fst) ∧
      ∀ x, x ∈ files.flatMap Prod.snd ↔ ∃ w ∈ wss.flatten.filter keep, RollsBack w x := by
    clear hkeepR
    induction hat with
    | nil => exact ⟨[], rfl, .nil, by simp⟩
    | @cons path ws paths wss h1 h2 ih =>
      obtain ⟨files, h3, h4, h5⟩ := ih (fun w hw => hwf w (by simp [hw]))
        (fun w hw => hdec w (by simp [hw])) (fun w hw => hsel w (by simp [hw]))
        (fun w hw => htgt w (by simp [hw]))
      obtain ⟨bs, h6, h7⟩ := readLogFile_ok (o := o) htz h1 hr (fun w hw => hwf w (by simp [hw]))
        (fun w hw => hdec w (by simp [hw])) (fun w hw => hsel w (by simp [hw]))
      obtain ⟨ts, h8, h9⟩ := rollbackTargets_ok
        (fun w hw => hwf w (by simp [(List.mem_filter.1 hw).1])) h7
        (fun w hw => htgt w (by simp [(List.mem_filter.1 hw).1]))
      refine ⟨(bs, ts) :: files, ?_, ?_, ?_⟩
      · unfold Res.mapL
        have : scanFile C ltz o (f path) r path = .ok (bs, ts) := by
          unfold scanFile
          rw [h6]
          simp only [Res.ok_bind, h8, Res.pure_eq]
        rw [this, h3]; rfl
      · rw [List.flatten_cons, List.filter_append, List.flatMap_cons]
        exact List.rel_append h7 h4
      · intro x
        rw [List.flatMap_cons, List.mem_append, h9, h5, List.flatten_cons, List.filter_append]
        simp only [List.mem_append]
        constructor
        · rintro (⟨w, h, h'⟩ | ⟨w, h, h'⟩)
          · exact ⟨w, .inl h, h'⟩
          · exact ⟨w, .inr h, h'⟩
        · rintro ⟨w, h | h, h'⟩
          · exact .inl ⟨w, h, h'⟩
          · exact .inr ⟨w, h, h'⟩
  obtain ⟨files, h1, h2, h3⟩ := hfiles
  obtain ⟨kept, h4, h5⟩ := surviving_ok (ts := files.flatMap Prod.snd) (keepR := keepR) h2
    (fun w hw => by
      obtain ⟨t, d, h, _⟩ := hsel w (List.mem_filter.1 hw).1
      exact ⟨t, h⟩)
    (fun w hw => by
      obtain ⟨hw1, hw2⟩ := List.mem_filter.1 hw
      rw [hkeepR w hw1]
      unfold RolledBack
      constructor
      · rintro ⟨_, h⟩ ⟨i, hi, hw'⟩
        exact h ⟨i, hw', (h3 i).1 hi⟩
      · intro h
        refine ⟨hw2, ?_⟩
        rintro ⟨i, hw', hi⟩
        exact h ⟨i, (h3 i).2 hi, hw'⟩)
  refine ⟨files, kept, h1, h4, ?_⟩
  rw [List.filter_filter] at h5
  have : wss.flatten.filter (fun w => keepR w && keep w) = wss.flatten.filter keepR := by
    refine List.filter_congr (fun w hw => ?_)
    cases hk : keepR w with
    | false => rfl
    | true => rw [((hkeepR w hw).1 hk).1]; rfl
  rw [this] at h5
  exact h5

/-- **C36 and C37.**  Scanning the log files yields, for each block that is in the range and is not
rolled back by a rollback block in the range, in file and block order, its record batches, and nothing
else. -/
theorem C36_scan_is_the_surviving_blocks (C : Codec) (ltz : LocalTz) (o : Opts) (t : Tree) (tz : Str)
    (r : InstantRange) (keep keepR : WBlock → Bool) (paths : List Str) (wss : List (List WBlock))
    (htz : timezoneOf o = .ok tz) (hat : List.Forall₂ (LogAt C t) paths wss) (hr : RangeParses ltz r)
    (hwf : ∀ w ∈ wss.flatten, w.WF) (hdec : ∀ w ∈ wss.flatten, ∃ bs, Decodes C w bs)
    (hsel : Selects ltz tz r keep wss.flatten)
    (htgt : ∀ w ∈ wss.flatten, IsRollback w → ∃ i, lastValue .targetInstantTime w.header = some i)
    (hkeepR : ∀ w ∈ wss.flatten,
      keepR w = true ↔ keep w = true ∧ ¬ RolledBack (wss.flatten.filter keep) w) :
    ∃ bss, scanLogs C ltz o t r paths = .ok bss ∧
      List.Forall₂ (Decodes C) (wss.flatten.filter keepR) bss := by
  obtain ⟨files, kept, h1, h2, h3⟩ := scan_with C ltz o (fun _ => t) tz r keep keepR paths wss htz hat hr hwf hdec
    hsel htgt hkeepR
  refine ⟨kept.filterMap id, ?_, h3⟩
  unfold scanLogs
  rw [show Res.mapL (scanFile C ltz o t r) paths = .ok files from h1]
  simp only [Res.ok_bind, h2, Res.pure_eq]

/-- **C37, partial.**  If the log files contain a rollback of an instant, and the rollback block itself
is in the queried range, then no block written by that instant contributes to the result; every other
block in the range does, once, in file and block order, unless it is rolled back too.  Missing: a
rollback block outside the range is ignored (`C37_false`). -/
theorem C37_rolled_back_blocks_contribute_nothing_partial (C : Codec) (ltz : LocalTz) (o : Opts) (t : Tree)
    (tz : Str) (r : InstantRange) (keep : WBlock → Bool) (paths : List Str) (wss : List (List WBlock))
    (htz : timezoneOf o = .ok tz) (hat : List.Forall₂ (LogAt C t) paths wss) (hr : RangeParses ltz r)
    (hwf : ∀ w ∈ wss.flatten, w.WF) (hdec : ∀ w ∈ wss.flatten, ∃ bs, Decodes C w bs)
    (hsel : Selects ltz tz r keep wss.flatten)
    (htgt : ∀ w ∈ wss.flatten, IsRollback w → ∃ i, lastValue .targetInstantTime w.header = some i) :
    ∃ bss kept, scanLogs C ltz o t r paths = .ok bss ∧ List.Forall₂ (Decodes C) kept bss ∧
      kept.Sublist wss.flatten ∧
      (∀ w' ∈ wss.flatten, keep w' = true → ∀ i, RollsBack w' i → ∀ w ∈ kept, ¬ WrittenBy w i) ∧
      (∀ w ∈ kept, keep w = true) ∧
      (∀ w ∈ wss.flatten, keep w = true →
        (∀ i, WrittenBy w i → ∀ w' ∈ wss.flatten, keep w' = true → ¬ RollsBack w' i) → w ∈ kept) := by
  classical
  obtain ⟨bss, h1, h2⟩ := C36_scan_is_the_surviving_blocks C ltz o t tz r keep
    (fun w => decide (keep w = true ∧ ¬ RolledBack (wss.flatten.filter keep) w)) paths wss htz hat hr hwf
    hdec hsel htgt (fun w _ => decide_eq_true_iff)
  refine ⟨bss, _, h1, h2, List.filter_sublist, ?_, fun w hw => (of_decide_eq_true (List.mem_filter.1 hw).2).1, ?_⟩
  · intro w' hw' hk i hi w hw hwi
    obtain ⟨_, h3⟩ := List.mem_filter.1 hw
    exact (of_decide_eq_true h3).2 ⟨i, hwi, w', List.mem_filter.2 ⟨hw', hk⟩, hi⟩
  · intro w hw hk hno
    refine List.mem_filter.2 ⟨hw, decide_eq_true ⟨hk, ?_⟩⟩
    rintro ⟨i, hi, w', hw', h3⟩
    exact hno i hi w' (List.mem_filter.1 hw').1 (List.mem_filter.1 hw').2 h3

namespace Demo

/-- A store with one log file. -/
def logTree : Tree := .file c!"log" 0 (.bytes (logBytes [w1, w2, w3])) .nil

/-- A store with two log files; the rollback is in the second one. -/
def logTree2 : Tree := .file c!"log.1" 0 (.bytes (logBytes [w1, w2]))
  (.file c!"log.2" 0 (.bytes (logBytes [w3])) .nil)

end Demo

open Demo in
/-- The rollback removes the first block's records, across files; all the hypotheses hold. -/
example : timezoneOf [] = .ok c!"utc" ∧
    List.Forall₂ (LogAt codec logTree2) [c!"log.1", c!"log.2"] [[w1, w2], [w3]] ∧
    RollsBack w3 t1 ∧ WrittenBy w1 t1 ∧
    (∀ w ∈ [w1, w2, w3], IsRollback w → ∃ i, lastValue .targetInstantTime w.header = some i) ∧
    scanLogs codec some [] logTree2 upToT3 [c!"log.1", c!"log.2"] = .ok [[w2Batch], []] := by
  refine ⟨rfl, .cons ⟨0, _, rfl, rfl⟩ (.cons ⟨0, _, rfl, rfl⟩ .nil), ⟨⟨rfl, c!"0", rfl, by decide⟩, rfl⟩, rfl,
    ?_, by decide +kernel⟩
  intro w hw h
  simp only [List.mem_cons, List.not_mem_nil, or_false] at hw
  rcases hw with rfl | rfl | rfl
  · exact absurd h.1 (by decide)
  · exact absurd h.1 (by decide)
  · exact ⟨_, rfl⟩

open Demo in
/-- **C37 as stated is false.**  A rollback block later than the end of the range is ignored: the
records of a write that failed and was rolled back are returned by a query as of a time between the
failed write and the rollback. -/
theorem C37_false : ∃ (C : Codec) (ltz : LocalTz) (t : Tree) (r : InstantRange) (ws : List WBlock)
    (w w' : WBlock) (i : Str) (bss : List (List Batch)) (b : Batch),
    LogAt C t c!"log" ws ∧ w ∈ ws ∧ w' ∈ ws ∧ RollsBack w' i ∧ WrittenBy w i ∧ Decodes C w [b] ∧
    b.rows ≠ [] ∧ scanLogs C ltz [] t r [c!"log"] = .ok bss ∧ [b] ∈ bss :=
  ⟨codec, some, logTree, upToT2, [w1, w2, w3], w1, w3, t1, [[w1Batch], [w2Batch]], w1Batch,
    ⟨0, _, rfl, rfl⟩, by simp, by simp, ⟨⟨rfl, c!"0", rfl, by decide⟩, rfl⟩, rfl, w1_decodes, by decide,
    by decide +kernel, by simp⟩

end Hudi
