import Verif.Props.Options
import Verif.Lemmas.Faults
import Verif.Props.Snapshot
import Verif.Props.Splits
import Verif.Props.TableReads

/-! # C72: requests to the storage that fail -/

namespace Hudi
open Spec

/-- What `Faithful` says of a whole call. -/
theorem run_of_faithful {α : Type} {x : Io α} {r : Res α} (h : Faithful x r) (f : α → Answer) (c : Cache)
    (F : Faults) :
    ((∀ k < (x noFaults 0).1, F k = false) →
      ((x F 0).1, c, answerOf f (x F 0).2) = ((x noFaults 0).1, c, answerOf f r)) ∧
    ((∃ k < (x noFaults 0).1, F k = true) → ∃ e, answerOf f (x F 0).2 = .err e) := by
  obtain ⟨m, _, h2, h3⟩ := h 0
  have e0 : x noFaults 0 = (m, r) := h2 _ (fun _ _ _ => rfl)
  rw [e0]
  refine ⟨fun hq => ?_, fun hq => ?_⟩
  · rw [h2 F (fun k _ hk => hq k hk)]
  · obtain ⟨k, hk, hf⟩ := hq
    obtain ⟨n', e, he⟩ := h3 F ⟨k, Nat.zero_le _, hk, hf⟩
    rw [he]; exact ⟨e, rfl⟩

/-- What `FaithfulQ` says of a whole call. -/
theorem run_of_faithfulQ {α : Type} {x : IoQuery α} {q : Query α} (h : FaithfulQ x q) (f : α → Answer) (c : Cache)
    (F : Faults) :
    ((∀ k < (x noFaults 0 c).1, F k = false) →
      ((x F 0 c).1, (x F 0 c).2.1, answerOf f (x F 0 c).2.2) =
        ((x noFaults 0 c).1, (q c).1, answerOf f (q c).2)) ∧
    ((∃ k < (x noFaults 0 c).1, F k = true) → ∃ e, answerOf f (x F 0 c).2.2 = .err e) := by
  obtain ⟨m, _, h2, h3⟩ := h c 0
  have e0 : x noFaults 0 c = (m, q c) := h2 _ (fun _ _ _ => rfl)
  rw [e0]
  refine ⟨fun hq => ?_, fun hq => ?_⟩
  · have := h2 F (fun k _ hk => hq k hk)
    simp only at this
    rw [this]
  · obtain ⟨k, hk, hf⟩ := hq
    obtain ⟨n', s, e, he⟩ := h3 F ⟨k, Nat.zero_le _, hk, hf⟩
    simp only at he
    rw [he]; exact ⟨e, rfl⟩

/-- **C72.**  Whatever requests of a call on a table handle fail: if one of the requests that the call makes fails,
the call returns an error; if none does, it does what it does in the other properties.  In particular what
is returned is never less, or other, than what the storage holds because a request failed. -/
theorem C72_failures_are_reported (E : Env) (A : Arrow) (C : Codec) (M : MergeEnv A) (tb : Table) (t : Tree)
    (c : Cache) (call : TableCall) (F : Faults) :
    ((∃ k < call.requests E A C M tb t c, F k = true) → ∃ e, (call.run E A C M tb t F c).2.2 = .err e) ∧
    ((∀ k < call.requests E A C M tb t c, F k = false) →
      call.run E A C M tb t F c = (call.requests E A C M tb t c, call.answer E A C M tb t c)) := by
  refine And.symm ?_
  cases call with
  | slices fs => exact run_of_faithfulQ (faithful_fileSlices E A tb t fs) .slices c F
  | slicesAsOf ts fs => exact run_of_faithfulQ (faithful_fileSlicesAsOf E A tb t ts fs) .slices c F
  | splits k fs => exact run_of_faithfulQ (faithful_splits E A tb t k fs) .splits c F
  | splitsAsOf k ts fs => exact run_of_faithfulQ (faithful_splitsAsOf E A tb t k ts fs) .splits c F
  | slicesBetween start stop => exact run_of_faithful (faithful_between E tb t start stop) .slices c F
  | snapshot fs => exact run_of_faithfulQ (faithful_snapshot E A C M tb t fs) .batches c F
  | snapshotAsOf ts fs => exact run_of_faithfulQ (faithful_snapshotAsOf E A C M tb t ts fs) .batches c F
  | incremental start stop => exact run_of_faithful (faithful_incremental E A C M tb t start stop) .batches c F
  | schema => exact run_of_faithful (faithful_latestSchema tb.timeline t) .schema c F
  | partitionSchema => exact run_of_faithful (faithful_partitionSchema tb t) .schema c F
  | avroSchema => exact run_of_faithful (faithful_avroSchema tb.timeline t) .text c F
  | readSlice options s => exact run_of_faithful (faithful_readFileSlice C A M E.ltz _ t s) _ c F

/-- **C72, answers.**  A call that returns an answer, whatever requests fail, returns the answer it returns when
none fails. -/
theorem C72_answers_are_right (E : Env) (A : Arrow) (C : Codec) (M : MergeEnv A) (tb : Table) (t : Tree)
    (c : Cache) (call : TableCall) (F : Faults) (a : Answer) (h : (call.run E A C M tb t F c).2.2 = .ok a) :
    (call.answer E A C M tb t c).2 = .ok a := by
  obtain ⟨h1, h2⟩ := C72_failures_are_reported E A C M tb t c call F
  rcases Classical.em (∃ k < call.requests E A C M tb t c, F k = true) with hq | hq
  · obtain ⟨e, he⟩ := h1 hq
    rw [h] at he; cases he
  · have hq : ∀ k < call.requests E A C M tb t c, F k = false := by
      intro k hk
      cases hf : F k with
      | false => rfl
      | true => exact absurd ⟨k, hk, hf⟩ hq
    rw [h2 hq] at h
    exact h

/-! ## Calls after failed calls -/

theorem run_tidy {E : Env} {A : Arrow} {C : Codec} {M : MergeEnv A} {tb : Table} {t : Tree} (hwf : TreeWF t)
    (call : TableCall) (F : Faults) (c : Cache) : Tidy tb.opts t c (call.run E A C M tb t F c).2.1 := by
  have lat : ∀ {α : Type} (f : Str → IoQuery α) (d : α), (∀ ts F n c, Tidy tb.opts t c (f ts F n c).2.1) →
      Tidy tb.opts t c ((match tb.timeline.latestTimestamp with
        | some ts => f ts
        | none => (pure d : IoQuery α)) F 0 c).2.1 := by
    intro α f d h
    cases tb.timeline.latestTimestamp with
    | none => exact .refl _ _ _
    | some ts => exact h _ _ _ _
  have hs : ∀ {α : Type} (g : List Filter → IoQuery α) (fs : List (Str × Str × Str)),
      (∀ l F n c, Tidy tb.opts t c (g l F n c).2.1) → ∀ F n c,
      Tidy tb.opts t c ((IoQuery.lift (Io.lift (fromStrTuples fs)) >>= g) F n c).2.1 :=
    fun g fs h => tidy_bind (tidy_lift _) h
  cases call with
  | slices fs => exact lat _ [] (fun ts => hs _ fs (fun l => tidy_internal hwf ts l))
  | slicesAsOf ts fs => exact hs _ fs (fun l => tidy_internal hwf ts l) F 0 c
  | splits k fs =>
    exact lat _ [] (fun ts => hs (tb.fileSlicesSplitsInternalF E A t k ts) fs (fun l => tidy_bind (tidy_internal hwf ts l) (fun _ => tidy_lift _)))
  | splitsAsOf k ts fs =>
    exact hs (tb.fileSlicesSplitsInternalF E A t k ts) fs (fun l => tidy_bind (tidy_internal hwf ts l) (fun _ => tidy_lift _)) F 0 c
  | slicesBetween start stop => exact .refl _ _ _
  | snapshot fs =>
    exact lat _ [] (fun ts => hs (tb.readSnapshotInternalF E A C M t ts) fs (fun l => tidy_bind (tidy_internal hwf ts l) (fun _ => tidy_lift _)))
  | snapshotAsOf ts fs =>
    exact hs (tb.readSnapshotInternalF E A C M t ts) fs (fun l => tidy_bind (tidy_internal hwf ts l) (fun _ => tidy_lift _)) F 0 c
  | incremental start stop => exact .refl _ _ _
  | schema => exact .refl _ _ _
  | partitionSchema => exact .refl _ _ _
  | avroSchema => exact .refl _ _ _
  | readSlice options s => exact .refl _ _ _

theorem cacheAfterCalls_keys {E : Env} {A : Arrow} {C : Codec} {M : MergeEnv A} {tb : Table} {hist : List Tree}
    {c : Cache} (h : CacheAfterCalls E A C M tb hist c) (hwf : ∀ t ∈ hist, TreeWF t) :
    HmNodup c ∧ ∀ x ∈ c.map Prod.fst, ∃ t ∈ hist, PartitionOf tb.opts t x := by
  induction h with
  | opened => exact ⟨by simp [HmNodup], by simp⟩
  | call t call F _ ih =>
    obtain ⟨h1, h2⟩ := ih (fun t ht => hwf t (by simp [ht]))
    obtain ⟨h3, h4⟩ := run_tidy (E := E) (A := A) (C := C) (M := M) (tb := tb) (hwf t (by simp)) call F _
    refine ⟨h3 h1, fun x hx => ?_⟩
    rcases h4 x hx with hx | hx
    · obtain ⟨t', ht', hp⟩ := h2 x hx
      exact ⟨t', by simp [ht'], hp⟩
    · exact ⟨t, by simp, hx⟩

theorem chunksAux_lengths {α : Type} (k : Nat) (n : Nat) (l l' : List α) (h : l.length = l'.length) :
    (chunksAux k n l).map List.length = (chunksAux k n l').map List.length := by
  induction n generalizing l l' with
  | zero => rfl
  | succ n ih =>
    cases l with
    | nil =>
      cases l' with
      | nil => rfl
      | cons => simp at h
    | cons x xs =>
      cases l' with
      | nil => simp at h
      | cons y ys =>
        simp only [chunksAux, List.map_cons, List.length_take, h]
        rw [ih ((x :: xs).drop k) ((y :: ys).drop k) (by simp only [List.length_drop, h])]

theorem splitSlices_lengths {α : Type} {k : Nat} {l l' : List α} (h : l.length = l'.length) {ss ss' : List (List α)}
    (h1 : splitSlices k l = .ok ss) (h2 : splitSlices k l' = .ok ss') :
    ss.map List.length = ss'.map List.length := by
  have he : l.isEmpty = l'.isEmpty := by
    cases l <;> cases l' <;> simp_all
  unfold splitSlices at h1 h2
  rw [← he] at h2
  split at h1
  · rename_i hl
    rw [if_pos hl] at h2
    cases h1; cases h2; rfl
  · rename_i hl
    rw [if_neg hl] at h2
    simp only at h1 h2
    unfold chunks at h1 h2
    rw [← h] at h2
    split at h1
    · cases h1
    · rename_i hk
      rw [if_neg hk] at h2
      cases h1; cases h2
      exact chunksAux_lengths _ _ _ _ h

theorem answerOf_ok {α : Type} {f : α → Answer} {r : Res α} {a : Answer} :
    answerOf f r = .ok a ↔ ∃ x, r = .ok x ∧ a = f x := by
  cases r with
  | ok x =>
    constructor
    · intro h; cases h; exact ⟨x, rfl, rfl⟩
    · rintro ⟨y, h1, rfl⟩; cases h1; rfl
  | err e =>
    constructor
    · intro h; cases h
    · rintro ⟨y, h1, _⟩; cases h1
  | panic =>
    constructor
    · intro h; cases h
    · rintro ⟨y, h1, _⟩; cases h1

theorem asOf_latest {tb : Table} {ts : Str} (h : tb.timeline.latestTimestamp = some ts) :
    tb.timeline.completed.getLast?.map Instant.timestamp = some ts := h

/-- What a call answers does not depend on the cache when nothing in it is stale. -/
theorem answer_cache_irrelevant {E : Env} {A : Arrow} {C : Codec} {M : MergeEnv A} {tb : Table} {t : Tree}
    {c c' : Cache} (hwf : TreeWF t) (hc : HmNodup c) (hc' : HmNodup c')
    (call : TableCall) (hk : ∀ ts, call.IsAsOf tb ts → NoStale tb.opts t ts c)
    (hk' : ∀ ts, call.IsAsOf tb ts → NoStale tb.opts t ts c') (a : Answer)
    (h : (call.answer E A C M tb t c).2 = .ok a) :
    ∃ a', (call.answer E A C M tb t c').2 = .ok a' ∧ a.Same a' := by
  -- file slices
  have hslices : ∀ (fs : List (Str × Str × Str)) (ts : Str) (ss : List FileSlice), call.IsAsOf tb ts →
      (tb.fileSlicesAsOf E A t ts fs c).2 = .ok ss →
      ∃ ss', (tb.fileSlicesAsOf E A t ts fs c').2 = .ok ss' ∧ ss.Perm ss' := by
    intro fs ts ss ha h
    obtain ⟨l, h1, h2⟩ := Query.bind_lift_snd.1 h
    obtain ⟨ss', h3, h4⟩ := internal_cache_harmless hwf hc hc' (hk _ ha) (hk' _ ha) h2
    exact ⟨ss', Query.bind_lift_snd.2 ⟨l, h1, h3⟩, h4⟩
  -- splits
  have hsplits : ∀ (k : Nat) (fs : List (Str × Str × Str)) (ts : Str) (ss : List (List FileSlice)), call.IsAsOf tb ts →
      (tb.fileSlicesSplitsAsOf E A t k ts fs c).2 = .ok ss →
      ∃ ss', (tb.fileSlicesSplitsAsOf E A t k ts fs c').2 = .ok ss' ∧
        ss.flatten.Perm ss'.flatten ∧ ss.map List.length = ss'.map List.length := by
    intro k fs ts ss ha h
    obtain ⟨l, h1, h2⟩ := Query.bind_lift_snd.1 h
    unfold Table.fileSlicesSplitsInternal at h2
    rw [Query.bind_snd] at h2
    obtain ⟨xs, h3, h4⟩ := h2
    obtain ⟨xs', h5, h6⟩ := internal_cache_harmless hwf hc hc' (hk _ ha) (hk' _ ha) h3
    obtain ⟨ss', h7, h8⟩ := splitSlices_division k xs'
    obtain ⟨ss0, h9, h10⟩ := splitSlices_division k xs
    have h4 : splitSlices k xs = .ok ss := h4
    rw [h4] at h9; cases h9
    refine ⟨ss', Query.bind_lift_snd.2 ⟨l, h1, ?_⟩, ?_, ?_⟩
    · unfold Table.fileSlicesSplitsInternal
      rw [Query.bind_snd]
      exact ⟨xs', h5, h7⟩
    · rw [h10.1.1, h8.1.1]; exact h6
    · exact splitSlices_lengths h6.length_eq h4 h7
  -- reads
  have hreads : ∀ (fs : List (Str × Str × Str)) (ts : Str) (bs : List Batch), call.IsAsOf tb ts →
      (tb.readSnapshotAsOf E A C M t ts fs c).2 = .ok bs →
      ∃ bs', (tb.readSnapshotAsOf E A C M t ts fs c').2 = .ok bs' ∧ bs.Perm bs' := by
    intro fs ts bs ha h
    obtain ⟨l, h1, h2⟩ := Query.bind_lift_snd.1 h
    unfold Table.readSnapshotInternal at h2
    rw [Query.bind_snd] at h2
    obtain ⟨xs, h3, h4⟩ := h2
    obtain ⟨xs', h5, h6⟩ := internal_cache_harmless hwf hc hc' (hk _ ha) (hk' _ ha) h3
    obtain ⟨bs', h7, h8⟩ := mapL_perm h6 h4
    refine ⟨bs', Query.bind_lift_snd.2 ⟨l, h1, ?_⟩, h8⟩
    unfold Table.readSnapshotInternal
    rw [Query.bind_snd]
    exact ⟨xs', h5, h7⟩
  have hself : ∀ {α : Type} {f : α → Answer} {r : Res α}, (∀ x, (f x).Same (f x)) → answerOf f r = .ok a →
      ∃ a', answerOf f r = .ok a' ∧ a.Same a' := by
    intro α f r hf h
    obtain ⟨x, rfl, rfl⟩ := answerOf_ok.1 h
    exact ⟨_, rfl, hf x⟩
  cases call with
  | slicesAsOf ts fs =>
    obtain ⟨x, h1, rfl⟩ := answerOf_ok.1 h
    obtain ⟨x', h2, h3⟩ := hslices _ _ _ rfl h1
    exact ⟨.slices x', answerOf_ok.2 ⟨x', h2, rfl⟩, h3⟩
  | slices fs =>
    obtain ⟨x, h1, rfl⟩ := answerOf_ok.1 h
    cases hl : tb.timeline.latestTimestamp with
    | none =>
      refine ⟨.slices x, answerOf_ok.2 ⟨x, ?_, rfl⟩, .refl _⟩
      unfold Table.fileSlices at h1 ⊢
      rw [hl] at h1 ⊢
      exact h1
    | some ts =>
      have e : ∀ c, tb.fileSlices E A t fs c = tb.fileSlicesAsOf E A t ts fs c := by
        intro c; unfold Table.fileSlices Table.fileSlicesAsOf; rw [hl]
      rw [e] at h1
      obtain ⟨x', h2, h3⟩ := hslices _ _ _ (asOf_latest hl) h1
      exact ⟨.slices x', answerOf_ok.2 ⟨x', by rw [e]; exact h2, rfl⟩, h3⟩
  | splitsAsOf k ts fs =>
    obtain ⟨x, h1, rfl⟩ := answerOf_ok.1 h
    obtain ⟨x', h2, h3⟩ := hsplits _ _ _ _ rfl h1
    exact ⟨.splits x', answerOf_ok.2 ⟨x', h2, rfl⟩, h3⟩
  | splits k fs =>
    obtain ⟨x, h1, rfl⟩ := answerOf_ok.1 h
    cases hl : tb.timeline.latestTimestamp with
    | none =>
      refine ⟨.splits x, answerOf_ok.2 ⟨x, ?_, rfl⟩, .refl _, rfl⟩
      unfold Table.fileSlicesSplits at h1 ⊢
      rw [hl] at h1 ⊢
      exact h1
    | some ts =>
      have e : ∀ c, tb.fileSlicesSplits E A t k fs c = tb.fileSlicesSplitsAsOf E A t k ts fs c := by
        intro c; unfold Table.fileSlicesSplits Table.fileSlicesSplitsAsOf; rw [hl]
      rw [e] at h1
      obtain ⟨x', h2, h3⟩ := hsplits _ _ _ _ (asOf_latest hl) h1
      exact ⟨.splits x', answerOf_ok.2 ⟨x', by rw [e]; exact h2, rfl⟩, h3⟩
  | snapshotAsOf ts fs =>
    obtain ⟨x, h1, rfl⟩ := answerOf_ok.1 h
    obtain ⟨x', h2, h3⟩ := hreads _ _ _ rfl h1
    exact ⟨.batches x', answerOf_ok.2 ⟨x', h2, rfl⟩, h3⟩
  | snapshot fs =>
    obtain ⟨x, h1, rfl⟩ := answerOf_ok.1 h
    cases hl : tb.timeline.latestTimestamp with
    | none =>
      refine ⟨.batches x, answerOf_ok.2 ⟨x, ?_, rfl⟩, .refl _⟩
      unfold Table.readSnapshot at h1 ⊢
      rw [hl] at h1 ⊢
      exact h1
    | some ts =>
      have e : ∀ c, tb.readSnapshot E A C M t fs c = tb.readSnapshotAsOf E A C M t ts fs c := by
        intro c; unfold Table.readSnapshot Table.readSnapshotAsOf; rw [hl]
      rw [e] at h1
      obtain ⟨x', h2, h3⟩ := hreads _ _ _ (asOf_latest hl) h1
      exact ⟨.batches x', answerOf_ok.2 ⟨x', by rw [e]; exact h2, rfl⟩, h3⟩
  | slicesBetween start stop => exact hself (f := .slices) (fun _ => .refl _) h
  | incremental start stop => exact hself (f := .batches) (fun _ => .refl _) h
  | schema => exact hself (f := .schema) (fun _ => rfl) h
  | partitionSchema => exact hself (f := .schema) (fun _ => rfl) h
  | avroSchema => exact hself (f := .text) (fun _ => rfl) h
  | readSlice options s => exact hself (f := fun b => .batches [b]) (fun _ => .refl _) h

/-- **C72, after failures (partial).**  After any sequence of calls through a table handle, each made against whatever
the storage held at the time and with whatever requests failing, a call answers what a fresh handle answers, up to
the order of the file slices: calls that failed half-way leave nothing behind that changes an answer.  Missing:
partitions removed from the storage in between in which an earlier call found a base file up to the time the call is
about (`C26_false`). -/
theorem C72_failed_calls_leave_no_trace_partial (E : Env) (A : Arrow) (C : Codec) (M : MergeEnv A) (tb : Table)
    (hist : List Tree) (c : Cache) (hc : CacheAfterCalls E A C M tb hist c) (hwfs : ∀ t ∈ hist, TreeWF t)
    (t : Tree) (hwf : TreeWF t) (call : TableCall)
    (hkeep : ∀ ts, call.IsAsOf tb ts → StillThere tb.opts hist t ts) :
    (∀ a, (call.answer E A C M tb t []).2 = .ok a →
      ∃ a', (call.answer E A C M tb t c).2 = .ok a' ∧ a.Same a') ∧
    (∀ a, (call.answer E A C M tb t c).2 = .ok a →
      ∃ a', (call.answer E A C M tb t []).2 = .ok a' ∧ a.Same a') := by
  obtain ⟨hn, _⟩ := cacheAfterCalls_keys hc hwfs
  have hk : ∀ ts, call.IsAsOf tb ts → NoStale tb.opts t ts c := fun ts h => (sourced_calls hc hwfs).noStale (hkeep ts h)
  have hn0 : HmNodup ([] : Cache) := by simp [HmNodup]
  exact ⟨fun a h => answer_cache_irrelevant hwf hn0 hn call (fun _ _ => noStale_nil) hk a h,
    fun a h => answer_cache_irrelevant hwf hn hn0 call hk (fun _ _ => noStale_nil) a h⟩

/-! ## Opening -/

theorem globalConfigsF_eq {w : World} {o : Opts} {s : Storage} {F : Faults} {n : Nat}
    (h : F n = false ∨ s.absolute (globalConfigPath w.vars) = none) :
    imbueGlobalConfigsF w o s F n = (n + 1, .ok (imbueGlobalConfigs w o s)) := by
  unfold imbueGlobalConfigsF imbueGlobalConfigs
  rcases h with h | h <;> rw [h] <;> simp

theorem Io.bind_apply {α β : Type} (x : Io α) (f : α → Io β) (F : Faults) (n : Nat) :
    (x >>= f) F n = Io.bind x f F n := rfl

/-- The part of opening a table after the options are resolved. -/
def afterResolving (E : Env) (w : World) (b : TableBuilder) : Io Table := do
  let o := hmOfList b.hudiOptions
  let _ ← Io.lift (validateConfigs o).expect
  let s ← Io.lift (w.storage b.storageOptions o)
  let timeline ← Timeline.loadF E o s.tree
  let _ ← Io.lift (w.storage b.storageOptions o)
  return { opts := o, storageOpts := b.storageOptions, timeline := timeline }

theorem faithful_afterResolving (E : Env) (w : World) (b : TableBuilder) :
    Faithful (afterResolving E w b) (do
      let o := hmOfList b.hudiOptions
      let _ ← (validateConfigs o).expect
      let s ← w.storage b.storageOptions o
      let timeline ← Timeline.load E o s.tree
      let _ ← w.storage b.storageOptions o
      return { opts := o, storageOpts := b.storageOptions, timeline := timeline }) :=
  faithful_bind (faithful_lift _) (fun _ _ => faithful_bind (faithful_lift _) (fun _ _ =>
    faithful_bind (faithful_bind (faithful_lift _) (fun _ _ => faithful_bind (faithful_request _ _)
      (fun _ _ => faithful_pure _))) (fun _ _ => faithful_bind (faithful_lift _) (fun _ _ => faithful_pure _))))

/-- **C72, opening a table (partial).**  If one of the requests made when a table is opened fails, other than the
one for the global configuration file, opening it is an error; if none of the others fails, the outcome is
the one without failures, provided that the request for the global configuration does not fail either or there is
no such file.  Missing: a failure of that request when there is such a file (`C72_false`). -/
theorem C72_opening_partial (E : Env) (w : World) (b : TableBuilder) (F : Faults)
    (hg : F globalConfigRequest = false ∨
      ∀ so ho s path, w.storage so ho = .ok s → ConfPath w.vars path → s.absolute path = none) :
    ((∃ k < (b.buildF E w noFaults 0).1, k ≠ globalConfigRequest ∧ F k = true) →
      ∃ e, (b.buildF E w F 0).2 = .err e) ∧
    ((∀ k < (b.buildF E w noFaults 0).1, k ≠ globalConfigRequest → F k = false) →
      (b.buildF E w F 0).2 = b.build E w) := by
  replace hg : F globalConfigRequest = false ∨
      ∀ so ho s, w.storage so ho = .ok s → s.absolute (globalConfigPath w.vars) = none :=
    hg.imp_right (fun h so ho s hs => h so ho s _ hs ((confPath_iff _ _).2 rfl))
  unfold globalConfigRequest at *
  have hb : ∀ F, b.buildF E w F 0 = Io.bind (b.resolveOptionsF w) (afterResolving E w) F 0 := fun _ => rfl
  rw [hb, hb]
  unfold TableBuilder.build
  generalize hb1 : ({ b.resolveUserProvided with
    storageOptions := resolveCloudEnvVars w.vars b.resolveUserProvided.storageOptions } : TableBuilder) = b1
  have e1 : b.resolveOptionsF w = resolveHudiOptionsF w b1 := by rw [← hb1]; rfl
  have e2 : b.resolveOptions w = resolveHudiOptions w b1 := by rw [← hb1]; rfl
  rw [e1, e2]
  unfold resolveHudiOptionsF resolveHudiOptions
  cases hs : w.storage b1.storageOptions b1.hudiOptions with
  | err e =>
    simp only [Io.bind, Io.bind_apply, Io.lift, Res.err_bind]
    exact ⟨fun ⟨k, hk, _⟩ => absurd hk (Nat.not_lt_zero k), fun _ => trivial⟩
  | panic =>
    simp only [Io.bind, Io.bind_apply, Io.lift, Res.panic_bind]
    exact ⟨fun ⟨k, hk, _⟩ => absurd hk (Nat.not_lt_zero k), fun _ => trivial⟩
  | ok s =>
    have hr : ∀ F : Faults, (Io.lift (Res.ok s) >>= fun s => imbueTablePropertiesF b1.hudiOptions s >>= fun o =>
        imbueGlobalConfigsF w o s >>= fun o' => pure { b1 with hudiOptions := o' }) F 0 =
        (imbueTablePropertiesF b1.hudiOptions s >>= fun o =>
        imbueGlobalConfigsF w o s >>= fun o' => pure { b1 with hudiOptions := o' }) F 0 := fun _ => rfl
    unfold Io.bind
    rw [hr, hr]
    simp only [Res.ok_bind]
    cases hp : imbueTableProperties b1.hudiOptions s with
    | err e =>
      cases h0 : F 0 with
      | true =>
        simp only [Io.bind_apply, Io.bind, imbueTablePropertiesF, Io.request, noFaults, h0, hp, Res.err_bind]
        exact ⟨fun _ => ⟨.storage, rfl⟩, fun h => absurd (h 0 Nat.zero_lt_one (by decide)) (by rw [h0]; decide)⟩
      | false =>
        simp only [Io.bind_apply, Io.bind, imbueTablePropertiesF, Io.request, noFaults, h0, hp, Res.err_bind]
        exact ⟨fun _ => ⟨e, rfl⟩, fun _ => rfl⟩
    | panic =>
      cases h0 : F 0 with
      | true =>
        simp only [Io.bind_apply, Io.bind, imbueTablePropertiesF, Io.request, noFaults, h0, hp, Res.panic_bind]
        exact ⟨fun _ => ⟨.storage, rfl⟩, fun h => absurd (h 0 Nat.zero_lt_one (by decide)) (by rw [h0]; decide)⟩
      | false =>
        simp only [Io.bind_apply, Io.bind, imbueTablePropertiesF, Io.request, noFaults, h0, hp, Res.panic_bind]
        refine ⟨fun ⟨k, hk, _, hf⟩ => ?_, fun _ => rfl⟩
        have : k = 0 := Nat.lt_one_iff.1 hk
        rw [this, h0] at hf
        cases hf
    | ok o =>
      have hN := globalConfigsF_eq (w := w) (o := o) (s := s) (F := noFaults) (n := 1) (.inl rfl)
      have hF := globalConfigsF_eq (w := w) (o := o) (s := s) (F := F) (n := 1)
        (hg.imp id (fun h => h _ _ _ hs))
      obtain ⟨m, m1, m2, m3⟩ := faithful_afterResolving E w
        { b1 with hudiOptions := imbueGlobalConfigs w o s } 2
      have hn : afterResolving E w { b1 with hudiOptions := imbueGlobalConfigs w o s } noFaults 2 = _ :=
        m2 noFaults (fun _ _ _ => rfl)
      have hlt : (0 : Nat) < m := by omega
      cases h0 : F 0 with
      | true =>
        simp only [Io.bind_apply, Io.bind, imbueTablePropertiesF, Io.request, noFaults, h0, hp, if_true]
        refine ⟨fun _ => ⟨.storage, rfl⟩, fun h => ?_⟩
        simp only [Bool.false_eq_true, if_false] at h
        simp only [Nat.zero_add, hN, Io.lift, Pure.pure, hn, Nat.reduceAdd] at h
        exact absurd (h 0 hlt (by decide)) (by rw [h0]; decide)
      | false =>
        simp only [Io.bind_apply, Io.bind, imbueTablePropertiesF, Io.request, noFaults, h0, hp, Bool.false_eq_true,
          if_false, Nat.zero_add, hN, hF, Io.lift, Pure.pure, hn, Res.ok_bind, Nat.reduceAdd]
        refine ⟨?_, fun h => ?_⟩
        · rintro ⟨k, hk, hk1, hf⟩
          have : k ≠ 0 := fun h => by rw [h, h0] at hf; cases hf
          obtain ⟨n', e, he⟩ := m3 F ⟨k, by omega, hk, hf⟩
          exact ⟨e, by rw [he]⟩
        · rw [m2 F (fun k a b => h k b (by omega))]
          rfl

end Hudi
