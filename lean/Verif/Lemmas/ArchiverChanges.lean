import Verif.Lemmas.ArchiverTimeline
import Verif.Lemmas.CleanerChanges

/-! # Lemmas for C102: reads of changes cannot tell from what older instants have been taken -/

namespace Hudi
open Spec

/-- Two timelines that reads of the changes since `start` cannot tell apart. -/
structure AlikeSince (E : Env) (start : Str) (tl tl' : Timeline) : Prop where
  opts : tl.opts = tl'.opts
  span : ∀ stop s, completedActionsInRange E.ltz defaultLoadingActions tl.opts (some start) (some stop) = .ok s →
    s.select tl.completed = s.select tl'.completed

theorem AlikeSince.groups {E : Env} {start : Str} {tl tl' : Timeline} (h : AlikeSince E start tl tl') (t : Tree)
    (stop : Str) :
    tl.fileGroupsBetween E t (some start) (some stop) = tl'.fileGroupsBetween E t (some start) (some stop) := by
  unfold Timeline.fileGroupsBetween
  rw [← h.opts]
  cases hs : completedActionsInRange E.ltz defaultLoadingActions tl.opts (some start) (some stop) with
  | ok s => simp only [Res.ok_bind]; rw [h.span _ _ hs]
  | err e => rfl
  | panic => rfl

theorem AlikeSince.groupsR {E : Env} {start : Str} {tl tl' : Timeline} (h : AlikeSince E start tl tl') (R : Race)
    (stop : Str) :
    tl.fileGroupsBetweenR E R (some start) (some stop) = tl'.fileGroupsBetweenR E R (some start) (some stop) := by
  unfold Timeline.fileGroupsBetweenR
  rw [← h.opts]
  cases hs : completedActionsInRange E.ltz defaultLoadingActions tl.opts (some start) (some stop) with
  | ok s => simp only [Res.ok_bind]; rw [h.span _ _ hs]
  | err e => rfl
  | panic => rfl

theorem AlikeSince.between {E : Env} {start : Str} {tb : Table} {tl : Timeline} (h : AlikeSince E start tb.timeline tl)
    (t : Tree) (stop : Str) :
    tb.fileSlicesBetween E t (some start) (some stop) =
      Table.fileSlicesBetween E { tb with timeline := tl } t (some start) (some stop) := by
  unfold Table.fileSlicesBetween Table.fileSlicesBetweenInternal
  simp only [Option.some_or, Option.getD_some, h.groups]

theorem AlikeSince.reads {E : Env} {start : Str} {tb : Table} {tl : Timeline} (h : AlikeSince E start tb.timeline tl)
    (A : Arrow) (C : Codec) (M : MergeEnv A) (t : Tree) (stop : Str) :
    tb.readIncremental E A C M t start (some stop) =
      Table.readIncremental E A C M { tb with timeline := tl } t start (some stop) := by
  unfold Table.readIncremental Table.fileSlicesBetweenInternal
  simp only [Option.some_or, h.groups]
  rfl

theorem AlikeSince.readsR {E : Env} {start : Str} {tb : Table} {tl : Timeline} (h : AlikeSince E start tb.timeline tl)
    (A : Arrow) (C : Codec) (M : MergeEnv A) (R : Race) (stop : Str) :
    tb.readIncrementalR E A C M R start (some stop) =
      Table.readIncrementalR E A C M { tb with timeline := tl } R start (some stop) := by
  unfold Table.readIncrementalR Table.fileSlicesBetweenInternalR
  simp only [Option.some_or, h.groupsR]
  rfl

theorem alikeSince_sweep {S : Setting} {E : Env} (hclock : E.ltz = S.ltz) (hmono : MonotoneTz E.ltz) {v : Work}
    (hi : Inv S v) {o : Opts} {start : Str} (hs : WriterTimestamp start ∧ start.length = S.width)
    (hps : ∃ d, parseDatetime S.ltz start S.tz = .ok d) {gone gone' : List (List Str)}
    (hk : ∀ c ∈ v.history, compare start c.ts = .lt → instantAt c ∉ gone)
    (hk' : ∀ c ∈ v.history, compare start c.ts = .lt → instantAt c ∉ gone') {tl tl' : Timeline}
    (hload : Timeline.load E o (sweep v gone).tree = .ok tl) (hload' : Timeline.load E o (sweep v gone').tree = .ok tl')
    (hzone : timezoneOf tl.opts = .ok S.tz) : AlikeSince E start tl tl' := by
  have ho : tl.opts = o := by obtain ⟨_, _, h, _⟩ := C05_loaded_timeline E o _ _ hload; exact h
  have ho' : tl'.opts = o := by obtain ⟨_, _, h, _⟩ := C05_loaded_timeline E o _ _ hload'; exact h
  have hzone' : timezoneOf tl'.opts = .ok S.tz := by rw [ho', ← ho]; exact hzone
  have hst := fun g => (sweep_timeline hi g)
  rw [← hclock] at hst hps
  have hw := fun (g : List (List Str)) => wf_filter hi.wf (fun c => decide (instantAt c ∉ g))
  obtain ⟨t1, t2, t3⟩ := timeline_of hload hzone (hw gone) (hst gone)
  obtain ⟨u1, u2, u3⟩ := timeline_of hload' hzone' (hw gone') (hst gone')
  have s1 := timeline_strict hmono hload (sweep_names hi gone) hzone (hw gone) (hst gone)
  have s2 := timeline_strict hmono hload' (sweep_names hi gone') hzone' (hw gone') (hst gone')
  obtain ⟨ds, hds⟩ := hps
  have hlt : ∀ c ∈ v.history, ∀ d, parseDatetime E.ltz c.ts S.tz = .ok d → ds.epochMillis < d.epochMillis →
      compare start c.ts = .lt := by
    intro c hc d hd h
    obtain ⟨q1, q2⟩ := hi.wf.times c hc
    rw [C04_same_width_partial E.ltz hmono S.tz _ _ _ _ hs.1 q1 (by rw [q2, hs.2]) hds hd]
    exact Int.compare_eq_lt.2 h
  have hsame : tl.completed.filter (fun i => decide (ds.epochMillis < i.epochMillis)) =
      tl'.completed.filter (fun i => decide (ds.epochMillis < i.epochMillis)) := by
    refine strict_unique (s1.filter _) (s2.filter _) (fun i => ?_)
    simp only [List.mem_filter, decide_eq_true_eq]
    constructor
    · rintro ⟨h1, h2⟩
      obtain ⟨c, hc, d, hd, rfl⟩ := t1 i h1
      have hc1 := (List.mem_filter.1 hc).1
      obtain ⟨d', hd', h3⟩ := u2 c (List.mem_filter.2 ⟨hc1, decide_eq_true (hk' c hc1 (hlt c hc1 d hd h2))⟩)
      rw [hd] at hd'; cases hd'
      exact ⟨h3, h2⟩
    · rintro ⟨h1, h2⟩
      obtain ⟨c, hc, d, hd, rfl⟩ := u1 i h1
      have hc1 := (List.mem_filter.1 hc).1
      obtain ⟨d', hd', h3⟩ := t2 c (List.mem_filter.2 ⟨hc1, decide_eq_true (hk c hc1 (hlt c hc1 d hd h2))⟩)
      rw [hd] at hd'; cases hd'
      exact ⟨h3, h2⟩
  refine ⟨by rw [ho, ho'], fun stop s h => ?_⟩
  unfold completedActionsInRange at h
  rw [hzone] at h
  simp only [Res.ok_bind, parseOpt, hds, Res.pure_eq] at h
  obtain ⟨e, _, h⟩ := Res.bind_eq_ok.1 h
  cases h
  have c1 : ∀ i ∈ tl.completed, i.state = .completed := by
    intro i h1
    obtain ⟨_, _, _, _, rfl⟩ := t1 i h1; rfl
  have c2 : ∀ i ∈ tl'.completed, i.state = .completed := by
    intro i h1
    obtain ⟨_, _, _, _, rfl⟩ := u1 i h1; rfl
  have hne : defaultLoadingActions ≠ [] := by decide
  rw [select_eq rfl hne c1 t3, select_eq rfl hne c2 u3]
  have key : ∀ (b : Option Int) (l : List Instant), Spec.inRange defaultLoadingActions (some ds.epochMillis) b l =
      Spec.inRange defaultLoadingActions (some ds.epochMillis) b
        (l.filter (fun i => decide (ds.epochMillis < i.epochMillis))) := by
    intro b l
    unfold Spec.inRange
    rw [List.filter_filter]
    refine List.filter_congr (fun i _ => ?_)
    by_cases h1 : ds.epochMillis < i.epochMillis <;> simp [h1]
  show Spec.inRange defaultLoadingActions (some ds.epochMillis) _ _ = Spec.inRange defaultLoadingActions (some ds.epochMillis) _ _
  rw [key, hsame, ← key]

/-- No commit is later than the last. -/
theorem upTo_last {h : History} {n : Nat} (hw : h.WF n) {c : HCommit} (hlast : h.getLast? = some c) :
    h.filter (fun c' => (compare c'.ts c.ts).isLE) = h := by
  rw [List.filter_eq_self]
  intro c' hc
  have hord := hw.ordered
  rcases List.eq_nil_or_concat h with e | ⟨l, c0, e⟩
  · rw [e] at hc; cases hc
  · rw [List.concat_eq_append] at e
    subst e
    simp only [List.getLast?_append, List.getLast?_singleton, Option.some_or, Option.some.injEq] at hlast
    subst hlast
    rcases List.mem_append.1 hc with h1 | h1
    · rw [(List.pairwise_append.1 hord).2.2 _ h1 c0 (by simp)]; rfl
    · rw [List.mem_singleton.1 h1, Std.ReflCmp.compare_self (cmp := (compare : Str → Str → Ordering))]; rfl

/-- An archiver leaves alone what reads of changes need. -/
theorem meanwhileAfter_trim {S : Setting} {s0 v : Work} (hi0 : Inv S s0) (hi : Inv S v) {r : Str} {j0 : Job}
    {g a : List (List Str)} (ht : Trimmed r v a) {tl tls : Timeline}
    (hsub : ∀ i ∈ tls.completed, i ∈ tl.completed ∧
      [c!".hoodie", i.timestamp ++ c!"." ++ suffix i.action i.state] ∉ a) {start : Str} {ss : List FileSlice}
    (hss : ShowsTable (changedAt s0.history start j0.commit.ts) (fun _ => True) ss)
    (h : MeanwhileAfter S.C S.ltz S.tz S.o j0.commit.ts tl (lasting S s0).tree ss (sweep v g).tree) :
    MeanwhileAfter S.C S.ltz S.tz S.o j0.commit.ts tls (lasting S s0).tree ss (sweep v (g ++ a)).tree := by
  have hspan : ∀ x ∈ ss, ∃ h1 h2 h3 c0 token,
      SpanSlice s0.history start j0.commit.ts (sliceKey x) x h1 h2 h3 c0 token := by
    intro x hx
    obtain ⟨w, hw⟩ := Option.ne_none_iff_exists'.1 ((hss.groups (sliceKey x)).1 ⟨x, hx, rfl⟩).2
    exact spanSlice_of hi0.wf rfl hw (hss.versions x hx w hw)
  refine ⟨?_, ?_, ?_⟩
  · intro i him
    obtain ⟨h1, h2⟩ := hsub i him
    rw [← h.docs i h1]
    unfold docOf
    rw [trim_fileAt hi h2]
  · intro x hx b hb
    obtain ⟨h1, h2, h3, c0, token, hsl⟩ := hspan x hx
    obtain ⟨hk, htk, hts⟩ := tableAt_key hi0 hsl.table
    obtain ⟨size, n, footer, h'⟩ := h.parquet x hx b hb
    refine ⟨size, n, footer, ?_⟩
    rw [hsl.base, basePath_segs hk htk hts] at h' ⊢
    rw [trim_fileAt hi (base_kept hi ht hk)]
    exact h'
  · intro hro x hx l hl ws hws hgood
    obtain ⟨h1, h2, h3, c0, token, hsl⟩ := hspan x hx
    obtain ⟨hk, _, hts⟩ := tableAt_key hi0 hsl.table
    obtain ⟨more, ⟨size, c, h4, h5⟩, h6⟩ := h.appended hro x hx l hl ws hws hgood
    refine ⟨more, ⟨size, c, ?_, h5⟩, h6⟩
    obtain ⟨c', hap, _⟩ := (hsl.named (l.version, l.writeToken)).1 ⟨l, hl, rfl⟩
    have hparts : NamePart l.version ∧ NamePart l.writeToken := by
      obtain ⟨b1, b2, ls, w, e1, e2, e3, e4, _⟩ := hap
      obtain ⟨d1, j, d2, hd', rfl, rfl, _⟩ := split_commits e1
      exact (hi0.jobs d1 j d2 hd').logs _ ls e2 _ e3
    rw [hsl.paths l hl, logPath_segs hk hts hparts] at h4 ⊢
    rw [trim_fileAt hi (log_kept hi ht hk)]
    exact h4

end Hudi
