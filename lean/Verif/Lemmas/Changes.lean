import Verif.Spec.Changes
import Verif.Lemmas.Records

/-! # Lemmas on what changed between two times -/

namespace Hudi
open Spec

theorem version_of_write {p : History} {k : GroupKey} {c : HCommit} {tok : Str} (hc : c ∈ p)
    (hch : c.changeOf k = some (.write tok)) (hno : ∀ c ∈ p, c.changeOf k ≠ some .replace) :
    versionAfter p k ≠ none := by
  induction p using List.reverseRecOn with
  | nil => cases hc
  | append_singleton p d ih =>
    rw [versionAfter_snoc]
    rcases List.mem_append.1 hc with hc' | hc'
    · have ih := ih hc' (fun c hc => hno c (by simp [hc]))
      split
      · exact ih
      · next ch hd =>
        cases ch with
        | write tok => simp [Change.apply]
        | append ls => simpa [Change.apply] using ih
        | replace => exact absurd hd (hno d (by simp))
    · rw [List.mem_singleton] at hc'
      subst hc'
      rw [hch]
      simp [Change.apply]

theorem Spec.History.WF.filter {h : History} {n : Nat} (hw : h.WF n) (p : HCommit → Bool) :
    History.WF (h.filter p) n where
  ordered := hw.ordered.filter _
  times := fun c hc => hw.times c (List.mem_filter.1 hc).1
  once := fun c hc => hw.once c (List.mem_filter.1 hc).1
  replaces := fun c hc => hw.replaces c (List.mem_filter.1 hc).1
  gone := hw.gone.filter _
  ids := fun c hc => hw.ids c (List.mem_filter.1 hc).1
  tokens := fun c hc => hw.tokens c (List.mem_filter.1 hc).1
  logs := fun c hc => hw.logs c (List.mem_filter.1 hc).1

theorem version_of_replace {p : History} {n : Nat} (hw : p.WF n) {k : GroupKey} {c : HCommit}
    (hc : c ∈ p) (hch : (k, Change.replace) ∈ c.changes) : versionAfter p k = none := by
  cases hv : versionAfter p k with
  | none => rfl
  | some v =>
    obtain ⟨h1, c0, h2, rfl, e1, _, e3, _⟩ := versionAfter_some.1 hv
    rcases List.mem_append.1 hc with hm | hm
    · have := (List.pairwise_append.1 hw.gone).2.2 c hm c0 (by simp) k hch _ (changeOf_mem e1)
      exact this.elim
    · have hch' := (hw.of_mem hc).2 hch
      rcases List.mem_cons.1 hm with rfl | hm
      · rw [e1] at hch'; cases hch'
      · rcases e3 c hm with h | ⟨ls, h⟩ <;> rw [h] at hch' <;> cases hch'

/-- The base file and log files that a commit records for a file group. -/
structure RecordsFor (h : History) (c : HCommit) (k : GroupKey) (w : Write) (c0 : HCommit) (token : Str) :
    Prop where
  mem : c0 ∈ h
  write : c0.changeOf k = some (.write token)
  le : (compare c0.ts c.ts).isLE = true
  id : w.id = k
  base : w.base = ⟨k.2, token, c0.ts, c!"parquet", none⟩
  logs : ∀ l, l ∈ w.logs ↔ ∃ e, AppendsTo h k c0.ts e c ∧ l = ⟨k.2, c0.ts, c!"log", e.1, e.2, none⟩

theorem recordsFor_of {h : History} {n : Nat} (hw : h.WF n) {h1 h2 : History} {c : HCommit}
    (he : h = h1 ++ c :: h2) {k : GroupKey} {ch : Change} (hch : (k, ch) ∈ c.changes) {w : Write}
    (hwr : writeOf h1 c.ts k ch = some w) : ∃ c0 token, RecordsFor h c k w c0 token := by
  have hc : c ∈ h := by rw [he]; simp
  cases ch with
  | replace => cases hwr
  | write token =>
    cases hwr
    refine ⟨c, token, hc, (hw.of_mem hc).2 hch, by rw [Std.ReflCmp.compare_self (cmp := (compare : Str → Str → Ordering))]; rfl, rfl, rfl, ?_⟩
    intro l
    simp only [List.not_mem_nil, false_iff]
    rintro ⟨e, ⟨a, b, ls, v, g1, g2, _⟩, _⟩
    have x1 := (hw.of_mem hc).2 hch
    have x2 := (hw.of_mem hc).2 g2
    rw [x1] at x2; cases x2
  | append ls =>
    obtain ⟨v, hv, rfl⟩ := Option.map_eq_some_iff.1 hwr
    obtain ⟨a, c0, b, e1, e2, e3, e4, e5⟩ := versionAfter_some.1 hv
    refine ⟨c0, v.token, by rw [he, e1]; simp, e2, ?_, rfl, by rw [e3], ?_⟩
    · have := hw.ordered
      rw [he, e1] at this
      rw [(List.pairwise_append.1 this).2.2 c0 (by simp) c (by simp)]
      rfl
    · intro l
      simp only [List.mem_map]
      constructor
      · rintro ⟨e, he', rfl⟩
        exact ⟨e, ⟨h1, h2, ls, v, he, hch, he', hv, e3.symm⟩, by rw [e3]⟩
      · rintro ⟨e, ⟨a', b', ls', v', g1, g2, g3, g4, g5⟩, rfl⟩
        have x1 := (hw.of_mem hc).2 hch
        have x2 := (hw.of_mem hc).2 g2
        rw [x1] at x2; cases x2
        exact ⟨e, g3, by rw [e3]⟩

theorem mem_spanOf {h : History} {start stop : Str} {c : HCommit} :
    c ∈ spanOf h start stop ↔ c ∈ h ∧ InSpan start stop c := by
  unfold spanOf; simp

/-- Where the version at the end of a span comes from. -/
structure EndsWith (h : History) (stop : Str) (k : GroupKey) (h1 h2 h3 : History) (c0 : HCommit)
    (token : Str) : Prop where
  split : h = h1 ++ c0 :: (h2 ++ h3)
  upTo : h.filter (fun c => (compare c.ts stop).isLE) = h1 ++ c0 :: h2
  write : c0.changeOf k = some (.write token)
  quiet : ∀ c ∈ h2, Quiet k c
  early : ∀ c ∈ h1 ++ c0 :: h2, (compare c.ts stop).isLE = true
  late : ∀ c ∈ h3, (compare c.ts stop).isLE = false

theorem endsWith_of {h : History} {n : Nat} (hw : h.WF n) {stop : Str} {k : GroupKey} {v : Version}
    (hv : tableAt h stop k = some v) :
    ∃ h1 h2 h3 c0, EndsWith h stop k h1 h2 h3 c0 v.token ∧ c0.ts = v.base := by
  have hsplit := history_split hw.ordered stop
  obtain ⟨h1, c0, h2, e1, e2, e3, e4, e5⟩ := versionAfter_some.1 (show versionAfter _ k = some v from hv)
  refine ⟨h1, h2, h.filter (fun c => (compare c.ts stop).isGT), c0, ⟨?_, e1, e2, e4, ?_, ?_⟩, e3⟩
  · rw [e1] at hsplit
    simpa using hsplit
  · intro c hc
    rw [← e1] at hc
    exact (List.mem_filter.1 hc).2
  · intro c hc
    have := (List.mem_filter.1 hc).2
    revert this
    cases compare c.ts stop <;> simp

/-- Commits that append against the base file at the end of the span, up to its end. -/
theorem EndsWith.appends {h : History} {n : Nat} (hw : h.WF n) {stop : Str} {k : GroupKey}
    {h1 h2 h3 : History} {c0 : HCommit} {token : Str} (he : EndsWith h stop k h1 h2 h3 c0 token)
    {e : Str × Str} {c : HCommit} (hle : (compare c.ts stop).isLE = true) :
    AppendsTo h k c0.ts e c ↔ c ∈ h2 ∧ ∃ ls, c.changeOf k = some (.append ls) ∧ e ∈ ls := by
  rw [appendsTo_iff hw he.split he.write]
  constructor
  · rintro ⟨a, b, ls, e1, _, e3, e4⟩
    have hmem : c ∈ h2 ++ h3 := by rw [e1]; simp
    rcases List.mem_append.1 hmem with hm | hm
    · exact ⟨hm, ls, e3, e4⟩
    · rw [he.late c hm] at hle; cases hle
  · rintro ⟨hm, ls, e3, e4⟩
    obtain ⟨a, b, rfl⟩ := List.append_of_mem hm
    exact ⟨a, b ++ h3, ls, by simp, fun c hc => he.quiet c (by simp [hc]), e3, e4⟩

theorem EndsWith.after {h : History} {n : Nat} (hw : h.WF n) {stop : Str} {k : GroupKey}
    {h1 h2 h3 : History} {c0 : HCommit} {token : Str} (he : EndsWith h stop k h1 h2 h3 c0 token)
    {c : HCommit} (hc : c ∈ h) (hle : (compare c.ts stop).isLE = true) :
    c ∈ h2 ↔ compare c0.ts c.ts = .lt := by
  have ho := hw.ordered
  rw [he.split] at ho hc
  have ho2 := (List.pairwise_append.1 ho).2.1
  constructor
  · intro hm
    exact (List.pairwise_cons.1 ho2).1 c (by simp [hm])
  · intro hlt
    rcases List.mem_append.1 hc with hm | hm
    · have := (List.pairwise_append.1 ho).2.2 c hm c0 (by simp)
      rw [Std.OrientedCmp.eq_swap (cmp := (compare : Str → Str → Ordering)), hlt] at this
      cases this
    · rcases List.mem_cons.1 hm with rfl | hm
      · rw [Std.ReflCmp.compare_self (cmp := (compare : Str → Str → Ordering))] at hlt; cases hlt
      · rcases List.mem_append.1 hm with hm | hm
        · exact hm
        · rw [he.late c hm] at hle; cases hle

/-- A base file that a commit up to the end records is not later than the one at the end. -/
theorem EndsWith.latest {h : History} {n : Nat} (hw : h.WF n) {stop : Str} {k : GroupKey}
    {h1 h2 h3 : History} {c0 : HCommit} {token : Str} (he : EndsWith h stop k h1 h2 h3 c0 token)
    {c : HCommit} (hc : c ∈ h) (hle : (compare c.ts stop).isLE = true) {tok : Str}
    (hch : c.changeOf k = some (.write tok)) : (compare c.ts c0.ts).isLE = true := by
  cases hx : compare c0.ts c.ts with
  | lt =>
    rcases he.quiet c ((he.after hw hc hle).2 hx) with h | ⟨ls, h⟩ <;> rw [h] at hch <;> cases hch
  | eq => rw [Std.OrientedCmp.eq_swap (cmp := (compare : Str → Str → Ordering)), hx]; rfl
  | gt => rw [Std.OrientedCmp.eq_swap (cmp := (compare : Str → Str → Ordering)), hx]; rfl

theorem mem_changedLogs {h : History} {n : Nat} (hw : h.WF n) {start stop : Str} {k : GroupKey}
    {h1 h2 h3 : History} {c0 : HCommit} {token : Str} (he : EndsWith h stop k h1 h2 h3 c0 token)
    {e : Str × Str} :
    e ∈ ((spanOf h start stop).filter (fun c => decide (compare c0.ts c.ts = .lt))).flatMap
      (fun c => c.logsOf k) ↔ ∃ c, AppendsTo h k c0.ts e c ∧ InSpan start stop c := by
  rw [List.mem_flatMap]
  constructor
  · rintro ⟨c, hc, hm⟩
    simp only [List.mem_filter, decide_eq_true_eq, mem_spanOf] at hc
    obtain ⟨⟨hc, hin⟩, hlt⟩ := hc
    refine ⟨c, (he.appends hw hin.2).2 ⟨(he.after hw hc hin.2).2 hlt, ?_⟩, hin⟩
    unfold HCommit.logsOf at hm
    split at hm
    · next ls hch => exact ⟨ls, hch, hm⟩
    · cases hm
  · rintro ⟨c, hap, hin⟩
    obtain ⟨hm, ls, hch, hl⟩ := (he.appends hw hin.2).1 hap
    have hc : c ∈ h := by rw [he.split]; simp [hm]
    refine ⟨c, ?_, ?_⟩
    · simp only [List.mem_filter, decide_eq_true_eq, mem_spanOf]
      exact ⟨⟨hc, hin⟩, (he.after hw hc hin.2).1 hm⟩
    · unfold HCommit.logsOf
      rw [hch]; exact hl

theorem changedAt_some {h : History} {n : Nat} (hw : h.WF n) {start stop : Str} {k : GroupKey}
    {v : Version} (hv : changedAt h start stop k = some v) :
    (∃ c ∈ h, InSpan start stop c ∧ ∃ ch, (k, ch) ∈ c.changes) ∧
    ∃ h1 h2 h3 c0, EndsWith h stop k h1 h2 h3 c0 v.token ∧ c0.ts = v.base ∧
      ∀ e, e ∈ v.logs ↔ ∃ c, AppendsTo h k c0.ts e c ∧ InSpan start stop c := by
  unfold changedAt at hv
  split at hv
  · next hany =>
    obtain ⟨v0, hv0, rfl⟩ := Option.map_eq_some_iff.1 hv
    obtain ⟨h1, h2, h3, c0, he, hb⟩ := endsWith_of hw hv0
    obtain ⟨c, hc, hch⟩ := List.any_eq_true.1 hany
    obtain ⟨ch, hch⟩ := Option.isSome_iff_exists.1 hch
    obtain ⟨hc, hin⟩ := mem_spanOf.1 hc
    refine ⟨⟨c, hc, hin, ch, changeOf_mem hch⟩, h1, h2, h3, c0, he, hb, ?_⟩
    intro e
    simp only [← hb]
    exact mem_changedLogs hw he
  · cases hv

theorem changedAt_ne_none {h : History} {n : Nat} (hw : h.WF n) {start stop : Str} {k : GroupKey} :
    changedAt h start stop k ≠ none ↔
      (∃ c ∈ h, InSpan start stop c ∧ ∃ ch, (k, ch) ∈ c.changes) ∧ tableAt h stop k ≠ none := by
  unfold changedAt
  have : ((spanOf h start stop).any (fun c => (c.changeOf k).isSome) = true) ↔
      ∃ c ∈ h, InSpan start stop c ∧ ∃ ch, (k, ch) ∈ c.changes := by
    rw [List.any_eq_true]
    constructor
    · rintro ⟨c, hc, h⟩
      obtain ⟨ch, h⟩ := Option.isSome_iff_exists.1 h
      obtain ⟨hc, hin⟩ := mem_spanOf.1 hc
      exact ⟨c, hc, hin, ch, changeOf_mem h⟩
    · rintro ⟨c, hc, hin, ch, h⟩
      exact ⟨c, mem_spanOf.2 ⟨hc, hin⟩, by rw [(hw.of_mem hc).2 h]; rfl⟩
  rw [← this]
  split <;> simp_all

end Hudi
