import Verif.Lemmas.Timeline
import Verif.Spec.Range

/-! # C09: instant ranges -/

namespace Hudi

theorem DateTime.lt_iff (a b : DateTime) : a.lt b = true ↔ Spec.Before a b := by
  unfold DateTime.lt DateTime.cmp Spec.Before
  rw [beq_iff_eq, Ordering.then_eq_lt, Int.compare_eq_lt, Int.compare_eq_eq, Nat.compare_eq_lt]

theorem DateTime.le_iff (a b : DateTime) : a.le b = true ↔ Spec.Before a b ∨ a = b := by
  unfold DateTime.le DateTime.cmp Spec.Before
  simp only [Ordering.isLE_then_iff_and, Int.isLE_compare, Nat.isLE_compare, Int.compare_eq_lt]
  constructor
  · rintro ⟨h1, h2⟩
    by_cases h : a = b
    · exact .inr h
    · left
      by_cases hs : a.secs = b.secs
      · have : a.nanos ≠ b.nanos := fun hn => h (by cases a; cases b; simp_all)
        omega
      · omega
  · rintro ((h | ⟨h, h'⟩) | rfl)
    · exact ⟨by omega, .inl h⟩
    · exact ⟨by omega, .inr (by omega)⟩
    · exact ⟨by omega, .inr (by omega)⟩

theorem before_or_ge (a b : DateTime) : Spec.Before a b ∨ a = b ∨ Spec.Before b a := by
  unfold Spec.Before
  by_cases h : a = b
  · exact .inr (.inl h)
  · by_cases hs : a.secs = b.secs
    · have : a.nanos ≠ b.nanos := fun hn => h (by cases a; cases b; simp_all)
      omega
    · omega

theorem before_asymm {a b : DateTime} (h : Spec.Before a b) : ¬ Spec.Before b a := by
  unfold Spec.Before at *; omega

theorem before_irrefl (a : DateTime) : ¬ Spec.Before a a := by
  unfold Spec.Before; omega

theorem startOk_iff (r : InstantRange) (t s : DateTime) :
    r.startOk t (some s) = true ↔ Spec.AfterStart r.startInclusive s t := by
  unfold InstantRange.startOk Spec.AfterStart
  cases r.startInclusive
  · simp only [Bool.false_eq_true, if_false, Bool.not_eq_true', false_and, or_false]
    rw [← Bool.not_eq_true, DateTime.le_iff]
    constructor
    · intro h; rcases before_or_ge t s with g | g | g
      · exact absurd (.inl g) h
      · exact absurd (.inr g) h
      · exact g
    · rintro h (g | rfl)
      · exact before_asymm h g
      · exact before_irrefl _ h
  · simp only [if_true, Bool.not_eq_true', true_and]
    rw [← Bool.not_eq_true, DateTime.lt_iff]
    constructor
    · intro h; rcases before_or_ge t s with g | g | g
      · exact absurd g h
      · exact .inr g
      · exact .inl g
    · rintro (h | rfl)
      · exact before_asymm h
      · exact before_irrefl _

theorem endOk_iff (r : InstantRange) (t e : DateTime) :
    r.endOk t (some e) = true ↔ Spec.BeforeEnd r.endInclusive e t := by
  unfold InstantRange.endOk Spec.BeforeEnd
  cases r.endInclusive
  · simp only [Bool.false_eq_true, if_false, Bool.not_eq_true', false_and, or_false]
    rw [← Bool.not_eq_true, DateTime.le_iff]
    constructor
    · intro h; rcases before_or_ge t e with g | g | g
      · exact g
      · exact absurd (.inr g.symm) h
      · exact absurd (.inl g) h
    · rintro h (g | rfl)
      · exact before_asymm h g
      · exact before_irrefl _ h
  · simp only [if_true, Bool.not_eq_true', true_and]
    rw [← Bool.not_eq_true, DateTime.lt_iff]
    constructor
    · intro h; rcases before_or_ge t e with g | g | g
      · exact .inl g
      · exact .inr g
      · exact absurd g h
    · rintro (h | rfl)
      · exact before_asymm h
      · exact before_irrefl _

/-- **C09 is false** in its last clause: a timestamp shorter than 14 bytes is not reported as an
error, the check panics. -/
theorem C09_false (ltz : LocalTz) (r : InstantRange) (tz : Str) :
    r.isInRange ltz c!"2024" tz = .panic := rfl

/-- **C09, partial.**  For every range (each bound present or absent, all flag combinations) and
every timestamp: an answer is given only for a timestamp that parses; the answer is yes exactly when
the time is in the range.  A bound that does not parse can only produce the answer no, and only when
the other bound already excludes the time.  Missing: an unparsable timestamp may panic instead of
being reported as an error (`C09_false`). -/
theorem C09_range_membership_partial (ltz : LocalTz) (r : InstantRange) (ts tz : Str) (b : Bool)
    (h : r.isInRange ltz ts tz = .ok b) :
    (∃ t, parseDatetime ltz ts tz = .ok t ∧ (b = true ↔ Spec.InRange ltz r t)) ∧
    r.notInRange ltz ts tz = .ok (!b) := by
  refine ⟨?_, by unfold InstantRange.notInRange; rw [h]; rfl⟩
  unfold InstantRange.isInRange at h
  obtain ⟨t, ht, h⟩ := Res.bind_eq_ok.1 h
  obtain ⟨s, hs, h⟩ := Res.bind_eq_ok.1 h
  refine ⟨t, ht, ?_⟩
  have hS : ∀ x, r.start = some x → ∃ d, parseDatetime ltz x r.timezone = .ok d ∧ s = some d := by
    intro x hx
    rw [hx] at hs
    obtain ⟨d, h1, h2⟩ := Res.bind_eq_ok.1 hs
    cases h2
    exact ⟨d, h1, rfl⟩
  split at h
  · rename_i hno
    cases h
    simp only [Bool.false_eq_true, false_iff]
    rintro ⟨h1, _⟩
    cases hst : r.start with
    | none => rw [hst] at hs; cases hs; simp [InstantRange.startOk] at hno
    | some x =>
      obtain ⟨d, h2, rfl⟩ := hS x hst
      obtain ⟨d', h3, h4⟩ := h1 x hst
      rw [h2] at h3
      cases h3
      rw [(startOk_iff r t d).2 h4] at hno
      cases hno
  · rename_i hyes
    obtain ⟨e, he, h⟩ := Res.bind_eq_ok.1 h
    cases h
    have hstart : ∀ x, r.start = some x → ∃ d, parseDatetime ltz x r.timezone = .ok d ∧
        Spec.AfterStart r.startInclusive d t := by
      intro x hx
      obtain ⟨d, h2, rfl⟩ := hS x hx
      exact ⟨d, h2, (startOk_iff r t d).1 (by simpa using hyes)⟩
    cases hst : r.stop with
    | none =>
      rw [hst] at he
      cases he
      refine iff_of_true rfl ⟨hstart, ?_⟩
      intro e he
      rw [hst] at he
      cases he
    | some x =>
      rw [hst] at he
      obtain ⟨d, h1, h2⟩ := Res.bind_eq_ok.1 he
      cases h2
      rw [endOk_iff]
      constructor
      · intro hb
        refine ⟨hstart, ?_⟩
        intro y hy
        rw [hst] at hy
        cases hy
        exact ⟨d, h1, hb⟩
      · rintro ⟨_, h3⟩
        obtain ⟨d', h4, h5⟩ := h3 x hst
        rw [h1] at h4
        cases h4
        exact h5

/-- **C09, partial.**  When the timestamp and the bounds parse, there is an answer.  Missing: as in
`C09_range_membership_partial`. -/
theorem C09_answer_exists_partial (ltz : LocalTz) (r : InstantRange) (ts tz : Str) (t : DateTime)
    (ht : parseDatetime ltz ts tz = .ok t)
    (hs : ∀ s, r.start = some s → ∃ d, parseDatetime ltz s r.timezone = .ok d)
    (he : ∀ e, r.stop = some e → ∃ d, parseDatetime ltz e r.timezone = .ok d) :
    ∃ b, r.isInRange ltz ts tz = .ok b := by
  have hopt : ∀ o : Option Str, (∀ s, o = some s → ∃ d, parseDatetime ltz s r.timezone = .ok d) →
      ∃ x, parseOpt ltz r.timezone o = .ok x := by
    intro o ho
    cases o with
    | none => exact ⟨_, rfl⟩
    | some s =>
      obtain ⟨d, hd⟩ := ho s rfl
      exact ⟨some d, by simp [parseOpt, hd]⟩
  obtain ⟨x, hx⟩ := hopt _ hs
  obtain ⟨y, hy⟩ := hopt _ he
  unfold InstantRange.isInRange
  rw [ht, hx, hy]
  simp only [Res.ok_bind]
  split
  · exact ⟨_, rfl⟩
  · exact ⟨_, rfl⟩

/-- **C09, partial.**  An unparsable timestamp, or an unparsable start, never yields an answer; and
for a timestamp with a character boundary at byte 14 and readable bounds the failure is an error,
not a panic.  Missing: as in `C09_range_membership_partial`. -/
theorem C09_unparsable_is_never_answered_partial (ltz : LocalTz) (r : InstantRange) (ts tz : Str) :
    ((∀ t, parseDatetime ltz ts tz ≠ .ok t) → ∀ b, r.isInRange ltz ts tz ≠ .ok b) ∧
    (∀ s, r.start = some s → (∀ d, parseDatetime ltz s r.timezone ≠ .ok d) →
      ∀ b, r.isInRange ltz ts tz ≠ .ok b) ∧
    (∀ e, r.stop = some e → (∀ d, parseDatetime ltz e r.timezone ≠ .ok d) →
      r.isInRange ltz ts tz ≠ .ok true) ∧
    ((∃ h t, ts = h ++ t ∧ byteLen h = 14) → (∀ t, parseDatetime ltz ts tz ≠ .ok t) →
      ∃ e, r.isInRange ltz ts tz = .err e) := by
  refine ⟨?_, ?_, ?_, ?_⟩
  · intro h b hb
    obtain ⟨⟨t, ht, _⟩, _⟩ := C09_range_membership_partial ltz r ts tz b hb
    exact h t ht
  · intro s hs h b hb
    unfold InstantRange.isInRange at hb
    obtain ⟨t, ht, hb⟩ := Res.bind_eq_ok.1 hb
    obtain ⟨x, hx, hb⟩ := Res.bind_eq_ok.1 hb
    rw [hs] at hx
    obtain ⟨d, hd, _⟩ := Res.bind_eq_ok.1 hx
    exact h d hd
  · intro e he h hb
    obtain ⟨⟨t, ht, h1⟩, _⟩ := C09_range_membership_partial ltz r ts tz true hb
    obtain ⟨d, hd, _⟩ := (h1.1 rfl).2 e he
    exact h d hd
  · rintro ⟨hd, tl, hts, hlen⟩ h
    have hnp : parseDatetime ltz ts tz ≠ .panic := by
      intro hp
      rw [parseDatetime_panic] at hp
      rw [hts, splitAtByte_eq_some.2 ⟨rfl, hlen⟩] at hp
      cases hp
    unfold InstantRange.isInRange
    cases hc : parseDatetime ltz ts tz with
    | ok t => exact absurd hc (h t)
    | err e => exact ⟨e, rfl⟩
    | panic => exact absurd hc hnp

/-- **C09, partial.**  The ranges made by `up_to`, `within` and `within_open_closed`, for times that
can be read: everything up to and including the end; everything strictly between; everything after
the start, up to and including the end.  The bounds are read in the time zone of the range.  Missing: as in
`C09_range_membership_partial`. -/
theorem C09_named_ranges_partial (ltz : LocalTz) (start stop ts rtz tz : Str) (s e t : DateTime)
    (hs : parseDatetime ltz start rtz = .ok s) (he : parseDatetime ltz stop rtz = .ok e)
    (ht : parseDatetime ltz ts tz = .ok t) :
    (∃ b, (InstantRange.upTo stop rtz).isInRange ltz ts tz = .ok b ∧
      (b = true ↔ Spec.Before t e ∨ t = e)) ∧
    (∃ b, (InstantRange.within start stop rtz).isInRange ltz ts tz = .ok b ∧
      (b = true ↔ Spec.Before s t ∧ Spec.Before t e)) ∧
    (∃ b, (InstantRange.withinOpenClosed start stop rtz).isInRange ltz ts tz = .ok b ∧
      (b = true ↔ Spec.Before s t ∧ (Spec.Before t e ∨ t = e))) := by
  have key : ∀ r : InstantRange, r.timezone = rtz → (∀ x, r.start = some x → x = start) →
      (∀ x, r.stop = some x → x = stop) →
      ∃ b, r.isInRange ltz ts tz = .ok b ∧ (b = true ↔ Spec.InRange ltz r t) := by
    intro r h1 h2 h3
    obtain ⟨b, hb⟩ := C09_answer_exists_partial ltz r ts tz t ht
      (fun x hx => ⟨s, by rw [h2 x hx, h1, hs]⟩) (fun x hx => ⟨e, by rw [h3 x hx, h1, he]⟩)
    obtain ⟨⟨t', ht', h⟩, _⟩ := C09_range_membership_partial ltz r ts tz b hb
    rw [ht] at ht'
    cases ht'
    exact ⟨b, hb, h⟩
  refine ⟨?_, ?_, ?_⟩
  · obtain ⟨b, hb, h⟩ := key (InstantRange.upTo stop rtz) rfl (by intro x hx; cases hx)
      (by intro x hx; cases hx; rfl)
    refine ⟨b, hb, h.trans ?_⟩
    simp [Spec.InRange, InstantRange.upTo, Spec.BeforeEnd, he]
  · obtain ⟨b, hb, h⟩ := key (InstantRange.within start stop rtz) rfl (by intro x hx; cases hx; rfl)
      (by intro x hx; cases hx; rfl)
    refine ⟨b, hb, h.trans ?_⟩
    simp [Spec.InRange, InstantRange.within, Spec.BeforeEnd, Spec.AfterStart, hs, he]
  · obtain ⟨b, hb, h⟩ := key (InstantRange.withinOpenClosed start stop rtz) rfl
      (by intro x hx; cases hx; rfl) (by intro x hx; cases hx; rfl)
    refine ⟨b, hb, h.trans ?_⟩
    simp [Spec.InRange, InstantRange.withinOpenClosed, Spec.BeforeEnd, Spec.AfterStart, hs, he]

/-- The hypotheses are met, for instance, by this range and these timestamps. -/
example (ltz : LocalTz) :
    (InstantRange.withinOpenClosed c!"20240101000000000" c!"20240102000000000" c!"utc").isInRange
      ltz c!"20240102000000000" c!"utc" = .ok true ∧
    (InstantRange.withinOpenClosed c!"20240101000000000" c!"20240102000000000" c!"utc").isInRange
      ltz c!"20240101000000000" c!"utc" = .ok false ∧
    (InstantRange.upTo c!"20240102000000000" c!"utc").isInRange
      ltz c!"2024010200000000x" c!"utc" = .err .timeline := ⟨rfl, rfl, rfl⟩

end Hudi
