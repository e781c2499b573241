import Verif.Lemmas.Instant
import Verif.Model.Timeline

/-! Lemmas about loading a timeline. -/

namespace Hudi

theorem splitAtByte_zero (s : Str) : splitAtByte 0 s = some ([], s) := by cases s <;> rfl

theorem parseNaive_head {ts : Str} {d : DateTime} (h : parseNaive ts = .ok d) :
    ∃ c cs, ts = c :: cs ∧ tsChar c = true := by
  unfold parseNaive at h
  split at h
  · cases h
  rename_i head tail hs
  split at h
  · cases h
  rename_i dt hc
  have hh := chronoParse_chars hc
  have hs' := splitAtByte_eq_some.1 hs
  cases head with
  | nil => simp [byteLen] at hs'
  | cons x xs =>
    simp only [List.all_cons, Bool.and_eq_true] at hh
    exact ⟨x, xs ++ tail, by rw [hs'.1]; rfl, hh.1⟩

theorem pathPush_hoodie {c : Char} {cs : Str} (h : c ≠ '/') :
    pathPush hudiMetadataDir (c :: cs) = c!".hoodie/" ++ c :: cs := by
  unfold pathPush
  split
  · rename_i heq; simp only [List.cons.injEq] at heq; exact absurd heq.1 h
  · rfl

theorem tsChar_ne_slash {c : Char} (h : tsChar c = true) : c ≠ '/' := by
  rintro rfl; revert h; decide

theorem createInstants_ok {ltz : LocalTz} {s : Selector} {ns : List Str} {is : List Instant}
    (h : createInstants ltz s ns = .ok is) :
    is = ns.filterMap (fun n => (s.tryCreateInstant ltz n).toOption) := by
  induction ns generalizing is with
  | nil => cases h; rfl
  | cons n ns ih =>
    unfold createInstants at h
    cases hc : s.tryCreateInstant ltz n with
    | ok i =>
      rw [hc] at h
      obtain ⟨is', h1, h2⟩ := Res.bind_eq_ok.1 h
      cases h2
      simp [hc, Res.toOption, ih h1]
    | err e => rw [hc] at h; simp [hc, Res.toOption, ih h]
    | panic => rw [hc] at h; cases h

theorem createInstants_not_err {ltz : LocalTz} {s : Selector} {ns : List Str} (e : ErrKind) :
    createInstants ltz s ns ≠ .err e := by
  induction ns with
  | nil => simp [createInstants]
  | cons n ns ih =>
    unfold createInstants
    cases hc : s.tryCreateInstant ltz n with
    | ok i => cases hr : createInstants ltz s ns <;> simp_all
    | err e => simpa using ih
    | panic => simp

theorem createInstants_panic {ltz : LocalTz} {s : Selector} {ns : List Str} :
    createInstants ltz s ns = .panic ↔ ∃ n ∈ ns, s.tryCreateInstant ltz n = .panic := by
  induction ns with
  | nil => simp [createInstants]
  | cons n ns ih =>
    unfold createInstants
    cases hc : s.tryCreateInstant ltz n with
    | ok i =>
      cases hr : createInstants ltz s ns with
      | ok _ => rw [hr] at ih; simp [hc] at ih ⊢; exact ih
      | err e => exact absurd hr (createInstants_not_err e)
      | panic => rw [hr] at ih; simp [hc] at ih ⊢; exact ih
    | err e => simp [hc, ih]
    | panic => simp [hc]

theorem loadInstants_ok {E : Env} {s : Selector} {t : Tree} {desc : Bool} {is : List Instant}
    (h : loadInstants E s t desc = .ok is) :
    ∃ js, createInstants E.ltz s ((listFiles t hudiMetadataDir).map (fun m => m.name)) = .ok js ∧
      is = if desc then (E.sort js).reverse else E.sort js := by
  unfold loadInstants at h
  obtain ⟨js, h1, h2⟩ := Res.bind_eq_ok.1 h
  cases h2
  exact ⟨js, h1, rfl⟩

theorem le_iff_of_completed {a b : Instant} (ha : a.state = .completed) (hb : b.state = .completed) :
    Instant.le a b = true ↔ a.epochMillis ≤ b.epochMillis := by
  unfold Instant.le Instant.cmp
  rw [ha, hb]
  simp only [State.rank]
  have : compare (2 : Nat) 2 = .eq := by decide
  rw [this]
  rw [Ordering.then_eq]
  exact Int.isLE_compare

end Hudi

namespace Hudi

theorem convertToTimezone_not_panic (ltz : LocalTz) (d : DateTime) (tz : Str) :
    convertToTimezone ltz d tz ≠ .panic := by
  unfold convertToTimezone Tz.fromStr
  split
  · simp
  split
  · simp only [Res.ok_bind]
    cases ltz d <;> simp
  · simp

theorem parseDatetime_panic {ltz : LocalTz} {ts tz : Str} :
    parseDatetime ltz ts tz = .panic ↔ splitAtByte 14 ts = none := by
  unfold parseDatetime parseNaive
  cases h : splitAtByte 14 ts with
  | none => simp
  | some p =>
    obtain ⟨a, b⟩ := p
    simp only [reduceCtorEq, iff_false]
    split
    · simp
    · split
      · split
        · simp
        · simpa using convertToTimezone_not_panic _ _ _
      · simpa using convertToTimezone_not_panic _ _ _

theorem splitAtByte_none {n : Nat} {s : Str} :
    splitAtByte n s = none ↔ ¬ ∃ a b, s = a ++ b ∧ byteLen a = n := by
  constructor
  · rintro h ⟨a, b, h1⟩
    rw [splitAtByte_eq_some.2 h1] at h
    cases h
  · intro h
    cases hs : splitAtByte n s with
    | none => rfl
    | some p => exact absurd ⟨p.1, p.2, splitAtByte_eq_some.1 hs⟩ h

theorem Action.fromStr_not_panic (s : Str) : Action.fromStr s ≠ .panic := by
  unfold Action.fromStr
  split
  · simp
  split
  · simp
  split <;> simp

theorem State.fromStr_not_panic (s : Str) : State.fromStr s ≠ .panic := by
  unfold State.fromStr
  split
  · simp
  split
  · simp
  split <;> simp

theorem parseActionAndState_not_panic (s : Str) : parseActionAndState s ≠ .panic := by
  unfold parseActionAndState
  split
  · rename_i a b _
    cases h1 : Action.fromStr a with
    | panic => exact absurd h1 (Action.fromStr_not_panic a)
    | err e => simp
    | ok x =>
      cases h2 : State.fromStr b with
      | panic => exact absurd h2 (State.fromStr_not_panic b)
      | err e => simp
      | ok y => simp
  · split
    · simp
    · cases h1 : Action.fromStr s with
      | panic => exact absurd h1 (Action.fromStr_not_panic s)
      | err e => simp
      | ok x => simp

theorem Selector.tryCreateInstant_panic {ltz : LocalTz} {s : Selector} {name : Str} :
    s.tryCreateInstant ltz name = .panic ↔
      ∃ ts suf a st, name = ts ++ '.' :: suf ∧ '.' ∉ ts ∧ parseActionAndState suf = .ok (a, st) ∧
        s.includesAction a = true ∧ s.includesState st = true ∧ splitAtByte 14 ts = none := by
  unfold Selector.tryCreateInstant
  constructor
  · intro h
    cases hs : splitOnce '.' name with
    | none => rw [hs] at h; cases h
    | some p =>
      obtain ⟨ts, suf⟩ := p
      obtain ⟨hn, hd⟩ := splitOnce_eq_some.1 hs
      rw [hs] at h
      simp only [Res.ofOption_some, Res.ok_bind] at h
      cases h2 : parseActionAndState suf with
      | panic => exact absurd h2 (parseActionAndState_not_panic _)
      | err e => rw [h2] at h; cases h
      | ok q =>
        obtain ⟨a, st⟩ := q
        rw [h2] at h
        simp only [Res.ok_bind] at h
        split at h
        · cases h
        rename_i ha
        split at h
        · cases h
        rename_i hst
        refine ⟨ts, suf, a, st, hn, hd, h2, by simpa using ha, by simpa using hst, ?_⟩
        cases h3 : parseDatetime ltz ts s.timezone with
        | panic => exact parseDatetime_panic.1 h3
        | err e => rw [h3] at h; cases h
        | ok dt =>
          rw [h3] at h
          simp only [Res.ok_bind] at h
          split at h
          · cases h
          split at h <;> cases h
  · rintro ⟨ts, suf, a, st, rfl, hd, h2, ha, hst, h3⟩
    simp [splitOnce_append hd, h2, ha, hst, (parseDatetime_panic (ltz := ltz) (tz := s.timezone)).2 h3]

theorem sort_ascending {E : Env} {js : List Instant} (hj : ∀ i ∈ js, i.state = .completed) :
    (E.sort js).Pairwise (fun a b => a.epochMillis ≤ b.epochMillis) := by
  have h1 := E.sort_sorted js
  have h2 : ∀ i ∈ E.sort js, i.state = .completed := fun i hi => hj i ((E.sort_perm js).mem_iff.1 hi)
  exact List.Pairwise.imp_of_mem (fun ha hb h => (le_iff_of_completed (h2 _ ha) (h2 _ hb)).1 h) h1

end Hudi
