import Verif.Lemmas.Time
import Verif.Model.Selector
import Verif.Spec.Timeline

/-! Lemmas about instants and selectors. -/

namespace Hudi

theorem Action.fromStr_ok {s : Str} {a : Action} : Action.fromStr s = .ok a ↔ s = a.str := by
  constructor
  · intro h
    unfold Action.fromStr at h
    split at h
    · cases h; assumption
    split at h
    · cases h; assumption
    split at h
    · cases h; assumption
    · cases h
  · rintro rfl; cases a <;> decide

theorem State.fromStr_ok {s : Str} {st : State} : State.fromStr s = .ok st ↔ s = st.str := by
  constructor
  · intro h
    unfold State.fromStr at h
    split at h
    · cases h; assumption
    split at h
    · cases h; assumption
    split at h
    · cases h; assumption
    · cases h
  · rintro rfl; cases st <;> decide

theorem Action.str_no_dot (a : Action) : '.' ∉ a.str := by cases a <;> decide

theorem Action.str_inj {a b : Action} (h : a.str = b.str) : a = b := by
  cases a <;> cases b <;> first | rfl | (exfalso; revert h; decide)

theorem parseActionAndState_ok {suf : Str} {a : Action} {st : State} :
    parseActionAndState suf = .ok (a, st) ↔
      suf = Spec.suffix a st ∨ (st = .completed ∧ suf = a.str ++ c!".") ∨
        (a = .commit ∧ st = .inflight ∧ suf = c!"commit.inflight") := by
  unfold parseActionAndState
  cases h : splitOnce '.' suf with
  | some p =>
    obtain ⟨x, y⟩ := p
    have hs := splitOnce_eq_some.1 h
    simp only [Res.bind_eq_ok, Res.pure_eq, Res.ok.injEq, Prod.mk.injEq]
    constructor
    · rintro ⟨a', h1, st', h2, rfl, rfl⟩
      rw [Action.fromStr_ok] at h1
      rw [State.fromStr_ok] at h2
      rw [hs.1, h1, h2]
      cases a' <;> cases st' <;> decide
    · intro h'
      have hsuf : suf = a.str ++ '.' :: st.str := by
        rcases h' with h' | ⟨h1, h2⟩ | ⟨h1, h2, h3⟩
        · have hd : '.' ∈ suf := by rw [hs.1]; simp
          rw [h']
          rw [h'] at hd
          revert hd
          cases a <;> cases st <;> decide
        · rw [h2, h1]; rfl
        · rw [h3, h1, h2]; rfl
      have := splitOnce_append (b := st.str) (Action.str_no_dot a)
      rw [← hsuf, h] at this
      simp only [Option.some.injEq, Prod.mk.injEq] at this
      exact ⟨a, Action.fromStr_ok.2 this.1, st, State.fromStr_ok.2 this.2, rfl, rfl⟩
  | none =>
    have hs := splitOnce_eq_none.1 h
    simp only
    constructor
    · intro h'
      split at h'
      · rename_i hi; cases h'; left; exact hi
      · obtain ⟨a', h1, h2⟩ := Res.bind_eq_ok.1 h'
        cases h2
        rw [Action.fromStr_ok] at h1
        left
        rw [h1]; cases a <;> rfl
    · intro h'
      rcases h' with h' | ⟨_, h'⟩ | ⟨_, _, h'⟩
      · rw [h'] at hs ⊢
        revert hs
        cases a <;> cases st <;> decide
      · exfalso; apply hs; rw [h']; simp
      · exfalso; apply hs; rw [h']; decide

theorem Spec.suffix_completed (a : Action) : Spec.suffix a .completed = a.str := by cases a <;> rfl

/-- Exact characterisation of the names accepted by `try_create_instant`. -/
theorem Selector.tryCreateInstant_ok {ltz : LocalTz} {s : Selector} {name : Str} {i : Instant} :
    s.tryCreateInstant ltz name = .ok i ↔
      ∃ ts suf a st dt, name = ts ++ '.' :: suf ∧ '.' ∉ ts ∧ parseActionAndState suf = .ok (a, st) ∧
        s.includesAction a = true ∧ s.includesState st = true ∧
        parseDatetime ltz ts s.timezone = .ok dt ∧
        s.start.any (fun b => dt.lt b) = false ∧ s.stop.any (fun b => b.le dt) = false ∧
        i = { timestamp := ts, action := a, state := st, epochMillis := dt.epochMillis } := by
  unfold Selector.tryCreateInstant
  constructor
  · intro h
    obtain ⟨⟨ts, suf⟩, h1, h⟩ := Res.bind_eq_ok.1 h
    have h1' : splitOnce '.' name = some (ts, suf) := by
      cases hs : splitOnce '.' name with
      | none => rw [hs] at h1; cases h1
      | some p => rw [hs] at h1; cases h1; rfl
    obtain ⟨hn, hd⟩ := splitOnce_eq_some.1 h1'
    obtain ⟨⟨a, st⟩, h2, h⟩ := Res.bind_eq_ok.1 h
    simp only at h
    split at h
    · cases h
    rename_i ha
    split at h
    · cases h
    rename_i hst
    obtain ⟨dt, h3, h⟩ := Res.bind_eq_ok.1 h
    split at h
    · cases h
    rename_i hs
    split at h
    · cases h
    rename_i he
    cases h
    exact ⟨ts, suf, a, st, dt, hn, hd, h2, by simpa using ha, by simpa using hst, h3,
      by simpa using hs, by simpa using he, rfl⟩
  · rintro ⟨ts, suf, a, st, dt, rfl, hd, h2, ha, hst, h3, hs, he, rfl⟩
    simp [splitOnce_append hd, h2, ha, hst, h3, hs, he]

/-- The selector used for loading completed instants of some actions. -/
def loadSelector (tz : Str) (acts : List Action) : Selector :=
  { timezone := tz, start := none, stop := none, states := [.completed], actions := acts }

theorem loadSelector_tryCreate {ltz : LocalTz} {tz : Str} {acts : List Action} (hne : acts ≠ [])
    {name : Str} {i : Instant} :
    (loadSelector tz acts).tryCreateInstant ltz name = .ok i ↔
      Spec.CompletedFile ltz tz acts name i := by
  rw [Selector.tryCreateInstant_ok]
  have hemp : acts.isEmpty = false := by cases acts <;> simp_all
  constructor
  · rintro ⟨ts, suf, a, st, dt, rfl, hd, h2, ha, hst, h3, _, _, rfl⟩
    have hst' : st = .completed := by
      simp [loadSelector, Selector.includesState] at hst
      exact hst
    have ha' : a ∈ acts := by
      simpa [loadSelector, Selector.includesAction, hemp] using ha
    subst hst'
    refine ⟨ts, a, dt, ha', hd, ?_, h3, rfl⟩
    rcases parseActionAndState_ok.1 h2 with h | ⟨_, h⟩ | ⟨_, h, _⟩
    · left; rw [h]; simp
    · right; rw [h, Spec.suffix_completed]; simp
    · cases h
  · rintro ⟨ts, a, dt, ha, hd, hn, h3, rfl⟩
    have hi : (loadSelector tz acts).includesAction a = true := by
      simp [loadSelector, Selector.includesAction, hemp, ha]
    rcases hn with rfl | rfl
    · exact ⟨ts, Spec.suffix a .completed, a, .completed, dt, by simp, hd,
        parseActionAndState_ok.2 (.inl rfl), hi, by simp [loadSelector, Selector.includesState], h3,
        by simp [loadSelector], by simp [loadSelector], rfl⟩
    · exact ⟨ts, Spec.suffix a .completed ++ c!".", a, .completed, dt, by simp, hd,
        parseActionAndState_ok.2 (.inr (.inl ⟨rfl, by rw [Spec.suffix_completed]⟩)), hi,
        by simp [loadSelector, Selector.includesState], h3, by simp [loadSelector],
        by simp [loadSelector], rfl⟩

theorem parseTimezone_ok {s r : Str} (h : parseTimezone s = .ok r) : r = c!"utc" ∨ r = c!"local" := by
  unfold parseTimezone at h
  split at h
  · cases h; simp
  split at h
  · cases h; simp
  · cases h

theorem timezoneOf_ok (o : Opts) : ∃ tz : Tz, timezoneOf o = .ok tz.str := by
  unfold timezoneOf Cfg.getOrDefault
  cases h : Cfg.timelineTimezone.get o with
  | error e => exact ⟨.utc, rfl⟩
  | ok v =>
    simp only [Res.ok_bind]
    unfold Cfg.get at h
    split at h
    · cases h
    · rename_i r _
      simp only [Cfg.parseRaw] at h
      cases hp : parseTimezone r with
      | error e => rw [hp] at h; cases h
      | ok z =>
        rw [hp] at h
        cases h
        rcases parseTimezone_ok hp with rfl | rfl
        · exact ⟨.utc, rfl⟩
        · exact ⟨.loc, rfl⟩

theorem completedActionsInRange_load (ltz : LocalTz) (acts : List Action) (o : Opts) :
    ∃ tz : Tz, timezoneOf o = .ok tz.str ∧
      completedActionsInRange ltz acts o none none = .ok (loadSelector tz.str acts) := by
  obtain ⟨tz, h⟩ := timezoneOf_ok o
  exact ⟨tz, h, by simp [completedActionsInRange, h, parseOpt, loadSelector]⟩

end Hudi
