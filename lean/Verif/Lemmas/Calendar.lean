import Mathlib.Tactic.Common
import Verif.Lemmas.Order
import Verif.Spec.Calendar

/-! Lemmas: the day numbers of the parser are those of the calendar. -/

namespace Hudi

open Spec

theorem placeValue_eq (s : Str) : placeValue s = natOfDigits s := by
  induction s with
  | nil => rfl
  | cons c cs ih => rw [natOfDigits_cons, placeValue, ih]; rfl

theorem leapYear_iff (y : Int) : LeapYear y ↔ isLeap y = true := by
  unfold LeapYear isLeap
  simp only [Bool.or_eq_true, Bool.and_eq_true, beq_iff_eq, bne_iff_ne, ne_eq]
  omega

theorem month_cases {m : Nat} (h1 : 1 ≤ m) (h2 : m ≤ 12) :
    m = 1 ∨ m = 2 ∨ m = 3 ∨ m = 4 ∨ m = 5 ∨ m = 6 ∨ m = 7 ∨ m = 8 ∨ m = 9 ∨ m = 10 ∨ m = 11
    ∨ m = 12 := by omega

theorem monthLengths_get {y : Int} {m : Nat} (h1 : 1 ≤ m) (h2 : m ≤ 12) :
    (monthLengths y)[m - 1]? = some (daysInMonth y m) := by
  rcases month_cases h1 h2 with h | h | h | h | h | h | h | h | h | h | h | h <;> subst h <;>
    simp [monthLengths, daysInMonth, leapYear_iff]

theorem exists_iff (d : Date) :
    d.Exists ↔ 1 ≤ d.month ∧ d.month ≤ 12 ∧ 1 ≤ d.day ∧ d.day ≤ daysInMonth d.year d.month := by
  unfold Date.Exists
  constructor
  · rintro ⟨h1, h2, n, h3, h4⟩
    have h5 : d.month - 1 < 12 := by
      have := (List.getElem?_eq_some_iff.1 h3).1
      simpa [monthLengths] using this
    have h6 : d.month ≤ 12 := by omega
    rw [monthLengths_get h1 h6] at h3
    cases h3
    exact ⟨h1, h6, h2, h4⟩
  · rintro ⟨h1, h2, h3, h4⟩
    exact ⟨h1, h3, _, monthLengths_get h1 h2, h4⟩

theorem daysInMonth_pos {y : Int} {m : Nat} (h1 : 1 ≤ m) (h2 : m ≤ 12) : 28 ≤ daysInMonth y m := by
  rcases month_cases h1 h2 with h | h | h | h | h | h | h | h | h | h | h | h <;> subst h <;>
    simp [daysInMonth]
  split <;> omega

theorem cumDays_next {y : Int} {m : Nat} (h1 : 1 ≤ m) (h2 : m ≤ 11) :
    cumDays (m + 1) + (if 2 < m + 1 ∧ isLeap y = true then 1 else 0) =
      cumDays m + (if 2 < m ∧ isLeap y = true then 1 else 0) + daysInMonth y m := by
  have : m = 1 ∨ m = 2 ∨ m = 3 ∨ m = 4 ∨ m = 5 ∨ m = 6 ∨ m = 7 ∨ m = 8 ∨ m = 9 ∨ m = 10 ∨ m = 11 := by
    omega
  cases hl : isLeap y <;> rcases this with h | h | h | h | h | h | h | h | h | h | h <;> subst h <;>
    simp [cumDays, daysInMonth, hl]

/-- The day number of a date. -/
def dayNum (d : Date) : Int := daysFromCivil d.year d.month d.day

theorem next_exists {d : Date} (h : d.Exists) : d.next.Exists ∧ dayNum d.next = dayNum d + 1 := by
  obtain ⟨h1, h2, h3, h4⟩ := (exists_iff d).1 h
  obtain ⟨y, m, k⟩ := d
  simp only at h1 h2 h3 h4
  unfold Date.next
  simp only [monthLengths_get h1 h2, ne_eq, Option.some.injEq]
  by_cases e : daysInMonth y m = k
  · rw [if_neg (by simp [e])]
    by_cases e12 : m = 12
    · subst e12
      simp only [not_true_eq_false, if_false]
      refine ⟨(exists_iff _).2 ⟨by simp, by simp, by simp, by simp [daysInMonth]⟩, ?_⟩
      unfold dayNum daysFromCivil
      simp only [daysBeforeYear_step, ← e, daysInMonth, cumDays]
      cases isLeap y <;> simp <;> omega
    · rw [if_pos e12]
      have hp := daysInMonth_pos (y := y) (m := m + 1) (by omega) (by omega)
      refine ⟨(exists_iff _).2 ⟨by simp, by simp; omega, by simp, by simp; omega⟩, ?_⟩
      unfold dayNum daysFromCivil
      have c := cumDays_next (y := y) h1 (by omega : m ≤ 11)
      simp only [← e]
      generalize daysInMonth y m = q at *
      generalize cumDays (m + 1) = a at *
      generalize cumDays m = b at *
      have cast : ∀ q : Prop, ∀ _ : Decidable q,
          (if q then (1 : Int) else 0) = ((if q then 1 else 0 : Nat) : Int) := by
        intro q _; split <;> rfl
      rw [cast, cast]
      omega
  · rw [if_pos e]
    refine ⟨(exists_iff _).2 ⟨h1, h2, by simp, ?_⟩, ?_⟩
    · simp only; omega
    · unfold dayNum daysFromCivil
      simp only
      omega

theorem dayNum_inj {d e : Date} (hd : d.Exists) (he : e.Exists) (h : dayNum d = dayNum e) : d = e := by
  obtain ⟨h1, h2, h3, h4⟩ := (exists_iff d).1 hd
  obtain ⟨g1, g2, g3, g4⟩ := (exists_iff e).1 he
  obtain ⟨y, m, k⟩ := d
  obtain ⟨y', m', k'⟩ := e
  simp only [dayNum] at *
  by_contra hne
  have : (y < y' ∨ y = y' ∧ (m < m' ∨ m = m' ∧ k < k')) ∨
      (y' < y ∨ y' = y ∧ (m' < m ∨ m' = m ∧ k' < k)) := by
    by_contra hc
    apply hne
    have e1 : y = y' ∧ m = m' ∧ k = k' := by omega
    obtain ⟨rfl, rfl, rfl⟩ := e1
    rfl
  rcases this with c | c
  · have := daysFromCivil_lt h1 g1 h2 g2 h4 g3 c
    omega
  · have := daysFromCivil_lt g1 h1 g2 h2 g4 h3 c
    omega

theorem prev_exists {d : Date} (h : d.Exists) : ∃ p : Date, p.Exists ∧ p.next = d := by
  obtain ⟨h1, h2, h3, h4⟩ := (exists_iff d).1 h
  obtain ⟨y, m, k⟩ := d
  simp only at h1 h2 h3 h4
  by_cases hk : k = 1
  · subst hk
    by_cases hm : m = 1
    · subst hm
      refine ⟨⟨y - 1, 12, 31⟩, (exists_iff _).2 ⟨by simp, by simp, by simp, by simp [daysInMonth]⟩, ?_⟩
      simp [Date.next, monthLengths]
    · have hg := monthLengths_get (y := y) (m := m - 1) (by omega) (by omega)
      have hp := daysInMonth_pos (y := y) (m := m - 1) (by omega) (by omega)
      refine ⟨⟨y, m - 1, daysInMonth y (m - 1)⟩, (exists_iff _).2
        ⟨by simp; omega, by simp; omega, by simp; omega, by simp⟩, ?_⟩
      unfold Date.next
      simp only [hg, ne_eq, not_true_eq_false, if_false]
      rw [if_pos (by omega)]
      congr 1
      omega
  · refine ⟨⟨y, m, k - 1⟩, (exists_iff _).2 ⟨h1, h2, by simp; omega, by simp; omega⟩, ?_⟩
    unfold Date.next
    simp only [monthLengths_get h1 h2, ne_eq, Option.some.injEq]
    rw [if_pos (by omega)]
    congr 1
    omega

theorem daysSince_exists {n : Int} {d : Date} (h : DaysSince1970 n d) : d.Exists ∧ dayNum d = n := by
  induction h with
  | epoch => exact ⟨(exists_iff _).2 (by decide), by decide⟩
  | later _ ih =>
    obtain ⟨h1, h2⟩ := next_exists ih.1
    exact ⟨h1, by rw [h2, ih.2]⟩
  | earlier he _ ih =>
    refine ⟨he, ?_⟩
    have := (next_exists he).2
    omega

theorem daysSince_dayNum {d : Date} (h : d.Exists) : DaysSince1970 (dayNum d) d := by
  have up : ∀ (n : Nat) (d : Date), d.Exists → dayNum d = n → DaysSince1970 n d := by
    intro n
    induction n with
    | zero =>
      intro d hd hn
      have : d = ⟨1970, 1, 1⟩ := dayNum_inj hd ((exists_iff _).2 (by decide)) (by rw [hn]; decide)
      subst this
      exact .epoch
    | succ n ih =>
      intro d hd hn
      obtain ⟨p, hp, rfl⟩ := prev_exists hd
      have := (next_exists hp).2
      have h1 := ih p hp (by omega)
      exact_mod_cast h1.later
  have down : ∀ (n : Nat) (d : Date), d.Exists → dayNum d = -(n : Int) → DaysSince1970 (-(n : Int)) d := by
    intro n
    induction n with
    | zero =>
      intro d hd hn
      exact up 0 d hd (by simpa using hn)
    | succ n ih =>
      intro d hd hn
      have h1 := next_exists hd
      refine .earlier hd ?_
      have h2 := ih d.next h1.1 (by omega)
      have e : -((n + 1 : Nat) : Int) + 1 = -(n : Int) := by omega
      rw [e]
      exact h2
  rcases Int.lt_or_le (dayNum d) 0 with hn | hn
  · have := down (-(dayNum d)).toNat d h (by omega)
    have e : -((-(dayNum d)).toNat : Int) = dayNum d := by omega
    rwa [e] at this
  · have := up (dayNum d).toNat d h (by omega)
    have e : ((dayNum d).toNat : Int) = dayNum d := by omega
    rwa [e] at this

end Hudi
