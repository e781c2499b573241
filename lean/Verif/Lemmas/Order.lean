import Verif.Lemmas.Time

/-! Lemmas: textual order of digit strings, and monotonicity of the calendar. -/

namespace Hudi

theorem compare_char (a b : Char) : compare a b = compare a.toNat b.toNat := by
  show compareOfLessAndEq a b = compareOfLessAndEq a.toNat b.toNat
  have h1 : a < b ↔ a.toNat < b.toNat := by
    show a.val < b.val ↔ _
    rw [UInt32.lt_iff_toNat_lt]; rfl
  have h2 : a = b ↔ a.toNat = b.toNat := ⟨fun h => by rw [h], Char.toNat_inj.1⟩
  unfold compareOfLessAndEq
  simp only [h1, h2]

theorem compare_cons (a b : Char) (s t : Str) :
    compare (a :: s) (b :: t) = (compare a b).then (compare s t) :=
  List.compareLex_cons_cons

theorem compare_append {a b s t : Str} (h : a.length = b.length) :
    compare (a ++ s) (b ++ t) = (compare a b).then (compare s t) := by
  induction a generalizing b with
  | nil =>
    cases b with
    | nil => rfl
    | cons => simp at h
  | cons x xs ih =>
    cases b with
    | nil => simp at h
    | cons y ys =>
      simp only [List.length_cons, Nat.add_right_cancel_iff] at h
      simp only [List.cons_append, compare_cons, ih h]
      cases compare x y <;> rfl

theorem natOfDigits_foldl (s : Str) (n : Nat) :
    s.foldl (fun acc c => acc * 10 + digitVal c) n = n * 10 ^ s.length + natOfDigits s := by
  induction s generalizing n with
  | nil => simp [natOfDigits]
  | cons c cs ih =>
    unfold natOfDigits
    simp only [List.foldl_cons, List.length_cons]
    rw [ih, ih (0 * 10 + digitVal c), Nat.pow_succ]
    simp [Nat.add_mul, Nat.mul_assoc, Nat.mul_comm 10, Nat.add_assoc]

theorem natOfDigits_cons (c : Char) (cs : Str) :
    natOfDigits (c :: cs) = digitVal c * 10 ^ cs.length + natOfDigits cs := by
  show (c :: cs).foldl (fun acc c => acc * 10 + digitVal c) 0 = _
  rw [List.foldl_cons, natOfDigits_foldl]; simp

theorem natOfDigits_append (a b : Str) :
    natOfDigits (a ++ b) = natOfDigits a * 10 ^ b.length + natOfDigits b := by
  unfold natOfDigits
  rw [List.foldl_append, natOfDigits_foldl]
  rfl

theorem digitVal_lt {c : Char} (h : isDigit c = true) : digitVal c < 10 := by
  have := isDigit_iff.1 h
  unfold digitVal; omega

theorem natOfDigits_lt {s : Str} (h : s.all isDigit = true) : natOfDigits s < 10 ^ s.length := by
  induction s with
  | nil => simp [natOfDigits]
  | cons c cs ih =>
    simp only [List.all_cons, Bool.and_eq_true] at h
    rw [natOfDigits_cons, List.length_cons, Nat.pow_succ]
    have h1 := ih h.2
    have h2 := digitVal_lt h.1
    have : digitVal c * 10 ^ cs.length ≤ 9 * 10 ^ cs.length := Nat.mul_le_mul_right _ (by omega)
    omega

theorem cmp_nat_split {a b m x y : Nat} (hx : x < m) (hy : y < m) :
    compare (a * m + x) (b * m + y) = (compare a b).then (compare x y) := by
  rcases Nat.lt_trichotomy a b with h | h | h
  · rw [Nat.compare_eq_lt.2 h]
    have : (a + 1) * m ≤ b * m := Nat.mul_le_mul_right _ h
    rw [Nat.add_mul] at this
    exact Nat.compare_eq_lt.2 (by omega)
  · subst h
    rw [Nat.compare_eq_eq.2 (rfl : a = a)]
    show _ = compare x y
    rcases Nat.lt_trichotomy x y with h | h | h
    · rw [Nat.compare_eq_lt.2 h]; exact Nat.compare_eq_lt.2 (by omega)
    · rw [Nat.compare_eq_eq.2 h]; exact Nat.compare_eq_eq.2 (by omega)
    · rw [Nat.compare_eq_gt.2 h]; exact Nat.compare_eq_gt.2 (by omega)
  · rw [Nat.compare_eq_gt.2 h]
    have : (b + 1) * m ≤ a * m := Nat.mul_le_mul_right _ h
    rw [Nat.add_mul] at this
    exact Nat.compare_eq_gt.2 (by omega)

/-- Digit strings of the same length are ordered textually as they are ordered numerically. -/
theorem compare_digits {a b : Str} (hl : a.length = b.length) (ha : a.all isDigit = true)
    (hb : b.all isDigit = true) : compare a b = compare (natOfDigits a) (natOfDigits b) := by
  induction a generalizing b with
  | nil =>
    cases b with
    | nil => rfl
    | cons => simp at hl
  | cons x xs ih =>
    cases b with
    | nil => simp at hl
    | cons y ys =>
      simp only [List.length_cons, Nat.add_right_cancel_iff] at hl
      simp only [List.all_cons, Bool.and_eq_true] at ha hb
      have hx := isDigit_iff.1 ha.1
      have hy := isDigit_iff.1 hb.1
      rw [compare_cons, ih hl ha.2 hb.2, natOfDigits_cons, natOfDigits_cons, compare_char, hl,
        cmp_nat_split (by rw [← hl]; exact natOfDigits_lt ha.2) (natOfDigits_lt hb.2)]
      congr 1
      unfold digitVal
      rcases Nat.lt_trichotomy x.toNat y.toNat with h | h | h
      · rw [Nat.compare_eq_lt.2 h]; exact (Nat.compare_eq_lt.2 (by omega)).symm
      · rw [Nat.compare_eq_eq.2 h]; exact (Nat.compare_eq_eq.2 (by omega)).symm
      · rw [Nat.compare_eq_gt.2 h]; exact (Nat.compare_eq_gt.2 (by omega)).symm

theorem isWs_not_digit {c : Char} (h : isDigit c = true) : isWs c = false := by
  have := isDigit_iff.1 h
  unfold isWs
  simp only [Bool.or_eq_false_iff, Bool.and_eq_false_iff, decide_eq_false_iff_not, beq_eq_false_iff_ne]
  omega

theorem trimStart_digits {s : Str} (h : s.all isDigit = true) : trimStart s = s := by
  cases s with
  | nil => rfl
  | cons c cs =>
    simp only [List.all_cons, Bool.and_eq_true] at h
    simp [trimStart, isWs_not_digit h.1]

theorem scanNumber_digits {p r : Str} {n : Nat} (hp : p.all isDigit = true) (hl : p.length = n)
    (hn : 0 < n) : scanNumber n (p ++ r) = some (natOfDigits p, r) := by
  unfold scanNumber
  have h1 : (p ++ r).take n = p := by rw [← hl]; simp
  have h2 : p.takeWhile isDigit = p := by
    rw [List.all_eq_true] at hp
    clear hl h1
    induction p with
    | nil => rfl
    | cons c cs ih => simp [hp c (by simp), ih (fun x hx => hp x (by simp [hx]))]
  have h3 : p ≠ [] := by rintro rfl; simp at hl; omega
  simp [h1, h2, h3]

theorem parseTwo_digits {p r : Str} (hp : p.all isDigit = true) (hl : p.length = 2)
    (hr : r.all isDigit = true) : parseTwo (p ++ r) = some (natOfDigits p, r) := by
  unfold parseTwo
  rw [trimStart_digits (by simp [List.all_append, hp, hr]), scanNumber_digits hp hl (by omega)]

theorem parseYear_digits {p r : Str} (hp : p.all isDigit = true) (hl : p.length = 4)
    (hr : r.all isDigit = true) : parseYear (p ++ r) = some ((natOfDigits p : Int), r) := by
  unfold parseYear
  rw [trimStart_digits (by simp [List.all_append, hp, hr])]
  cases p with
  | nil => simp at hl
  | cons c cs =>
    have hc : isDigit c = true := by simp only [List.all_cons, Bool.and_eq_true] at hp; exact hp.1
    have h1 : c ≠ '-' := by rintro rfl; revert hc; decide
    have h2 : c ≠ '+' := by rintro rfl; revert hc; decide
    rw [List.cons_append]
    split
    · rename_i h; simp only [List.cons.injEq] at h; exact absurd h.1 h1
    · rename_i h; simp only [List.cons.injEq] at h; exact absurd h.1 h2
    · rw [← List.cons_append, scanNumber_digits hp hl (by omega)]; rfl

/-- The six fields of a 14-digit timestamp. -/
theorem chronoParse_digits {y m d h i s : Str} (hy : y.length = 4) (hm : m.length = 2)
    (hd : d.length = 2) (hh : h.length = 2) (hi : i.length = 2) (hs : s.length = 2)
    (ha : (y ++ (m ++ (d ++ (h ++ (i ++ s))))).all isDigit = true) :
    chronoParse (y ++ (m ++ (d ++ (h ++ (i ++ s))))) =
      civilToDateTime (natOfDigits y) (natOfDigits m) (natOfDigits d) (natOfDigits h)
        (natOfDigits i) (natOfDigits s) := by
  simp only [List.all_append, Bool.and_eq_true] at ha
  obtain ⟨a1, a2, a3, a4, a5, a6⟩ := ha
  unfold chronoParse
  rw [parseYear_digits a1 hy (by simp [List.all_append, *])]
  simp only
  rw [parseTwo_digits a2 hm (by simp [List.all_append, *])]
  simp only
  rw [parseTwo_digits a3 hd (by simp [List.all_append, *])]
  simp only
  rw [parseTwo_digits a4 hh (by simp [List.all_append, *])]
  simp only
  rw [parseTwo_digits a5 hi (by simp [*])]
  simp only
  have := parseTwo_digits (r := []) a6 hs (by simp)
  rw [List.append_nil] at this
  rw [this]
  simp

theorem cumDays_le {m d : Nat} {y : Int} (h1 : 1 ≤ m) (h2 : m ≤ 12) (hd : d ≤ daysInMonth y m) :
    cumDays m + (if 2 < m ∧ isLeap y = true then 1 else 0) + d ≤ 365 + (if isLeap y then 1 else 0) := by
  have : m = 1 ∨ m = 2 ∨ m = 3 ∨ m = 4 ∨ m = 5 ∨ m = 6 ∨ m = 7 ∨ m = 8 ∨ m = 9 ∨ m = 10 ∨ m = 11
    ∨ m = 12 := by omega
  cases hl : isLeap y <;> rcases this with h | h | h | h | h | h | h | h | h | h | h | h <;>
    subst h <;> simp [cumDays, daysInMonth, hl] at hd ⊢ <;> omega

theorem cumDays_mono {m m' d d' : Nat} {y : Int} (h1 : 1 ≤ m) (h2 : m' ≤ 12) (hlt : m < m')
    (hd : d ≤ daysInMonth y m) (hd' : 1 ≤ d') :
    cumDays m + (if 2 < m ∧ isLeap y = true then 1 else 0) + d <
      cumDays m' + (if 2 < m' ∧ isLeap y = true then 1 else 0) + d' := by
  have e : m = 1 ∨ m = 2 ∨ m = 3 ∨ m = 4 ∨ m = 5 ∨ m = 6 ∨ m = 7 ∨ m = 8 ∨ m = 9 ∨ m = 10 ∨ m = 11
    := by omega
  have e' : m' = 2 ∨ m' = 3 ∨ m' = 4 ∨ m' = 5 ∨ m' = 6 ∨ m' = 7 ∨ m' = 8 ∨ m' = 9 ∨ m' = 10 ∨ m' = 11
    ∨ m' = 12 := by omega
  have key : cumDays m + (if 2 < m ∧ isLeap y = true then 1 else 0) + daysInMonth y m ≤
      cumDays m' + (if 2 < m' ∧ isLeap y = true then 1 else 0) := by
    clear hd hd'
    cases hl : isLeap y <;> rcases e with h | h | h | h | h | h | h | h | h | h | h <;> subst h <;>
      rcases e' with h | h | h | h | h | h | h | h | h | h | h <;> subst h <;>
      first | omega | simp [cumDays, daysInMonth, hl]
  omega

theorem daysBeforeYear_step (y : Int) :
    daysBeforeYear (y + 1) = daysBeforeYear y + 365 + (if isLeap y then 1 else 0) := by
  unfold daysBeforeYear isLeap
  split <;> rename_i h <;>
    simp only [Bool.or_eq_true, Bool.and_eq_true, beq_iff_eq, bne_iff_ne, ne_eq] at h <;>
    omega

theorem daysBeforeYear_mono {y y' : Int} (h : y ≤ y') : daysBeforeYear y ≤ daysBeforeYear y' := by
  unfold daysBeforeYear; omega

/-- Dates are numbered in the order of (year, month, day). -/
theorem daysFromCivil_lt {y y' : Int} {m m' d d' : Nat} (h1 : 1 ≤ m) (h1' : 1 ≤ m') (h2 : m ≤ 12)
    (h2' : m' ≤ 12) (hd : d ≤ daysInMonth y m) (hd' : 1 ≤ d')
    (h : y < y' ∨ y = y' ∧ (m < m' ∨ m = m' ∧ d < d')) :
    daysFromCivil y m d < daysFromCivil y' m' d' := by
  unfold daysFromCivil
  rcases h with h | ⟨rfl, h | ⟨rfl, h⟩⟩
  · have a := cumDays_le h1 h2 hd
    have b := daysBeforeYear_step y
    have c := daysBeforeYear_mono (y := y + 1) (y' := y') (by omega)
    have e : (0 : Int) ≤ (if 2 < m' ∧ isLeap y' = true then 1 else 0) := by split <;> omega
    split <;> split at a <;> split at a <;> split at b <;> simp_all <;> omega
  · have a := cumDays_mono h1 h2' h hd hd'
    split <;> split <;> split at a <;> (try split at a) <;> simp_all <;> omega
  · omega

end Hudi
