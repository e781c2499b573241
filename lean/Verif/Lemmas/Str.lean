import Verif.Base.Str

/-! Lemmas about strings. -/

namespace Hudi

theorem splitOnce_eq_some {c : Char} {s a b : Str} :
    splitOnce c s = some (a, b) ↔ s = a ++ c :: b ∧ c ∉ a := by
  induction s generalizing a b with
  | nil => simp [splitOnce]
  | cons x xs ih =>
    unfold splitOnce
    by_cases h : x = c
    · subst h
      simp only [if_true, Option.some.injEq, Prod.mk.injEq]
      constructor
      · rintro ⟨rfl, rfl⟩; simp
      · rintro ⟨h1, h2⟩
        cases a with
        | nil => simp_all
        | cons y ys => simp_all
    · simp only [h, if_false]
      cases a with
      | nil =>
        cases hs : splitOnce c xs with
        | none => simp; intro h'; exact absurd h' h
        | some p => simp; intro h'; exact absurd h' h
      | cons y ys =>
        cases hs : splitOnce c xs with
        | none =>
          have : ¬ (xs = ys ++ c :: b ∧ c ∉ ys) := fun h' => by
            rw [ih.2 h'] at hs; cases hs
          simp only [reduceCtorEq, List.cons_append, List.cons.injEq, List.mem_cons, not_or,
            false_iff, not_and, and_imp]
          rintro rfl h2 h3
          intro h4
          exact this ⟨h2, h4⟩
        | some p =>
          obtain ⟨a', b'⟩ := p
          have := ih.1 hs
          simp only [Option.some.injEq, Prod.mk.injEq, List.cons.injEq, List.cons_append,
            List.mem_cons, not_or]
          constructor
          · rintro ⟨⟨rfl, rfl⟩, rfl⟩
            exact ⟨⟨rfl, this.1⟩, fun h' => h h'.symm, this.2⟩
          · rintro ⟨⟨rfl, h2⟩, _, h4⟩
            have := ih.2 ⟨h2, h4⟩
            rw [hs] at this
            simp only [Option.some.injEq, Prod.mk.injEq] at this
            simp [this]

theorem splitOnce_eq_none {c : Char} {s : Str} : splitOnce c s = none ↔ c ∉ s := by
  induction s with
  | nil => simp [splitOnce]
  | cons x xs ih =>
    unfold splitOnce
    by_cases h : x = c
    · subst h; simp
    · have h' : c ≠ x := fun e => h e.symm
      simp only [h, if_false, List.mem_cons, h', false_or]
      rw [← ih]
      cases splitOnce c xs <;> simp

theorem splitOnce_append {c : Char} {a b : Str} (h : c ∉ a) :
    splitOnce c (a ++ c :: b) = some (a, b) := splitOnce_eq_some.2 ⟨rfl, h⟩

theorem rsplitOnce_eq_none {c : Char} {s : Str} : rsplitOnce c s = none ↔ c ∉ s := by
  induction s with
  | nil => simp [rsplitOnce]
  | cons x xs ih =>
    unfold rsplitOnce
    cases h : rsplitOnce c xs with
    | none =>
      have := ih.1 h
      by_cases hx : x = c
      · simp [hx]
      · have : c ≠ x := fun e => hx e.symm
        simp_all
    | some p =>
      simp only [reduceCtorEq, List.mem_cons, not_or, false_iff, not_and]
      intro _ h'
      rw [ih.2 h'] at h
      cases h

theorem rsplitOnce_eq_some {c : Char} {s a b : Str} :
    rsplitOnce c s = some (a, b) ↔ s = a ++ c :: b ∧ c ∉ b := by
  induction s generalizing a b with
  | nil => simp [rsplitOnce]
  | cons x xs ih =>
    unfold rsplitOnce
    cases h : rsplitOnce c xs with
    | some p =>
      obtain ⟨a', b'⟩ := p
      have h1 := ih.1 h
      simp only [Option.some.injEq, Prod.mk.injEq]
      constructor
      · rintro ⟨rfl, rfl⟩
        exact ⟨by simp [h1.1], h1.2⟩
      · rintro ⟨h2, h3⟩
        cases a with
        | nil =>
          simp only [List.nil_append, List.cons.injEq] at h2
          have : c ∈ b := by rw [← h2.2, h1.1]; simp
          exact absurd this h3
        | cons y ys =>
          simp only [List.cons_append, List.cons.injEq] at h2
          have := ih.2 ⟨h2.2, h3⟩
          rw [h] at this
          simp only [Option.some.injEq, Prod.mk.injEq] at this
          simp [this, h2.1]
    | none =>
      have h1 := rsplitOnce_eq_none.1 h
      by_cases hx : x = c
      · subst hx
        simp only [if_true, Option.some.injEq, Prod.mk.injEq]
        constructor
        · rintro ⟨rfl, rfl⟩; exact ⟨rfl, h1⟩
        · rintro ⟨h2, h3⟩
          cases a with
          | nil => simp_all
          | cons y ys =>
            simp only [List.cons_append, List.cons.injEq] at h2
            exact absurd (by rw [h2.2]; simp) h1
      · simp only [hx, if_false, reduceCtorEq, false_iff, not_and]
        intro h2
        cases a with
        | nil => simp_all
        | cons y ys =>
          simp only [List.cons_append, List.cons.injEq] at h2
          exact absurd (by rw [h2.2]; simp) h1

theorem rsplitOnce_append {c : Char} {a b : Str} (h : c ∉ b) :
    rsplitOnce c (a ++ c :: b) = some (a, b) := rsplitOnce_eq_some.2 ⟨rfl, h⟩

theorem splitAll_ne_nil (c : Char) (s : Str) : splitAll c s ≠ [] := by
  cases s with
  | nil => simp [splitAll]
  | cons x xs =>
    unfold splitAll
    split
    · simp
    · cases splitAll c xs <;> simp

theorem join_splitAll (c : Char) (s : Str) : joinWith c (splitAll c s) = s := by
  induction s with
  | nil => rfl
  | cons x xs ih =>
    unfold splitAll
    split
    · rename_i h
      cases hs : splitAll c xs with
      | nil => exact absurd hs (splitAll_ne_nil c xs)
      | cons p ps => rw [hs] at ih; simp [joinWith, ih, h]
    · cases hs : splitAll c xs with
      | nil => exact absurd hs (splitAll_ne_nil c xs)
      | cons p ps =>
        rw [hs] at ih
        cases ps with
        | nil => simp_all [joinWith]
        | cons q qs => simp_all [joinWith]

theorem splitAll_not_mem (c : Char) (s : Str) : ∀ p ∈ splitAll c s, c ∉ p := by
  induction s with
  | nil => simp [splitAll]
  | cons x xs ih =>
    unfold splitAll
    split
    · intro p hp
      rcases List.mem_cons.1 hp with rfl | h
      · simp
      · exact ih p h
    · rename_i hx
      cases hs : splitAll c xs with
      | nil => exact absurd hs (splitAll_ne_nil c xs)
      | cons p ps =>
        rw [hs] at ih
        intro q hq
        rcases List.mem_cons.1 hq with rfl | h
        · have := ih p (by simp)
          simp only [List.mem_cons, not_or]
          exact ⟨fun e => hx e.symm, this⟩
        · exact ih q (by simp [h])

theorem splitAll_single {c : Char} {s : Str} (h : c ∉ s) : splitAll c s = [s] := by
  induction s with
  | nil => rfl
  | cons x xs ih =>
    simp only [List.mem_cons, not_or] at h
    unfold splitAll
    have : x ≠ c := fun e => h.1 e.symm
    simp [this, ih h.2]

theorem splitAll_append {c : Char} {a b : Str} (h : c ∉ a) :
    splitAll c (a ++ c :: b) = a :: splitAll c b := by
  induction a with
  | nil => simp [splitAll]
  | cons x xs ih =>
    simp only [List.mem_cons, not_or] at h
    have : x ≠ c := fun e => h.1 e.symm
    simp [splitAll, this, ih h.2]

theorem splitAll_joinWith {c : Char} {ps : List Str} (hne : ps ≠ []) (h : ∀ p ∈ ps, c ∉ p) :
    splitAll c (joinWith c ps) = ps := by
  induction ps with
  | nil => exact absurd rfl hne
  | cons p ps ih =>
    cases ps with
    | nil => simp [joinWith, splitAll_single (h p (by simp))]
    | cons q qs =>
      simp only [joinWith]
      rw [splitAll_append (h p (by simp)), ih (by simp) (fun r hr => h r (by simp [hr]))]

theorem byteLen_append (a b : Str) : byteLen (a ++ b) = byteLen a + byteLen b := by
  induction a with
  | nil => simp [byteLen]
  | cons x xs ih => simp only [List.cons_append, byteLen, ih]; omega

theorem splitAtByte_eq_some {n : Nat} {s a b : Str} :
    splitAtByte n s = some (a, b) ↔ s = a ++ b ∧ byteLen a = n := by
  induction s generalizing n a b with
  | nil =>
    cases n with
    | zero => 
      simp only [splitAtByte, Option.some.injEq, Prod.mk.injEq]
      constructor
      · rintro ⟨rfl, rfl⟩; simp [byteLen]
      · rintro ⟨h1, h2⟩
        have := List.append_eq_nil_iff.1 h1.symm
        exact ⟨this.1.symm, this.2.symm⟩
    | succ n =>
      simp only [splitAtByte, reduceCtorEq, false_iff, not_and]
      intro h
      have := List.append_eq_nil_iff.1 h.symm
      rw [this.1]
      simp [byteLen]
  | cons x xs ih =>
    cases n with
    | zero =>
      simp only [splitAtByte, Option.some.injEq, Prod.mk.injEq]
      constructor
      · rintro ⟨rfl, rfl⟩; simp [byteLen]
      · rintro ⟨h1, h2⟩
        cases a with
        | nil => simpa using h1
        | cons y ys =>
          simp only [byteLen] at h2
          have := Char.utf8Size_pos y
          omega
    | succ n =>
      unfold splitAtByte
      by_cases hx : x.utf8Size ≤ n + 1
      · simp only [hx, if_true]
        cases hs : splitAtByte (n + 1 - x.utf8Size) xs with
        | none =>
          simp only [reduceCtorEq, false_iff, not_and]
          intro h1 h2
          cases a with
          | nil => simp [byteLen] at h2
          | cons y ys =>
            simp only [List.cons_append, List.cons.injEq] at h1
            simp only [byteLen] at h2
            rw [← h1.1] at h2
            have := (ih (n := n + 1 - x.utf8Size)).2 ⟨h1.2, by omega⟩
            rw [hs] at this
            cases this
        | some p =>
          obtain ⟨a', b'⟩ := p
          have h1 := (ih (n := n + 1 - x.utf8Size)).1 hs
          simp only [Option.some.injEq, Prod.mk.injEq]
          constructor
          · rintro ⟨rfl, rfl⟩
            refine ⟨by simp [h1.1], ?_⟩
            simp only [byteLen]; omega
          · rintro ⟨h2, h3⟩
            cases a with
            | nil => simp [byteLen] at h3
            | cons y ys =>
              simp only [List.cons_append, List.cons.injEq] at h2
              simp only [byteLen] at h3
              rw [← h2.1] at h3
              have := (ih (n := n + 1 - x.utf8Size)).2 ⟨h2.2, by omega⟩
              rw [hs] at this
              simp only [Option.some.injEq, Prod.mk.injEq] at this
              simp [this, h2.1]
      · simp only [hx, if_false, reduceCtorEq, false_iff, not_and]
        intro h1 h2
        cases a with
        | nil => simp [byteLen] at h2
        | cons y ys =>
          simp only [List.cons_append, List.cons.injEq] at h1
          simp only [byteLen] at h2
          rw [← h1.1] at h2
          omega

theorem isDigit_iff {c : Char} : isDigit c = true ↔ 48 ≤ c.toNat ∧ c.toNat ≤ 57 := by
  simp [isDigit]

theorem isDigit_utf8Size {c : Char} (h : isDigit c = true) : c.utf8Size = 1 := by
  have := isDigit_iff.1 h
  unfold Char.utf8Size
  have h2 : c.val ≤ 127 := by
    rw [UInt32.le_iff_toNat_le]
    show c.toNat ≤ 127
    omega
  simp [h2]

theorem byteLen_digits {s : Str} (h : s.all isDigit = true) : byteLen s = s.length := by
  induction s with
  | nil => rfl
  | cons x xs ih =>
    simp only [List.all_cons, Bool.and_eq_true] at h
    simp [byteLen, isDigit_utf8Size h.1, ih h.2]; omega

end Hudi
