import Verif.Spec.Options
import Verif.Lemmas.Str
import Verif.Lemmas.Config
import Verif.Lemmas.Utf8

/-! # Lemmas on properties texts -/

namespace Hudi
open Spec

theorem dropWhile_head {p : Char → Bool} {s : Str} {c : Char} (h : (s.dropWhile p).head? = some c) :
    p c = false := by
  induction s with
  | nil => cases h
  | cons x s ih =>
    rw [List.dropWhile_cons] at h
    split at h
    · exact ih h
    · rename_i hn; cases h; simpa using hn

theorem dropWhile_prefix (p : Char → Bool) (s : Str) :
    ∃ a, s = a ++ s.dropWhile p ∧ ∀ c ∈ a, p c = true := by
  refine ⟨s.takeWhile p, (List.takeWhile_append_dropWhile).symm, fun c hc => ?_⟩
  induction s with
  | nil => cases hc
  | cons x s ih =>
    rw [List.takeWhile_cons] at hc
    split at hc
    · rename_i hx
      rcases List.mem_cons.1 hc with rfl | hc
      · exact hx
      · exact ih hc
    · cases hc

theorem dropWhile_all {p : Char → Bool} {a t : Str} (h : ∀ c ∈ a, p c = true)
    (ht : ∀ c, t.head? = some c → p c = false) : (a ++ t).dropWhile p = t := by
  induction a with
  | nil =>
    cases t with
    | nil => rfl
    | cons x t => rw [List.nil_append, List.dropWhile_cons, if_neg (by simp [ht x rfl])]
  | cons x a ih =>
    rw [List.cons_append, List.dropWhile_cons, if_pos (h x (by simp)), ih (fun c hc => h c (by simp [hc]))]

theorem trim_trimmed (s : Str) : Trimmed s (trim s) := by
  obtain ⟨a, h1, h2⟩ := dropWhile_prefix isWs s
  obtain ⟨b, h3, h4⟩ := dropWhile_prefix isWs (s.dropWhile isWs).reverse
  have e : s.dropWhile isWs = trim s ++ b.reverse := by
    have := congrArg List.reverse h3
    simpa [trim, trimEnd, trimStart] using this
  refine ⟨a, b.reverse, by rw [List.append_assoc, ← e, ← h1], h2, fun c hc => h4 c (by simpa using hc), ?_, ?_⟩
  · intro c hc
    refine dropWhile_head (s := s) ?_
    rw [e]
    cases ht : trim s with
    | nil => rw [ht] at hc; cases hc
    | cons x t => rw [ht] at hc; simpa using hc
  · intro c hc
    refine dropWhile_head (s := (s.dropWhile isWs).reverse) ?_
    unfold trim trimEnd trimStart at hc
    rwa [List.getLast?_reverse] at hc

theorem trim_eq {s t : Str} (h : Trimmed s t) : trim s = t := by
  obtain ⟨a, b, rfl, ha, hb, h1, h2⟩ := h
  unfold trim trimEnd trimStart
  rw [List.append_assoc]
  cases t with
  | nil =>
    have : (a ++ ([] ++ b)).dropWhile isWs = [] := by
      have := dropWhile_all (p := isWs) (a := a ++ b) (t := []) (by
        intro c hc
        exact (List.mem_append.1 hc).elim (ha c) (hb c)) (by simp)
      simpa using this
    rw [this]; rfl
  | cons x t =>
    rw [dropWhile_all ha (by intro c hc; exact h1 c (by simpa using hc)), List.reverse_append,
      dropWhile_all (by intro c hc; exact hb c (by simpa using hc)) (by
        intro c hc; rw [List.head?_reverse] at hc; exact h2 c hc), List.reverse_reverse]

theorem trimmed_iff {s t : Str} : Trimmed s t ↔ t = trim s :=
  ⟨fun h => (trim_eq h).symm, fun h => h ▸ trim_trimmed s⟩

theorem splitFirst_none {seps s : Str} (h : ∀ x ∈ s, x ∉ seps) : splitFirst seps s = (s, none) := by
  induction s with
  | nil => rfl
  | cons x s ih =>
    unfold splitFirst
    rw [if_neg (by simpa using h x (by simp)), ih (fun y hy => h y (by simp [hy]))]

theorem splitFirst_some {seps a b : Str} {c : Char} (hc : c ∈ seps) (h : ∀ x ∈ a, x ∉ seps) :
    splitFirst seps (a ++ c :: b) = (a, some b) := by
  induction a with
  | nil => rw [List.nil_append, splitFirst, if_pos (by simpa using hc)]
  | cons x a ih =>
    rw [List.cons_append]
    unfold splitFirst
    rw [if_neg (by simpa using h x (by simp)), ih (fun y hy => h y (by simp [hy]))]

theorem splitFirst_cases (seps s : Str) :
    (∀ x ∈ s, x ∉ seps) ∨ ∃ a c b, s = a ++ c :: b ∧ c ∈ seps ∧ ∀ x ∈ a, x ∉ seps := by
  induction s with
  | nil => exact .inl (by simp)
  | cons x s ih =>
    by_cases hx : x ∈ seps
    · exact .inr ⟨[], x, s, rfl, hx, by simp⟩
    · rcases ih with h | ⟨a, c, b, rfl, hc, ha⟩
      · left
        intro y hy
        rcases List.mem_cons.1 hy with rfl | hy
        · exact hx
        · exact h y hy
      · right
        refine ⟨x :: a, c, b, rfl, hc, ?_⟩
        intro y hy
        rcases List.mem_cons.1 hy with rfl | hy
        · exact hx
        · exact ha y hy

theorem trim_trim (s : Str) : trim (trim s) = trim s := by
  have h := trim_trimmed s
  obtain ⟨a, b, _, _, _, h1, h2⟩ := h
  exact trim_eq ⟨[], [], by simp, by simp, by simp, h1, h2⟩

/-- What a line defines. -/
theorem parseOptionLine_eq (seps line k v : Str) :
    parseOptionLine seps line = some (k, v) ↔ Defines seps line k v := by
  unfold parseOptionLine Defines
  simp only [trimmed_iff, exists_eq_left]
  by_cases h : trim line = [] ∨ (trim line).head? = some '#'
  · rw [if_pos h]
    simp only [reduceCtorEq, false_iff]
    rintro ⟨h1, h2, _⟩
    exact h.elim h1 h2
  · rw [if_neg h]
    rw [not_or] at h
    simp only [Option.some.injEq, Prod.mk.injEq, ne_eq, h.1, h.2, not_false_eq_true, true_and]
    rcases splitFirst_cases seps (trim line) with hn | ⟨a, c, b, e, hc, ha⟩
    · rw [splitFirst_none hn]
      constructor
      · rintro ⟨rfl, rfl⟩
        exact .inr ⟨hn, by simp [trim_trim], rfl⟩
      · rintro (⟨a, c, b, e, hc, _⟩ | ⟨_, rfl, rfl⟩)
        · exact absurd hc (hn c (by rw [e]; simp))
        · exact ⟨trim_trim _, rfl⟩
    · rw [e, splitFirst_some hc ha]
      constructor
      · rintro ⟨rfl, rfl⟩
        exact .inl ⟨a, c, b, rfl, hc, ha, rfl, rfl⟩
      · rintro (⟨a', c', b', e', hc', ha', rfl, rfl⟩ | ⟨hn, _⟩)
        · have h1 := splitFirst_some (b := b) hc ha
          have h2 := splitFirst_some (b := b') hc' ha'
          rw [e', h2] at h1
          cases h1
          exact ⟨rfl, rfl⟩
        · exact absurd hc (hn c (by simp))

theorem parseOptionLine_cr (seps l : Str) :
    parseOptionLine seps (if l.getLast? = some '\r' then l.dropLast else l) = parseOptionLine seps l := by
  split
  · rename_i h
    have e : l = l.dropLast ++ ['\r'] := by
      rw [List.dropLast_append_getLast? _ h]
    have : trim l.dropLast = trim l := by
      symm
      apply trim_eq
      obtain ⟨a, b, e', ha, hb, h1, h2⟩ := trim_trimmed l.dropLast
      refine ⟨a, b ++ ['\r'], ?_, ha, ?_, h1, h2⟩
      · conv => lhs; rw [e, e']
        simp
      · intro c hc
        rcases List.mem_append.1 hc with hc | hc
        · exact hb c hc
        · rw [List.mem_singleton.1 hc]; rfl
    unfold parseOptionLine
    rw [this]
  · rfl

theorem parseOptionLine_nil (seps : Str) : parseOptionLine seps [] = none := rfl

/-- The options are those of the pieces between line breaks. -/
theorem filterMap_linesOf (seps s : Str) : (linesOf s).filterMap (parseOptionLine seps) =
    (splitAll '\n' s).filterMap (parseOptionLine seps) := by
  unfold linesOf
  have hb : ((splitAll '\n' s).dropLast.map
      (fun l => if l.getLast? = some '\r' then l.dropLast else l)).filterMap (parseOptionLine seps) =
      (splitAll '\n' s).dropLast.filterMap (parseOptionLine seps) := by
    rw [List.filterMap_map]
    congr 1
    funext l
    exact parseOptionLine_cr seps l
  have hne := splitAll_ne_nil '\n' s
  obtain ⟨x, hx⟩ : ∃ x, (splitAll '\n' s).getLast? = some x := by
    cases h : (splitAll '\n' s).getLast? with
    | none => exact absurd (List.getLast?_eq_none_iff.1 h) hne
    | some x => exact ⟨x, rfl⟩
  have e := List.dropLast_append_getLast? _ hx
  simp only [hx]
  conv => rhs; rw [← e]
  rw [List.filterMap_append]
  cases x with
  | nil => simp only [hb]; simp [parseOptionLine_nil]
  | cons c x => simp only [List.filterMap_append, hb]

theorem intersperse_joinWith (ls : List Str) : (ls.intersperse c!"\n").flatten = joinWith '\n' ls := by
  induction ls with
  | nil => rfl
  | cons l ls ih =>
    cases ls with
    | nil => simp [joinWith]
    | cons l' ls =>
      rw [List.intersperse_cons_cons, joinWith]
      simp only [List.flatten_cons, ih]
      simp

theorem hasLines_iff {text : Str} {ls : List Str} : HasLines text ls ↔ ls = splitAll '\n' text := by
  unfold HasLines
  rw [intersperse_joinWith]
  constructor
  · rintro ⟨h1, h2, rfl⟩
    exact (splitAll_joinWith h1 h2).symm
  · rintro rfl
    exact ⟨splitAll_ne_nil _ _, splitAll_not_mem _ _, (join_splitAll _ _).symm⟩

/-- The last entry with the key. -/
theorem hmGet_reverse_filterMap {α : Type} (f : α → Option (Str × Str)) (l : List α) (k v : Str) :
    hmGet k (l.filterMap f).reverse = some v ↔
      ∃ before x after, l = before ++ x :: after ∧ f x = some (k, v) ∧
        ∀ y ∈ after, ∀ v', f y ≠ some (k, v') := by
  induction l with
  | nil => simp [hmGet]
  | cons x l ih =>
    have key : ∀ y : List α, hmGet k (y.filterMap f).reverse = none ↔ ∀ z ∈ y, ∀ v', f z ≠ some (k, v') := by
      intro y
      rw [hmGet_eq_none]
      simp only [List.map_reverse, List.mem_reverse, List.mem_map, List.mem_filterMap, not_exists, not_and]
      constructor
      · intro h z hz v' e
        exact h (k, v') ⟨z, hz, e⟩ rfl
      · rintro h ⟨k', v'⟩ ⟨z, hz, e⟩ rfl
        exact h z hz v' e
    have hcons : hmGet k ((x :: l).filterMap f).reverse =
        (hmGet k (l.filterMap f).reverse).or
          (match f x with | some e => if k = e.1 then some e.2 else none | none => none) := by
      rw [List.filterMap_cons]
      cases hfx : f x with
      | none => simp
      | some e => simp only [List.reverse_cons, hmGet_append_single]
    rw [hcons]
    constructor
    · intro h
      cases hl : hmGet k (l.filterMap f).reverse with
      | some v' =>
        rw [hl] at h
        simp only [Option.some_or, Option.some.injEq] at h
        subst h
        obtain ⟨b, y, a, rfl, h1, h2⟩ := ih.1 hl
        exact ⟨x :: b, y, a, rfl, h1, h2⟩
      | none =>
        rw [hl, Option.none_or] at h
        cases hfx : f x with
        | none => rw [hfx] at h; cases h
        | some e =>
          rw [hfx] at h
          simp only at h
          split at h
          · rename_i hk
            cases h
            exact ⟨[], x, l, rfl, by rw [hfx, hk], (key l).1 hl⟩
          · cases h
    · rintro ⟨b, y, a, e, h1, h2⟩
      cases b with
      | nil =>
        simp only [List.nil_append, List.cons.injEq] at e
        obtain ⟨rfl, rfl⟩ := e
        rw [(key _).2 h2, h1]
        simp
      | cons z b =>
        simp only [List.cons_append, List.cons.injEq] at e
        obtain ⟨rfl, rfl⟩ := e
        rw [ih.2 ⟨b, y, a, rfl, h1, h2⟩]
        rfl

end Hudi
