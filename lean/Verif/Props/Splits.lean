import Verif.Model.Table
import Mathlib.Tactic.Common

/-! # C32: dividing the file slices into splits -/

namespace Hudi

namespace Spec

/-- `ss` is a faithful division of `l` into at most `max 1 n` pieces. -/
structure Division {α : Type} (n : Nat) (l : List α) (ss : List (List α)) : Prop where
  /-- The pieces one after the other are the list. -/
  whole : ss.flatten = l
  /-- There are not more pieces than asked for (one, if zero were asked for). -/
  count : ss.length ≤ max 1 n
  /-- No piece is empty. -/
  nonempty : ∀ s ∈ ss, s ≠ []
  /-- All pieces but the last have the same size, and the last is not larger. -/
  balanced : ∃ k, (∀ s ∈ ss.dropLast, s.length = k) ∧ ∀ s ∈ ss, s.length ≤ k

end Spec

open Spec

theorem chunksAux_spec {α : Type} {k : Nat} (hk : 0 < k) (n : Nat) (l : List α) (h : l.length ≤ n) :
    (chunksAux k n l).flatten = l ∧ (∀ s ∈ chunksAux k n l, s ≠ [] ∧ s.length ≤ k) ∧
      (∀ s ∈ (chunksAux k n l).dropLast, s.length = k) ∧
      (chunksAux k n l).length * k < l.length + k := by
  induction n generalizing l with
  | zero =>
    have : l = [] := List.length_eq_zero_iff.1 (by omega)
    subst this
    simp [chunksAux, hk]
  | succ n ih =>
    cases l with
    | nil => simp [chunksAux, hk]
    | cons x xs =>
      have hlen : ((x :: xs).drop k).length ≤ n := by
        simp only [List.length_drop, List.length_cons] at h ⊢; omega
      obtain ⟨h1, h2, h3, h4⟩ := ih _ hlen
      rw [chunksAux]
      refine ⟨?_, ?_, ?_, ?_⟩
      · rw [List.flatten_cons, h1, List.take_append_drop]
      · intro s hs
        rcases List.mem_cons.1 hs with hs | hs
        · subst hs
          refine ⟨?_, List.length_take_le _ _⟩
          cases k with
          | zero => omega
          | succ k => simp
        · exact h2 s hs
      · intro s hs
        cases hc : chunksAux k n ((x :: xs).drop k) with
        | nil => rw [hc] at hs; simp at hs
        | cons c cs =>
          rw [hc, List.dropLast_cons_of_ne_nil (by simp)] at hs
          rcases List.mem_cons.1 hs with hs | hs
          · subst hs
            have hd : (x :: xs).drop k ≠ [] := by
              intro hd
              rw [hc, hd] at h1
              have := (h2 c (by simp [hc])).1
              simp_all
            rw [List.length_take]
            have : k < (x :: xs).length := by
              by_contra hx
              exact hd (List.drop_eq_nil_of_le (by omega))
            omega
          · exact h3 s (by rw [hc]; exact hs)
      · simp only [List.length_cons, List.length_drop] at h4 ⊢
        rw [Nat.add_mul]
        by_cases hle : k ≤ xs.length + 1
        · omega
        · have : xs.length + 1 - k = 0 := by omega
          rw [this] at h4
          simp only [Nat.zero_add] at h4
          have : (chunksAux k n ((x :: xs).drop k)).length = 0 := by
            by_contra hne
            have := Nat.mul_le_mul_right k (show 1 ≤ _ from Nat.pos_of_ne_zero hne)
            omega
          rw [this]; omega

theorem splitSlices_division {α : Type} (n : Nat) (l : List α) :
    ∃ ss, splitSlices n l = .ok ss ∧ Division n l ss ∧ (ss = [] ↔ l = []) := by
  cases l with
  | nil =>
    refine ⟨[], rfl, ⟨rfl, by simp, by simp, 0, by simp, by simp⟩, by simp⟩
  | cons x xs =>
    have hn : 0 < max 1 n := by omega
    generalize hm : max 1 n = m at hn
    have hk : 0 < ((x :: xs).length + m - 1) / m := by
      apply Nat.div_pos _ hn
      simp only [List.length_cons]; omega
    generalize hkk : ((x :: xs).length + m - 1) / m = k at hk
    obtain ⟨h1, h2, h3, h4⟩ := chunksAux_spec hk _ (x :: xs) (Nat.le_refl _)
    refine ⟨chunksAux k (x :: xs).length (x :: xs), ?_, ⟨h1, ?_, fun s hs => (h2 s hs).1, k, h3,
      fun s hs => (h2 s hs).2⟩, ?_⟩
    · simp only [splitSlices, List.isEmpty_cons, hm, hkk, chunks]
      rw [if_neg (by decide), if_neg (by omega)]
    · rw [hm]
      have : (x :: xs).length ≤ m * k := by
        rw [← hkk]
        have := Nat.div_add_mod ((x :: xs).length + m - 1) m
        have := Nat.mod_lt ((x :: xs).length + m - 1) hn
        omega
      by_contra hlt
      have hlt : m + 1 ≤ (chunksAux k (x :: xs).length (x :: xs)).length := by omega
      have := Nat.mul_le_mul_right k hlt
      rw [Nat.add_mul] at this
      omega
    · constructor
      · intro h; rw [h] at h1; simp at h1
      · intro h; cases h

/-- A splits query is the slices query, followed by a division of its answer. -/
theorem split_query {n : Nat} {q : Query (List FileSlice)} {c c' : Cache} {r : Res (List FileSlice)}
    (h : q c = (c', r)) :
    (∀ l, r = .ok l → ∃ ss, (q >>= fun l => Query.lift (splitSlices n l)) c = (c', .ok ss) ∧
        Division n l ss ∧ (ss = [] ↔ l = [])) ∧
    (∀ e, r = .err e → (q >>= fun l => Query.lift (splitSlices n l)) c = (c', .err e)) ∧
    (r = .panic → (q >>= fun l => Query.lift (splitSlices n l)) c = (c', .panic)) := by
  refine ⟨?_, ?_, ?_⟩
  · rintro l rfl
    obtain ⟨ss, h1, h2⟩ := splitSlices_division n l
    refine ⟨ss, ?_, h2⟩
    show Query.bind q _ c = _
    simp only [Query.bind, h, Query.lift, h1]
  · rintro e rfl
    show Query.bind q _ c = _
    simp only [Query.bind, h]
  · rintro rfl
    show Query.bind q _ c = _
    simp only [Query.bind, h]

theorem Query.bind_assoc {α β γ : Type} (q : Query α) (f : α → Query β) (g : β → Query γ) :
    ((q >>= f) >>= g) = (q >>= fun a => f a >>= g) := by
  funext c
  show Query.bind (Query.bind q f) g c = Query.bind q (fun a => Query.bind (f a) g) c
  simp only [Query.bind]
  cases h : q c with
  | mk c' r => cases r <;> rfl

/-- **C32, as of a time.**  For every table, cache state, time and filters: asking for `n` splits of
the file slices as of a time succeeds exactly when asking for the file slices does (with the same
error otherwise), and its answer is a faithful division of the file slices, empty exactly when there
are none. -/
theorem C32_splits_as_of (E : Env) (A : Arrow) (tb : Table) (t : Tree) (n : Nat) (ts : Str)
    (filters : List (Str × Str × Str)) (c c' : Cache) (r : Res (List FileSlice))
    (h : tb.fileSlicesAsOf E A t ts filters c = (c', r)) :
    (∀ l, r = .ok l → ∃ ss, tb.fileSlicesSplitsAsOf E A t n ts filters c = (c', .ok ss) ∧
        Division n l ss ∧ (ss = [] ↔ l = [])) ∧
    (∀ e, r = .err e → tb.fileSlicesSplitsAsOf E A t n ts filters c = (c', .err e)) ∧
    (r = .panic → tb.fileSlicesSplitsAsOf E A t n ts filters c = (c', .panic)) := by
  have key : tb.fileSlicesSplitsAsOf E A t n ts filters =
      (tb.fileSlicesAsOf E A t ts filters >>= fun l => Query.lift (splitSlices n l)) := by
    unfold Table.fileSlicesSplitsAsOf Table.fileSlicesAsOf Table.fileSlicesSplitsInternal
    rw [Query.bind_assoc]
  rw [key]
  exact split_query h

/-- **C32, latest.**  The same for the latest file slices. -/
theorem C32_splits (E : Env) (A : Arrow) (tb : Table) (t : Tree) (n : Nat)
    (filters : List (Str × Str × Str)) (c c' : Cache) (r : Res (List FileSlice))
    (h : tb.fileSlices E A t filters c = (c', r)) :
    (∀ l, r = .ok l → ∃ ss, tb.fileSlicesSplits E A t n filters c = (c', .ok ss) ∧
        Division n l ss ∧ (ss = [] ↔ l = [])) ∧
    (∀ e, r = .err e → tb.fileSlicesSplits E A t n filters c = (c', .err e)) ∧
    (r = .panic → tb.fileSlicesSplits E A t n filters c = (c', .panic)) := by
  have key : tb.fileSlicesSplits E A t n filters =
      (tb.fileSlices E A t filters >>= fun l => Query.lift (splitSlices n l)) := by
    unfold Table.fileSlicesSplits Table.fileSlices Table.fileSlicesSplitsInternal
    cases tb.timeline.latestTimestamp with
    | none => rfl
    | some ts => simp only; rw [Query.bind_assoc]
  rw [key]
  exact split_query h

example : splitSlices 3 [1, 2, 3, 4, 5, 6, 7] = .ok [[1, 2, 3], [4, 5, 6], [7]] := by decide
example : splitSlices 0 [1, 2] = .ok [[1, 2]] := by decide

end Hudi
