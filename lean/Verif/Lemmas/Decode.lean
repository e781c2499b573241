import Verif.Spec.Log
import Mathlib.Data.List.Forall2

/-! # The records of a block are determined by its bytes -/

namespace Hudi
open Spec

theorem pieces_tail {α : Type} {vs : List α} {p : List α} {ps : List (List α)}
    (h : Pieces vs (p :: ps)) : Pieces ps.flatten ps := by
  refine ⟨rfl, fun q hq => h.2.1 q ?_, fun q hq => h.2.2 q (by simp [hq])⟩
  cases ps with
  | nil => cases hq
  | cons x xs => exact List.mem_cons_of_mem _ hq

theorem pieces_det {α : Type} {vs : List α} {vss vss' : List (List α)} (h : Pieces vs vss)
    (h' : Pieces vs vss') : vss = vss' := by
  induction vss generalizing vs vss' with
  | nil =>
    have : vs = [] := by rw [← h.1]; rfl
    subst this
    cases vss' with
    | nil => rfl
    | cons q qs =>
      have h1 := (h'.2.2 q (by simp)).1
      have h2 := h'.1
      simp only [List.flatten_cons, List.append_eq_nil_iff] at h2
      rw [h2.1] at h1
      simp at h1
  | cons p ps ih =>
    have hp := h.2.2 p (by simp)
    have hlen : ∀ {q : List α} {qs : List (List α)}, Pieces vs (q :: qs) → qs ≠ [] →
        q = vs.take 1024 ∧ qs.flatten = vs.drop 1024 ∧ 1024 < vs.length := by
      intro q qs hq hne
      have h1 : q.length = 1024 := hq.2.1 q (by cases qs with | nil => exact absurd rfl hne | cons x xs => simp)
      have h2 := hq.1
      simp only [List.flatten_cons] at h2
      have h3 : 0 < qs.flatten.length := by
        cases qs with
        | nil => exact absurd rfl hne
        | cons x xs =>
          have := (hq.2.2 x (by simp)).1
          simp only [List.flatten_cons, List.length_append]
          omega
      rw [← h2]
      refine ⟨?_, ?_, ?_⟩
      · rw [List.take_left' h1]
      · rw [List.drop_left' h1]
      · simp only [List.length_append]; omega
    have hone : ∀ {q : List α}, Pieces vs [q] → q = vs ∧ vs.length ≤ 1024 := by
      intro q hq
      have h1 := hq.1
      simp at h1
      exact ⟨h1, by rw [← h1]; exact (hq.2.2 q (by simp)).2⟩
    cases vss' with
    | nil =>
      have h1 : vs = [] := by rw [← h'.1]; rfl
      have h2 := h.1
      rw [h1] at h2
      simp only [List.flatten_cons, List.append_eq_nil_iff] at h2
      rw [h2.1] at hp
      simp at hp
    | cons q qs =>
      by_cases h1 : ps = [] <;> by_cases h2 : qs = []
      · subst h1; subst h2
        rw [(hone h).1, (hone h').1]
      · subst h1
        have := (hone h).2
        have := (hlen h' h2).2.2
        omega
      · subst h2
        have := (hone h').2
        have := (hlen h h1).2.2
        omega
      · obtain ⟨a1, a2, _⟩ := hlen h h1
        obtain ⟨b1, b2, _⟩ := hlen h' h2
        rw [a1, b1]
        have ht := pieces_tail h
        have ht' := pieces_tail h'
        rw [a2] at ht
        rw [b2] at ht'
        rw [ih ht ht']

theorem forall₂_det {α β : Type} {R : α → β → Prop} (hR : ∀ a b b', R a b → R a b' → b = b')
    {xs : List α} {ys ys' : List β} (h : List.Forall₂ R xs ys) (h' : List.Forall₂ R xs ys') : ys = ys' := by
  induction h generalizing ys' with
  | nil => cases h'; rfl
  | cons h1 _ ih =>
    cases h' with
    | cons h3 h4 => rw [hR _ _ _ h1 h3, ih h4]

theorem decodes_det {C : Codec} {w : WBlock} {bs bs' : List Batch} (h : Decodes C w bs)
    (h' : Decodes C w bs') : bs = bs' := by
  unfold Decodes at h h'
  cases hc : w.content with
  | command => rw [hc] at h h'; simp only at h h'; rw [h, h']
  | avro rs =>
    rw [hc] at h h'
    obtain ⟨text, s, vs, vss, h1, h2, _, h4, h5, h6⟩ := h
    obtain ⟨text', s', vs', vss', h1', h2', _, h4', h5', h6'⟩ := h'
    rw [h1] at h1'; cases h1'
    rw [h2] at h2'; cases h2'
    have : vs = vs' := forall₂_det (fun a b b' x y => by rw [x] at y; cases y; rfl) h4 h4'
    subst this
    have := pieces_det h5 h5'
    subst this
    exact forall₂_det (fun a b b' x y => by rw [x] at y; cases y; rfl) h6 h6'
  | parquet b =>
    rw [hc] at h h'
    simp only at h h'
    rw [h] at h'
    cases h'
    rfl
  | other t b => rw [hc] at h; exact h.elim

end Hudi
