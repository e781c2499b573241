/-! Lemmas about lists. -/

namespace Hudi

variable {α β : Type}

/-- On a sorted list, the elements satisfying a downward-closed predicate are a prefix. -/
theorem takeWhile_eq_filter {r : α → α → Prop} {p : α → Bool} {l : List α} (hl : l.Pairwise r)
    (hp : ∀ a b, r a b → p b = true → p a = true) : l.takeWhile p = l.filter p := by
  induction l with
  | nil => rfl
  | cons x xs ih =>
    rw [List.pairwise_cons] at hl
    cases hx : p x with
    | true => simp [hx, ih hl.2]
    | false =>
      have : xs.filter p = [] := by
        rw [List.filter_eq_nil_iff]
        intro y hy hpy
        rw [hp x y (hl.1 y hy) hpy] at hx
        cases hx
      simp [hx, this]

theorem dropWhile_eq_filter {r : α → α → Prop} {p : α → Bool} {l : List α} (hl : l.Pairwise r)
    (hp : ∀ a b, r a b → p b = true → p a = true) : l.dropWhile p = l.filter (fun a => !p a) := by
  induction l with
  | nil => rfl
  | cons x xs ih =>
    rw [List.pairwise_cons] at hl
    cases hx : p x with
    | true => simp [hx, ih hl.2]
    | false =>
      have : xs.filter (fun a => !p a) = xs := by
        rw [List.filter_eq_self]
        intro y hy
        cases hy' : p y with
        | false => rfl
        | true => rw [hp x y (hl.1 y hy) hy'] at hx; cases hx
      simp [hx, this]

theorem drop_takeWhile_length {p : α → Bool} {l : List α} :
    l.drop (l.takeWhile p).length = l.dropWhile p := by
  induction l with
  | nil => rfl
  | cons x xs ih => cases hx : p x <;> simp [hx, ih]

theorem take_takeWhile_length {p : α → Bool} {l : List α} :
    l.take (l.takeWhile p).length = l.takeWhile p := by
  induction l with
  | nil => rfl
  | cons x xs ih => cases hx : p x <;> simp [hx, ih]

/-- Splitting a filter of a sorted list at a downward-closed predicate. -/
theorem filter_split {r : α → α → Prop} {p : α → Bool} {l : List α} (hl : l.Pairwise r)
    (hp : ∀ a b, r a b → p b = true → p a = true) (q : α → Bool) :
    l.filter (fun a => p a && q a) ++ l.filter (fun a => !p a && q a) = l.filter q := by
  have h1 : l = l.filter p ++ l.filter (fun a => !p a) := by
    rw [← takeWhile_eq_filter hl hp, ← dropWhile_eq_filter hl hp, List.takeWhile_append_dropWhile]
  conv => rhs; rw [h1]
  rw [List.filter_append, List.filter_filter, List.filter_filter]
  simp [Bool.and_comm]

theorem inj_of_nodup_map {f : α → β} {l : List α} (h : (l.map f).Nodup) {a b : α} (ha : a ∈ l)
    (hb : b ∈ l) (hab : f a = f b) : a = b := by
  induction l with
  | nil => cases ha
  | cons x xs ih =>
    rw [List.map_cons, List.nodup_cons] at h
    rcases List.mem_cons.1 ha with rfl | ha <;> rcases List.mem_cons.1 hb with rfl | hb
    · rfl
    · exact absurd (List.mem_map.2 ⟨b, hb, hab.symm⟩) h.1
    · exact absurd (List.mem_map.2 ⟨a, by assumption, hab⟩) h.1
    · exact ih h.2 ha hb

end Hudi
