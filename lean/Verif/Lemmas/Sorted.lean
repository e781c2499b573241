import Verif.Base.Sorted
import Verif.Base.HMap
import Verif.Lemmas.Lists

/-! Lemmas about ordered sets and maps. -/

namespace Hudi

set_option linter.unusedSectionVars false

section Set

variable {α : Type} {cmp : α → α → Ordering} [Std.TransCmp cmp]

theorem mem_setInsert_self_or (x : α) (l : List α) : x ∈ setInsert cmp x l ∨
    ∃ y ∈ l, cmp x y = .eq := by
  induction l with
  | nil => exact .inl (by simp [setInsert])
  | cons y ys ih =>
    unfold setInsert
    cases h : cmp x y with
    | lt => simp
    | eq => exact .inr ⟨y, by simp, h⟩
    | gt =>
      rcases ih with ih | ⟨z, hz, he⟩
      · exact .inl (by simp [ih])
      · exact .inr ⟨z, by simp [hz], he⟩

theorem setInsert_sub (x : α) (l : List α) : ∀ y ∈ setInsert cmp x l, y = x ∨ y ∈ l := by
  induction l with
  | nil => intro y hy; simpa [setInsert] using hy
  | cons z zs ih =>
    intro y hy
    unfold setInsert at hy
    cases h : cmp x z with
    | lt => rw [h] at hy; simpa using hy
    | eq => rw [h] at hy; exact .inr (by simpa using hy)
    | gt =>
      rw [h] at hy
      rcases List.mem_cons.1 hy with rfl | hy
      · exact .inr (by simp)
      · rcases ih y hy with h | h
        · exact .inl h
        · exact .inr (by simp [h])

theorem sub_setInsert (x : α) (l : List α) : ∀ y ∈ l, y ∈ setInsert cmp x l := by
  induction l with
  | nil => intro y hy; cases hy
  | cons z zs ih =>
    intro y hy
    unfold setInsert
    cases cmp x z with
    | lt => exact .tail _ hy
    | eq => exact hy
    | gt =>
      rcases List.mem_cons.1 hy with rfl | hy
      · exact .head _
      · exact .tail _ (ih y hy)

theorem setInsert_sorted {x : α} {l : List α} (h : SetSorted cmp l) :
    SetSorted cmp (setInsert cmp x l) := by
  induction l with
  | nil => simp [setInsert, SetSorted]
  | cons z zs ih =>
    unfold SetSorted at *
    rw [List.pairwise_cons] at h
    unfold setInsert
    cases hc : cmp x z with
    | lt =>
      refine List.pairwise_cons.2 ⟨?_, List.pairwise_cons.2 h⟩
      intro y hy
      rcases List.mem_cons.1 hy with rfl | hy
      · exact hc
      · exact Std.TransCmp.lt_trans hc (h.1 y hy)
    | eq => exact List.pairwise_cons.2 h
    | gt =>
      refine List.pairwise_cons.2 ⟨?_, ih h.2⟩
      intro y hy
      rcases setInsert_sub x zs y hy with rfl | hy
      · exact Std.OrientedCmp.lt_of_gt hc
      · exact h.1 y hy

/-- Membership after an insertion: an element is added unless an equal one is present. -/
theorem mem_setInsert {x : α} {l : List α} (h : SetSorted cmp l) (y : α) :
    y ∈ setInsert cmp x l ↔ y ∈ l ∨ (y = x ∧ ∀ z ∈ l, cmp x z ≠ .eq) := by
  constructor
  · intro hy
    by_cases hyl : y ∈ l
    · exact .inl hyl
    · rcases setInsert_sub x l y hy with rfl | hy'
      · refine .inr ⟨rfl, ?_⟩
        intro z hz he
        have hs := setInsert_sorted (x := y) h
        have hz' := sub_setInsert (cmp := cmp) y l z hz
        -- two elements of a strictly sorted list that compare equal coincide
        have : y = z := by
          have key : ∀ l : List α, SetSorted cmp l → y ∈ l → z ∈ l → y = z := by
            intro l hl hy hz
            induction l with
            | nil => cases hy
            | cons w ws ih =>
              unfold SetSorted at *
              rw [List.pairwise_cons] at hl
              rcases List.mem_cons.1 hy with rfl | hy' <;> rcases List.mem_cons.1 hz with rfl | hz'
              · rfl
              · have := hl.1 z hz'; rw [he] at this; cases this
              · have := hl.1 y hy'
                have h2 : cmp z y = .eq := Std.OrientedCmp.eq_symm he
                rw [h2] at this
                cases this
              · exact ih hl.2 hy' hz'
          exact key _ hs hy hz'
        exact hyl (this ▸ hz)
      · exact absurd hy' hyl
  · rintro (hy | ⟨rfl, hy⟩)
    · exact sub_setInsert x l y hy
    · rcases mem_setInsert_self_or (cmp := cmp) y l with h | ⟨z, hz, he⟩
      · exact h
      · exact absurd he (hy z hz)

theorem setExtend_sorted {l xs : List α} (h : SetSorted cmp l) :
    SetSorted cmp (setExtend cmp l xs) := by
  unfold setExtend
  induction xs generalizing l with
  | nil => exact h
  | cons x xs ih => exact ih (setInsert_sorted h)

/-- Strictly sorted lists with the same members are equal. -/
theorem SetSorted.ext {l l' : List α} (h : SetSorted cmp l) (h' : SetSorted cmp l')
    (hm : ∀ x, x ∈ l ↔ x ∈ l') : l = l' := by
  have nd : ∀ l : List α, SetSorted cmp l → l.Nodup := by
    intro l hl
    exact List.Pairwise.imp (fun {a b} hab => by
      rintro rfl; rw [Std.ReflCmp.compare_self (cmp := cmp)] at hab; cases hab) hl
  have hp : l.Perm l' := (List.perm_ext_iff_of_nodup (nd l h) (nd l' h')).2 hm
  refine List.Perm.eq_of_pairwise ?_ h h' hp
  intro a b _ _ hab hba
  have := Std.OrientedCmp.gt_of_lt hab
  rw [hba] at this
  cases this

end Set

section Map

variable {κ ν : Type} [Ord κ] [Std.TransOrd κ] [Std.LawfulEqOrd κ]

theorem mapGet_cons (k k' : κ) (v : ν) (m : List (κ × ν)) :
    mapGet k ((k', v) :: m) = if compare k k' = .eq then some v else mapGet k m := rfl

theorem mapGet_mapInsert (k k' : κ) (v : ν) (m : List (κ × ν)) :
    mapGet k' (mapInsert k v m) = if compare k' k = .eq then some v else mapGet k' m := by
  induction m with
  | nil => rfl
  | cons e m ih =>
    obtain ⟨k₀, v₀⟩ := e
    unfold mapInsert
    cases hc : compare k k₀ with
    | lt => simp [mapGet_cons]
    | eq =>
      have : k = k₀ := Std.LawfulEqOrd.eq_of_compare hc
      subst this
      simp only [mapGet_cons]
      split <;> rfl
    | gt =>
      simp only [mapGet_cons, ih]
      by_cases h1 : compare k' k₀ = .eq
      · have : k' = k₀ := Std.LawfulEqOrd.eq_of_compare h1
        subst this
        have : compare k' k ≠ .eq := by
          intro h2
          have : k' = k := Std.LawfulEqOrd.eq_of_compare h2
          subst this
          rw [h1] at hc; cases hc
        simp [h1, this]
      · simp [h1]

theorem mapInsert_keys_sub (k : κ) (v : ν) (m : List (κ × ν)) :
    ∀ e ∈ mapInsert k v m, compare e.1 k = .eq ∨ e ∈ m := by
  induction m with
  | nil => intro e he; simp only [mapInsert, List.mem_singleton] at he; subst he; exact .inl Std.ReflCmp.compare_self
  | cons e₀ m ih =>
    obtain ⟨k₀, v₀⟩ := e₀
    intro e he
    unfold mapInsert at he
    cases hc : compare k k₀ with
    | lt =>
      rw [hc] at he
      rcases List.mem_cons.1 he with rfl | he
      · exact .inl Std.ReflCmp.compare_self
      · exact .inr he
    | eq =>
      rw [hc] at he
      rcases List.mem_cons.1 he with rfl | he
      · exact .inl (Std.OrientedCmp.eq_symm hc)
      · exact .inr (.tail _ he)
    | gt =>
      rw [hc] at he
      rcases List.mem_cons.1 he with rfl | he
      · exact .inr (.head _)
      · rcases ih e he with h | h
        · exact .inl h
        · exact .inr (.tail _ h)

theorem mapInsert_sorted {k : κ} {v : ν} {m : List (κ × ν)} (h : MapSorted m) :
    MapSorted (mapInsert k v m) := by
  induction m with
  | nil => simp [mapInsert, MapSorted]
  | cons e₀ m ih =>
    obtain ⟨k₀, v₀⟩ := e₀
    unfold MapSorted at *
    rw [List.pairwise_cons] at h
    unfold mapInsert
    cases hc : compare k k₀ with
    | lt =>
      refine List.pairwise_cons.2 ⟨?_, List.pairwise_cons.2 h⟩
      intro e he
      rcases List.mem_cons.1 he with rfl | he
      · exact hc
      · exact Std.TransCmp.lt_trans hc (h.1 e he)
    | eq => exact List.pairwise_cons.2 h
    | gt =>
      refine List.pairwise_cons.2 ⟨?_, ih h.2⟩
      intro e he
      rcases mapInsert_keys_sub k v m e he with he | he
      · have : e.1 = k := Std.LawfulEqOrd.eq_of_compare he
        rw [this]
        exact Std.OrientedCmp.lt_of_gt hc
      · exact h.1 e he

theorem mapGet_eq_some_mem {k : κ} {v : ν} {m : List (κ × ν)} (h : mapGet k m = some v) :
    (k, v) ∈ m := by
  induction m with
  | nil => cases h
  | cons e m ih =>
    obtain ⟨k₀, v₀⟩ := e
    rw [mapGet_cons] at h
    split at h
    · rename_i hc
      cases h
      have : k = k₀ := Std.LawfulEqOrd.eq_of_compare hc
      rw [this]; exact .head _
    · exact .tail _ (ih h)

theorem mapGet_eq_some {k : κ} {v : ν} {m : List (κ × ν)} (hs : MapSorted m) :
    mapGet k m = some v ↔ (k, v) ∈ m := by
  refine ⟨mapGet_eq_some_mem, ?_⟩
  intro h
  induction m with
  | nil => cases h
  | cons e m ih =>
    obtain ⟨k₀, v₀⟩ := e
    unfold MapSorted at *
    rw [List.pairwise_cons] at hs
    rw [mapGet_cons]
    rcases List.mem_cons.1 h with h | h
    · cases h
      rw [if_pos Std.ReflCmp.compare_self]
    · have := hs.1 _ h
      have hne : compare k k₀ ≠ .eq := by
        intro he
        have he' := Std.OrientedCmp.eq_symm he
        rw [he'] at this
        cases this
      rw [if_neg hne]
      exact ih hs.2 h

theorem mapGet_eq_none {k : κ} {m : List (κ × ν)} :
    mapGet k m = none ↔ ∀ e ∈ m, e.1 ≠ k := by
  induction m with
  | nil => simp [mapGet]
  | cons e m ih =>
    obtain ⟨k₀, v₀⟩ := e
    rw [mapGet_cons]
    by_cases hc : compare k k₀ = .eq
    · have : k = k₀ := Std.LawfulEqOrd.eq_of_compare hc
      subst this
      simp
    · have : k₀ ≠ k := by rintro rfl; exact hc Std.ReflCmp.compare_self
      simp [hc, ih, this]

/-- Sorted maps with the same look-ups are equal. -/
theorem MapSorted.ext {m m' : List (κ × ν)} (h : MapSorted m) (h' : MapSorted m')
    (hg : ∀ k, mapGet k m = mapGet k m') : m = m' := by
  have nd : ∀ l : List (κ × ν), MapSorted l → l.Nodup := by
    intro l hl
    exact List.Pairwise.imp (fun {a b} hab => by
      rintro rfl; rw [Std.ReflCmp.compare_self (cmp := (compare : κ → κ → Ordering))] at hab; cases hab) hl
  have hp : m.Perm m' := (List.perm_ext_iff_of_nodup (nd m h) (nd m' h')).2 (by
    rintro ⟨k, v⟩
    rw [← mapGet_eq_some h, ← mapGet_eq_some h', hg])
  refine List.Perm.eq_of_pairwise ?_ h h' hp
  intro a b _ _ hab hba
  have := Std.OrientedCmp.gt_of_lt hab
  rw [hba] at this
  cases this

/-- The last entry at or before a key. -/
theorem mapLastLe_eq_some {k : κ} {e : κ × ν} {m : List (κ × ν)} (hs : MapSorted m) :
    mapLastLe k m = some e ↔ e ∈ m ∧ (compare e.1 k).isLE = true ∧
      ∀ e' ∈ m, (compare e'.1 k).isLE = true → (compare e'.1 e.1).isLE = true := by
  unfold mapLastLe
  have hf : MapSorted (m.filter (fun e => (compare e.1 k).isLE)) := List.Pairwise.filter _ hs
  have hmem : ∀ x, x ∈ m.filter (fun e => (compare e.1 k).isLE) ↔ x ∈ m ∧ (compare x.1 k).isLE = true :=
    fun x => List.mem_filter
  generalize m.filter (fun e => (compare e.1 k).isLE) = l at hf hmem
  have hlast : ∀ e, l.getLast? = some e → ∀ e' ∈ l, (compare e'.1 e.1).isLE = true := by
    intro e he e' he'
    obtain ⟨pre, rfl⟩ := List.getLast?_eq_some_iff.1 he
    rw [List.mem_append] at he'
    rcases he' with he' | he'
    · have := (List.pairwise_append.1 hf).2.2 e' he' e (by simp)
      rw [this]; rfl
    · simp only [List.mem_singleton] at he'
      subst he'
      rw [Std.ReflCmp.compare_self (cmp := (compare : κ → κ → Ordering))]; rfl
  constructor
  · intro h
    have h1 := (hmem e).1 (List.mem_of_getLast? h)
    exact ⟨h1.1, h1.2, fun e' he' hle => hlast e h e' ((hmem e').2 ⟨he', hle⟩)⟩
  · rintro ⟨h1, h2, h3⟩
    have hel := (hmem e).2 ⟨h1, h2⟩
    cases hl : l.getLast? with
    | none => rw [List.getLast?_eq_none_iff] at hl; rw [hl] at hel; cases hel
    | some e₁ =>
      have h4 := hlast e₁ hl e hel
      have h5 := List.mem_of_getLast? hl
      have h6 := h3 e₁ ((hmem e₁).1 h5).1 ((hmem e₁).1 h5).2
      have hk : e.1 = e₁.1 := by
        apply Std.LawfulEqOrd.eq_of_compare
        cases hc : compare e.1 e₁.1 with
        | eq => rfl
        | lt =>
          rw [Std.OrientedCmp.gt_of_lt hc] at h6; cases h6
        | gt => rw [hc] at h4; cases h4
      have g1 := (mapGet_eq_some (k := e.1) (v := e.2) hf).2 hel
      have g2 := (mapGet_eq_some (k := e₁.1) (v := e₁.2) hf).2 h5
      rw [← hk, g1] at g2
      have : e.2 = e₁.2 := by simpa using g2
      rw [show e₁ = e from by cases e; cases e₁; simp_all]

theorem mapLastLe_eq_none {k : κ} {m : List (κ × ν)} :
    mapLastLe k m = none ↔ ∀ e ∈ m, compare e.1 k = .gt := by
  unfold mapLastLe
  rw [List.getLast?_eq_none_iff, List.filter_eq_nil_iff]
  constructor
  · intro h e he
    have := h e he
    cases hc : compare e.1 k <;> simp [hc] at this ⊢
  · intro h e he
    rw [h e he]; decide

end Map

end Hudi
