import Verif.Base.HMap
import Mathlib.Data.List.Nodup

/-! # Lemmas on hash maps as association lists -/

namespace Hudi

variable {κ ν : Type} [DecidableEq κ]

theorem hmGet_mem {k : κ} {v : ν} {m : List (κ × ν)} (h : hmGet k m = some v) : (k, v) ∈ m := by
  induction m with
  | nil => cases h
  | cons e m ih =>
    obtain ⟨k', v'⟩ := e
    simp only [hmGet] at h
    split at h
    · rename_i hk
      injection h with h
      simp [hk, h]
    · exact List.mem_cons_of_mem _ (ih h)

theorem hmGet_eq_none {k : κ} {m : List (κ × ν)} : hmGet k m = none ↔ k ∉ m.map Prod.fst := by
  induction m with
  | nil => simp [hmGet]
  | cons e m ih =>
    obtain ⟨k', v'⟩ := e
    simp only [hmGet, List.map_cons, List.mem_cons, not_or]
    split
    · rename_i hk; simp [hk]
    · rename_i hk; simp [hk, ih]

theorem hmGet_eq_some {k : κ} {v : ν} {m : List (κ × ν)} (hn : HmNodup m) :
    hmGet k m = some v ↔ (k, v) ∈ m := by
  refine ⟨hmGet_mem, ?_⟩
  intro h
  induction m with
  | nil => cases h
  | cons e m ih =>
    obtain ⟨k', v'⟩ := e
    simp only [HmNodup, List.map_cons, List.nodup_cons] at hn
    simp only [hmGet]
    rcases List.mem_cons.1 h with h | h
    · injection h with h1 h2; simp [h1, h2]
    · have : k ≠ k' := by
        intro hk
        exact hn.1 (hk ▸ List.mem_map.2 ⟨_, h, rfl⟩)
      simp [this, ih hn.2 h]

theorem hmGet_hmInsert (k k' : κ) (v : ν) (m : List (κ × ν)) :
    hmGet k (hmInsert k' v m) = if k = k' then some v else hmGet k m := by
  induction m with
  | nil => simp [hmInsert, hmGet]
  | cons e m ih =>
    obtain ⟨k₀, v₀⟩ := e
    simp only [hmInsert]
    by_cases h : k' = k₀
    · subst h
      simp only [if_true, hmGet]
      split <;> rfl
    · simp only [h, if_false, hmGet, ih]
      by_cases h1 : k = k₀
      · subst h1
        simp [Ne.symm h]
      · simp [h1]

theorem hmInsert_keys (k : κ) (v : ν) (m : List (κ × ν)) (x : κ) :
    x ∈ (hmInsert k v m).map Prod.fst ↔ x = k ∨ x ∈ m.map Prod.fst := by
  by_cases hx : x = k
  · simp only [hx, true_or, iff_true]
    by_contra h
    have := hmGet_eq_none.2 h
    rw [hmGet_hmInsert] at this
    simp at this
  · simp only [hx, false_or]
    rw [← not_iff_not, ← hmGet_eq_none, ← hmGet_eq_none, hmGet_hmInsert]
    simp [hx]

theorem hmInsert_nodup {k : κ} {v : ν} {m : List (κ × ν)} (h : HmNodup m) :
    HmNodup (hmInsert k v m) := by
  induction m with
  | nil => simp [hmInsert, HmNodup]
  | cons e m ih =>
    obtain ⟨k', v'⟩ := e
    simp only [HmNodup, List.map_cons, List.nodup_cons] at h
    simp only [hmInsert]
    split
    · simpa [HmNodup] using h
    · rename_i hk
      simp only [HmNodup, List.map_cons, List.nodup_cons]
      refine ⟨?_, ih h.2⟩
      rw [hmInsert_keys]
      simp [Ne.symm hk, h.1]

theorem hmExtend_nodup {m src : List (κ × ν)} (h : HmNodup m) : HmNodup (hmExtend m src) := by
  induction src generalizing m with
  | nil => exact h
  | cons e src ih => exact ih (hmInsert_nodup h)

theorem hmOfList_nodup (src : List (κ × ν)) : HmNodup (hmOfList src) :=
  hmExtend_nodup (by simp [HmNodup])

/-- After `extend`, a key has the last value given for it, or else its old value. -/
theorem hmGet_hmExtend (k : κ) (m src : List (κ × ν)) :
    hmGet k (hmExtend m src) = (hmGet k src.reverse).or (hmGet k m) := by
  induction src generalizing m with
  | nil => simp [hmExtend, hmGet]
  | cons e src ih =>
    have key : ∀ (l : List (κ × ν)) (x : κ × ν),
        hmGet k (l ++ [x]) = (hmGet k l).or (if k = x.1 then some x.2 else none) := by
      intro l x
      induction l with
      | nil => simp [hmGet]
      | cons y l ihl =>
        obtain ⟨k', v'⟩ := y
        simp only [List.cons_append, hmGet, ihl]
        split <;> simp
    have := ih (hmInsert e.1 e.2 m)
    simp only [hmExtend, List.foldl_cons] at this ⊢
    rw [this, hmGet_hmInsert, List.reverse_cons, key]
    cases hmGet k src.reverse with
    | some v => simp
    | none => by_cases h : k = e.1 <;> simp [h]

theorem hmGet_hmOfList (k : κ) (src : List (κ × ν)) :
    hmGet k (hmOfList src) = hmGet k src.reverse := by
  simp [hmOfList, hmGet_hmExtend, hmGet]

theorem HmNodup.reverse {m : List (κ × ν)} (h : HmNodup m) : HmNodup m.reverse := by
  unfold HmNodup at *
  rw [List.map_reverse]
  exact List.nodup_reverse.2 h

theorem hmGet_hmOfList_of_nodup {k : κ} {v : ν} {src : List (κ × ν)} (hn : HmNodup src) :
    hmGet k (hmOfList src) = some v ↔ (k, v) ∈ src := by
  rw [hmGet_hmOfList, hmGet_eq_some hn.reverse, List.mem_reverse]

theorem mem_hmOfList_sub {e : κ × ν} {src : List (κ × ν)} (h : e ∈ hmOfList src) : e ∈ src := by
  have : hmGet e.1 (hmOfList src) = some e.2 := (hmGet_eq_some (hmOfList_nodup src)).2 h
  rw [hmGet_hmOfList] at this
  exact List.mem_reverse.1 (hmGet_mem this)

theorem hmGet_hmPush (k k' : κ) (v : ν) (m : List (κ × List ν)) :
    hmGet k (hmPush k' v m) =
      if k = k' then some ((hmGet k m).getD [] ++ [v]) else hmGet k m := by
  unfold hmPush
  rw [hmGet_hmInsert]
  split
  · rename_i h; rw [h]
  · rfl

theorem hmPush_nodup {k : κ} {v : ν} {m : List (κ × List ν)} (h : HmNodup m) :
    HmNodup (hmPush k v m) := hmInsert_nodup h

theorem hmInsert_new {k : κ} {v : ν} {m : List (κ × ν)} (h : k ∉ m.map Prod.fst) :
    hmInsert k v m = m ++ [(k, v)] := by
  induction m with
  | nil => rfl
  | cons e m ih =>
    obtain ⟨k', v'⟩ := e
    simp only [List.map_cons, List.mem_cons, not_or] at h
    simp only [hmInsert, h.1, if_false, ih h.2, List.cons_append]

theorem hmExtend_disjoint {m src : List (κ × ν)} (h : HmNodup (m ++ src)) :
    hmExtend m src = m ++ src := by
  induction src generalizing m with
  | nil => simp [hmExtend]
  | cons e src ih =>
    have hn : e.1 ∉ m.map Prod.fst := by
      unfold HmNodup at h
      rw [List.map_append, List.map_cons, List.nodup_append] at h
      intro hm
      exact h.2.2 _ hm _ List.mem_cons_self rfl
    simp only [hmExtend, List.foldl_cons]
    rw [hmInsert_new hn]
    have := ih (m := m ++ [(e.1, e.2)]) (by simpa using h)
    simp only [hmExtend] at this
    rw [this]; simp

theorem hmOfList_eq {src : List (κ × ν)} (h : HmNodup src) : hmOfList src = src := by
  unfold hmOfList
  rw [hmExtend_disjoint (by simpa using h)]
  rfl

theorem hmOfList_length {src : List (κ × ν)} (h : HmNodup src) :
    (hmOfList src).length = src.length := by rw [hmOfList_eq h]

end Hudi
