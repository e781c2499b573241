import Verif.Spec.Merge
import Verif.Lemmas.HMap
import Verif.Lemmas.Order
import Verif.Props.Filters

/-! # Lemmas: merging -/

namespace Hudi
open Spec

theorem indexOf_zip {n : Str} {schema : Schema} {row : List Cell} {i : Nat}
    (h : schema.indexOf n = some i) (hl : row.length = schema.length) :
    cellOf schema n row = (row[i]?).getD none := by
  unfold cellOf
  induction schema generalizing row i with
  | nil => cases h
  | cons f fs ih =>
    match row with
    | [] => simp at hl
    | c :: cs =>
      unfold Schema.indexOf at h
      rw [List.zip_cons_cons]
      split at h
      · rename_i hf
        cases h
        rw [List.find?_cons_of_pos (by simpa using hf)]
        rfl
      · rename_i hf
        rw [List.find?_cons_of_neg (by simpa using hf)]
        cases hj : Schema.indexOf n fs with
        | none => rw [hj] at h; cases h
        | some j =>
          rw [hj] at h; cases h
          exact ih hj (by simpa using hl)

theorem indexOf_isSome {n : Str} {schema : Schema} :
    (∃ i, schema.indexOf n = some i) ↔ ∃ f ∈ schema, f.name = n := by
  induction schema with
  | nil => simp [Schema.indexOf]
  | cons f fs ih =>
    unfold Schema.indexOf
    split
    · rename_i hf; exact ⟨fun _ => ⟨f, by simp, hf⟩, fun _ => ⟨0, rfl⟩⟩
    · rename_i hf
      constructor
      · rintro ⟨i, hi⟩
        cases hj : Schema.indexOf n fs with
        | none => rw [hj] at hi; cases hi
        | some j =>
          obtain ⟨g, hg, he⟩ := ih.1 ⟨j, hj⟩
          exact ⟨g, by simp [hg], he⟩
      · rintro ⟨g, hg, he⟩
        rcases List.mem_cons.1 hg with rfl | hg
        · exact absurd he hf
        · obtain ⟨j, hj⟩ := ih.2 ⟨g, hg, he⟩
          exact ⟨j + 1, by rw [hj]; rfl⟩

theorem indexOf_find {n : Str} {schema : Schema} {i : Nat} (h : schema.indexOf n = some i) :
    schema[i]? = schema.find? (fun f => decide (f.name = n)) := by
  induction schema generalizing i with
  | nil => cases h
  | cons f fs ih =>
    unfold Schema.indexOf at h
    split at h
    · rename_i hf
      cases h
      rw [List.find?_cons_of_pos (by simpa using hf)]; rfl
    · rename_i hf
      rw [List.find?_cons_of_neg (by simpa using hf)]
      cases hj : Schema.indexOf n fs with
      | none => rw [hj] at h; cases h
      | some j => rw [hj] at h; cases h; exact ih hj

/-! ## The order of the row format -/

instance rowCmp_trans (A : Arrow) : Std.TransCmp (Val.rowCmp A) where
  eq_swap := by
    intro a b
    have := A.cmpOther_trans
    cases a <;> cases b <;> simp only [Val.rowCmp] <;> first
      | exact Std.OrientedCmp.eq_swap
      | rfl
  isLE_trans := by
    intro a b c
    have := A.cmpOther_trans
    cases a <;> cases b <;> cases c <;> simp only [Val.rowCmp, Val.rank] <;> first
      | exact Std.TransCmp.isLE_trans
      | (intro h1 h2; first | rfl | exact absurd h1 (by decide) | exact absurd h2 (by decide))

instance cellCmp_trans (A : Arrow) : Std.TransCmp (Cell.rowCmp A) where
  eq_swap := by
    intro a b
    cases a <;> cases b <;> simp only [Cell.rowCmp] <;> first
      | exact Std.OrientedCmp.eq_swap
      | rfl
  isLE_trans := by
    intro a b c
    cases a <;> cases b <;> cases c <;> simp only [Cell.rowCmp] <;> first
      | exact Std.TransCmp.isLE_trans
      | (intro h1 h2; first | rfl | exact absurd h1 (by decide) | exact absurd h2 (by decide))

theorem sortRow_le {A : Arrow} {a b : SortRow} : (SortRow.cmp A a b).isLE = true ↔
    (Cell.rowCmp A a.1 b.1).isLE = true ∧
      ((Cell.rowCmp A b.1 a.1).isLE = true → (Cell.rowCmp A a.2 b.2).isLE = true) := by
  unfold SortRow.cmp
  have h := Std.OrientedCmp.eq_swap (cmp := Cell.rowCmp A) (a := b.1) (b := a.1)
  rw [h]
  cases Cell.rowCmp A a.1 b.1 <;> simp [Ordering.then, Ordering.swap]

theorem sortRow_refl (A : Arrow) (a : SortRow) : (SortRow.cmp A a a).isLE = true := by
  rw [sortRow_le]
  have h : ∀ c, (Cell.rowCmp A c c).isLE = true := fun c => by
    have := Std.ReflCmp.compare_self (cmp := Cell.rowCmp A) (a := c)
    rw [this]; rfl
  exact ⟨h _, fun _ => h _⟩

theorem sortRow_trans (A : Arrow) : Std.TransCmp (SortRow.cmp A) where
  eq_swap := by
    intro a b
    unfold SortRow.cmp
    rw [Std.OrientedCmp.eq_swap (cmp := Cell.rowCmp A) (a := a.1),
      Std.OrientedCmp.eq_swap (cmp := Cell.rowCmp A) (a := a.2)]
    cases Cell.rowCmp A b.1 a.1 <;> rfl
  isLE_trans := by
    intro a b c h1 h2
    rw [sortRow_le] at *
    refine ⟨Std.TransCmp.isLE_trans h1.1 h2.1, fun h => ?_⟩
    exact Std.TransCmp.isLE_trans (h1.2 (Std.TransCmp.isLE_trans h2.1 h))
      (h2.2 (Std.TransCmp.isLE_trans h h1.1))

/-- On cells of one column the row format's order is the column's order. -/
theorem cellLE_iff (A : Arrow) (d : DType) (a b : Cell) (ha : ∀ v, a = some v → v.hasType d = true)
    (hb : ∀ v, b = some v → v.hasType d = true) :
    CellLE A a b ↔ (Cell.rowCmp A a b).isLE = true := by
  unfold CellLE
  cases a with
  | none => cases b <;> simp [Cell.rowCmp]
  | some v =>
    cases b with
    | none => simp [Cell.rowCmp]
    | some w =>
      have hv := ha v rfl
      have hw := hb w rfl
      have key : Related A c!"<=" v w ↔ (Val.rowCmp A v w).isLE = true := by
        have happ := apply_iff A ⟨⟨[], d, true⟩, .lte, w⟩ v
        have hs : v.cmp A w = some (Val.rowCmp A v w) := by
          cases v <;> cases w <;> cases d <;>
            first | rfl | (revert hv hw; simp [Val.hasType])
        have := happ ((Val.rowCmp A v w).isLE)
        rw [show (SFilter.apply A ⟨⟨[], d, true⟩, .lte, w⟩ v) = .ok ((Val.rowCmp A v w).isLE) by
          unfold SFilter.apply; rw [hs]; rfl] at this
        exact ((this.1 rfl).2).symm
      simp only [reduceCtorEq, false_or, Option.some.injEq]
      constructor
      · rintro ⟨v', w', rfl, rfl, h⟩; exact key.1 h
      · intro h; exact ⟨v, w, rfl, rfl, key.2 h⟩

/-! ## The loop over the sorted indices -/

theorem latestIndices_get (keys : List Str) (idx : List Nat) (m : List (Str × Nat)) (k : Str) :
    hmGet k (idx.foldl (fun m i => hmInsertIfAbsent ((keys[i]?).getD []) i m) m) =
      (hmGet k m).or (idx.find? (fun i => decide ((keys[i]?).getD [] = k))) := by
  induction idx generalizing m with
  | nil => simp
  | cons i is ih =>
    rw [List.foldl_cons, ih]
    by_cases hk : (keys[i]?).getD [] = k
    · rw [List.find?_cons_of_pos (by simpa using hk)]
      unfold hmInsertIfAbsent hmContains
      rw [hk]
      cases hg : hmGet k m with
      | some v => simp [hg]
      | none => simp [hmGet_hmInsert]
    · rw [List.find?_cons_of_neg (by simpa using hk)]
      congr 1
      unfold hmInsertIfAbsent
      split
      · rfl
      · rw [hmGet_hmInsert, if_neg (fun h => hk h.symm)]

theorem latestIndices_nodup (keys : List Str) (idx : List Nat) :
    HmNodup (latestIndices keys idx) := by
  unfold latestIndices
  have : ∀ m : List (Str × Nat), HmNodup m →
      HmNodup (idx.foldl (fun m i => hmInsertIfAbsent ((keys[i]?).getD []) i m) m) := by
    induction idx with
    | nil => exact fun m h => h
    | cons i is ih =>
      intro m h
      rw [List.foldl_cons]
      refine ih _ ?_
      unfold hmInsertIfAbsent
      split
      · exact h
      · exact hmInsert_nodup h
  exact this [] (by simp [HmNodup])

theorem mem_latestIndices {keys : List Str} {idx : List Nat} {k : Str} {i : Nat} :
    (k, i) ∈ latestIndices keys idx ↔
      idx.find? (fun i => decide ((keys[i]?).getD [] = k)) = some i := by
  rw [← hmGet_eq_some (latestIndices_nodup keys idx)]
  unfold latestIndices
  rw [latestIndices_get]
  simp [hmGet]

theorem lexsortDesc_perm (A : Arrow) (M : MergeEnv A) (a b : List Cell) :
    (lexsortDesc A M a b).Perm (List.range (a.zip b).length) := by
  unfold lexsortDesc
  refine ((M.sort_perm _).map _).trans ?_
  rw [List.map_map]
  have : (a.zip b).zipIdx.map (Prod.fst ∘ fun e => (e.2, e.1)) = List.range (a.zip b).length := by
    rw [show (Prod.fst ∘ fun e : SortRow × Nat => (e.2, e.1)) = Prod.snd from rfl]
    rw [List.zipIdx_map_snd, List.range_eq_range']
  rw [this]

theorem lexsortDesc_sorted (A : Arrow) (M : MergeEnv A) (a b : List Cell) :
    (lexsortDesc A M a b).Pairwise (fun i j => ∀ x y, (a.zip b)[i]? = some x → (a.zip b)[j]? = some y →
      (SortRow.cmp A y x).isLE = true) := by
  unfold lexsortDesc
  rw [List.pairwise_map]
  refine List.Pairwise.imp_of_mem ?_ (M.sort_sorted _)
  intro p q hp hq h x y hx hy
  have hmem : ∀ p ∈ M.sort ((a.zip b).zipIdx.map (fun e => (e.2, e.1))),
      (a.zip b)[p.1]? = some p.2 := by
    intro p hp
    rw [(M.sort_perm _).mem_iff, List.mem_map] at hp
    obtain ⟨e, he, rfl⟩ := hp
    exact List.mem_zipIdx_iff_getElem?.1 he
  have h1 := hmem p hp
  have h2 := hmem q hq
  rw [hx] at h1; rw [hy] at h2
  cases h1; cases h2
  exact h

end Hudi
