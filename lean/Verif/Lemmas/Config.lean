import Verif.Lemmas.HMap
import Verif.Model.Config

/-! # Lemmas about option maps -/

namespace Hudi

theorem hmGet_append_single {κ ν : Type} [DecidableEq κ] (k : κ) (l : List (κ × ν)) (x : κ × ν) :
    hmGet k (l ++ [x]) = (hmGet k l).or (if k = x.1 then some x.2 else none) := by
  induction l with
  | nil => simp [hmGet]
  | cons y l ih =>
    obtain ⟨k', v'⟩ := y
    simp only [List.cons_append, hmGet, ih]
    split <;> simp

theorem splitHudi_aux (k : Str) (all : List (Str × Str)) (acc : Opts × Opts) :
    let r := all.foldl
      (fun (acc : Opts × Opts) e =>
        if startsWith c!"hoodie." e.1 then (hmInsert e.1 e.2 acc.1, acc.2)
        else (acc.1, hmInsert e.1 e.2 acc.2)) acc
    hmGet k r.1 = (if startsWith c!"hoodie." k then hmGet k all.reverse else none).or (hmGet k acc.1) ∧
    hmGet k r.2 = (if startsWith c!"hoodie." k then none else hmGet k all.reverse).or (hmGet k acc.2) := by
  induction all generalizing acc with
  | nil => simp [hmGet]
  | cons e all ih =>
    simp only [List.foldl_cons, List.reverse_cons]
    obtain ⟨h1, h2⟩ := ih (if startsWith c!"hoodie." e.1 = true then (hmInsert e.1 e.2 acc.1, acc.2)
      else (acc.1, hmInsert e.1 e.2 acc.2))
    rw [h1, h2, hmGet_append_single]
    by_cases hp : startsWith c!"hoodie." e.1 = true
    · rw [if_pos hp]
      by_cases hk : k = e.1
      · subst hk
        simp only [hp, if_true, hmGet_hmInsert, if_true]
        cases hmGet e.1 all.reverse <;> simp
      · simp only [hmGet_hmInsert, hk, if_false]
        by_cases hpk : startsWith c!"hoodie." k = true <;> simp [hpk]
    · rw [if_neg hp]
      by_cases hk : k = e.1
      · subst hk
        simp only [hp, hmGet_hmInsert, if_true]
        cases hmGet e.1 all.reverse <;> simp
      · simp only [hmGet_hmInsert, hk, if_false]
        by_cases hpk : startsWith c!"hoodie." k = true <;> simp [hpk]

/-- The hudi options of a split. -/
theorem hmGet_splitHudi_fst (k : Str) (all : List (Str × Str)) :
    hmGet k (splitHudiOptions all).1 =
      if startsWith c!"hoodie." k then hmGet k all.reverse else none := by
  have := (splitHudi_aux k all ([], [])).1
  simp only [hmGet, Option.or_none] at this
  exact this

/-- The other options of a split. -/
theorem hmGet_splitHudi_snd (k : Str) (all : List (Str × Str)) :
    hmGet k (splitHudiOptions all).2 =
      if startsWith c!"hoodie." k then none else hmGet k all.reverse := by
  have := (splitHudi_aux k all ([], [])).2
  simp only [hmGet, Option.or_none] at this
  exact this

theorem splitHudi_nodup (all : List (Str × Str)) :
    HmNodup (splitHudiOptions all).1 ∧ HmNodup (splitHudiOptions all).2 := by
  unfold splitHudiOptions
  have : ∀ acc : Opts × Opts, HmNodup acc.1 → HmNodup acc.2 →
      HmNodup (all.foldl (fun (acc : Opts × Opts) e =>
        if startsWith c!"hoodie." e.1 then (hmInsert e.1 e.2 acc.1, acc.2)
        else (acc.1, hmInsert e.1 e.2 acc.2)) acc).1 ∧
      HmNodup (all.foldl (fun (acc : Opts × Opts) e =>
        if startsWith c!"hoodie." e.1 then (hmInsert e.1 e.2 acc.1, acc.2)
        else (acc.1, hmInsert e.1 e.2 acc.2)) acc).2 := by
    induction all with
    | nil => exact fun acc h1 h2 => ⟨h1, h2⟩
    | cons e all ih =>
      intro acc h1 h2
      simp only [List.foldl_cons]
      split
      · exact ih _ (hmInsert_nodup h1) h2
      · exact ih _ h1 (hmInsert_nodup h2)
  exact this _ (by simp [HmNodup]) (by simp [HmNodup])

theorem hmGet_reverse_of_nodup {κ ν : Type} [DecidableEq κ] {m : List (κ × ν)} (h : HmNodup m) (k : κ) :
    hmGet k m.reverse = hmGet k m := by
  cases hg : hmGet k m with
  | none =>
    rw [hmGet_eq_none] at hg ⊢
    simpa using hg
  | some v => exact (hmGet_eq_some h.reverse).2 (List.mem_reverse.2 (hmGet_mem hg))

end Hudi
