import Verif.Lemmas.Store
import Verif.Lemmas.Listing
import Verif.Lemmas.Lists
import Mathlib.Tactic.Common

/-! # Lemmas: leaf directories -/

namespace Hudi
open Spec

/-- The leaf directories below a directory, other than itself, as lists of names. -/
def walk : Tree → List (List Str)
  | .nil => []
  | .file _ _ _ rest => walk rest
  | .dir n sub rest =>
    (if sub.dirs = [] then [[n]] else (walk sub).map (n :: ·)) ++ walk rest

theorem at_append (p q : List Str) (t : Tree) : t.at (p ++ q) = (t.at p).at q := by
  induction p generalizing t with
  | nil => rfl
  | cons n p ih => exact ih _

theorem walk_ne_nil (t : Tree) : ∀ p ∈ walk t, p ≠ [] := by
  induction t with
  | nil => intro p hp; cases hp
  | file n s c rest ih => exact ih
  | dir n sub rest ih1 ih2 =>
    intro p hp
    unfold walk at hp
    rcases List.mem_append.1 hp with hp | hp
    · split at hp
      · rw [List.mem_singleton.1 hp]; simp
      · obtain ⟨q, _, rfl⟩ := List.mem_map.1 hp; simp
    · exact ih2 p hp

theorem sub_dir_eq {n : Str} {sub rest : Tree} : (Tree.dir n sub rest).sub n = sub := by
  simp [Tree.sub]

theorem walk_dir (n : Str) (sub rest : Tree) : walk (.dir n sub rest) =
    (if sub.dirs = [] then [[n]] else (walk sub).map (n :: ·)) ++ walk rest := rfl

theorem mem_walk_cons {t : Tree} (h : TreeWF t) (n : Str) (ns : List Str) :
    n :: ns ∈ walk t ↔ n ∈ t.dirs ∧
      (((t.sub n).dirs = [] ∧ ns = []) ∨ ((t.sub n).dirs ≠ [] ∧ ns ∈ walk (t.sub n))) := by
  induction t with
  | nil => simp [walk, Tree.dirs]
  | file m s c rest ih => exact ih h.2.2
  | dir m sub rest ih1 ih2 =>
    obtain ⟨h1, h2, h3, h4⟩ := h
    have hm : m ∉ rest.dirs := fun hc => h2 (dirs_sub_names m hc)
    rw [walk_dir, List.mem_append, ih2 h4]
    simp only [Tree.dirs, List.mem_cons, Tree.sub]
    by_cases hmn : m = n
    · subst hmn
      simp only [hm, false_and, or_false, true_or, true_and, if_true]
      split
      · rename_i hd; simp [hd]
      · rename_i hd; simp [hd]
    · rw [if_neg hmn]
      have hmn' : ¬ n = m := fun h => hmn h.symm
      simp only [hmn', false_or]
      constructor
      · rintro (h | h)
        · split at h
          · have := List.mem_singleton.1 h
            exact absurd (List.cons.inj this).1 hmn'
          · obtain ⟨q, _, hq⟩ := List.mem_map.1 h
            exact absurd (List.cons.inj hq).1 hmn
        · exact h
      · exact .inr

theorem mem_walk {t : Tree} (h : TreeWF t) (p : List Str) : p ∈ walk t ↔ p ≠ [] ∧ LeafDir p t := by
  induction p generalizing t with
  | nil => exact ⟨fun hp => absurd rfl (walk_ne_nil t _ hp), fun hp => absurd rfl hp.1⟩
  | cons n ns ih =>
    rw [mem_walk_cons h]
    unfold LeafDir
    simp only [ne_eq, reduceCtorEq, not_false_eq_true, true_and, IsDir, Tree.at]
    rw [ih (h.sub n)]
    cases ns with
    | nil => simp [IsDir, Tree.at]
    | cons m ms =>
      simp only [reduceCtorEq, and_false, ne_eq, not_false_eq_true, true_and, false_or, LeafDir]
      constructor
      · rintro ⟨h1, h2, h3, h4⟩; exact ⟨⟨h1, h3⟩, h4⟩
      · rintro ⟨⟨h1, h3⟩, h4⟩
        refine ⟨h1, ?_, h3, h4⟩
        intro hc
        have := h3.1
        rw [hc] at this; cases this

theorem walk_nodup {t : Tree} (h : TreeWF t) : (walk t).Nodup := by
  induction t with
  | nil => exact List.nodup_nil
  | file m s c rest ih => exact ih h.2.2
  | dir m sub rest ih1 ih2 =>
    obtain ⟨h1, h2, h3, h4⟩ := h
    unfold walk
    refine List.nodup_append.2 ⟨?_, ih2 h4, ?_⟩
    · split
      · exact List.nodup_singleton _
      · exact (ih1 h3).map (fun a b hab => (List.cons.inj hab).2)
    · have hm : m ∉ rest.dirs := fun hc => h2 (dirs_sub_names m hc)
      have hfirst : ∀ a ∈ (if sub.dirs = [] then [[m]] else (walk sub).map (m :: ·)),
          ∃ q, a = m :: q := by
        intro a ha
        split at ha
        · exact ⟨[], List.mem_singleton.1 ha⟩
        · obtain ⟨q, _, rfl⟩ := List.mem_map.1 ha; exact ⟨q, rfl⟩
      intro a ha b hb hab
      obtain ⟨q, rfl⟩ := hfirst a ha
      subst hab
      exact hm ((mem_walk_cons h4 m q).1 hb).1

theorem height_sub_lt {t : Tree} {n : Str} (h : n ∈ t.dirs) : (t.sub n).height + 1 ≤ t.height := by
  induction t with
  | nil => cases h
  | file m s c rest ih => exact ih h
  | dir m sub rest ih1 ih2 =>
    simp only [Tree.sub, Tree.height]
    split
    · omega
    · rename_i hne
      have : n ∈ rest.dirs := by
        rcases List.mem_cons.1 h with h | h
        · exact absurd h.symm hne
        · exact h
      have := ih2 this
      omega

theorem pathPush_join {ns : List Str} (hn : ns ≠ []) (h : ∀ n ∈ ns, NormalName n) {d : Str}
    (hd : NormalName d) : pathPush (joinWith '/' ns) d = joinWith '/' (ns ++ [d]) := by
  have hjoin : joinWith '/' (ns ++ [d]) = joinWith '/' ns ++ '/' :: d := by
    induction ns with
    | nil => exact absurd rfl hn
    | cons a as ih =>
      cases as with
      | nil => rfl
      | cons b bs =>
        have := ih (by simp) (fun n hn => h n (by simp [hn]))
        simp only [List.cons_append, joinWith] at *
        rw [this]; simp
  have hne : joinWith '/' ns ≠ [] := by
    cases ns with
    | nil => exact absurd rfl hn
    | cons a as =>
      have := (h a (by simp)).1
      cases as <;> simp [joinWith, this]
  have hlast : (joinWith '/' ns).getLast? ≠ some '/' := by
    clear hjoin hne
    induction ns with
    | nil => exact absurd rfl hn
    | cons a as ih =>
      cases as with
      | nil =>
        intro hc
        exact (h a (by simp)).2.1 (List.mem_of_getLast? hc)
      | cons b bs =>
        have := ih (by simp) (fun n hn => h n (by simp [hn]))
        intro hc
        apply this
        have e : joinWith '/' (a :: b :: bs) = (a ++ ['/']) ++ joinWith '/' (b :: bs) := by
          simp [joinWith]
        rw [e, List.getLast?_append] at hc
        cases hx : (joinWith '/' (b :: bs)).getLast? with
        | some y => rw [hx] at hc; exact hc
        | none =>
          have := List.getLast?_eq_none_iff.1 hx
          have hb := (h b (by simp)).1
          cases bs <;> simp [joinWith, hb] at this
  unfold pathPush
  cases d with
  | nil => exact absurd rfl hd.1
  | cons c cs =>
    have hc : c ≠ '/' := fun hc => hd.2.1 (by simp [hc])
    split
    · rename_i heq; exact absurd (List.cons.inj heq).1 hc
    · rw [if_neg (by simp [hne, hlast]), hjoin]
      simp

theorem mapL_map_ok {α β : Type} {f : α → Res β} {g : α → β} {l : List α}
    (h : ∀ x ∈ l, f x = .ok (g x)) : Res.mapL f l = .ok (l.map g) := by
  rw [Res.mapL_ok_iff, List.map_map]
  exact List.map_congr_left h

theorem flatten_walk {t : Tree} (h : TreeWF t) (f : List Str → Str) :
    ((t.dirs.map (fun d => if (t.sub d).dirs = [] then [f [d]]
      else (walk (t.sub d)).map (fun q => f (d :: q)))).flatten) = (walk t).map f := by
  induction t with
  | nil => rfl
  | file m s c rest ih => exact ih h.2.2
  | dir m sub rest ih1 ih2 =>
    obtain ⟨h1, h2, h3, h4⟩ := h
    have hm : m ∉ rest.dirs := fun hc => h2 (dirs_sub_names m hc)
    simp only [Tree.dirs, List.map_cons, List.flatten_cons, walk, List.map_append, Tree.sub, if_true]
    congr 1
    · split <;> simp
    · rw [← ih2 h4]
      congr 1
      refine List.map_congr_left (fun d hd => ?_)
      have : ¬ m = d := fun hc => hm (hc ▸ hd)
      simp [this]

theorem leafDirs_eq {t : Tree} (h : TreeWF t) (fuel : Nat) (ns : List Str) (hn : ns ≠ [])
    (hns : ∀ n ∈ ns, NormalName n) (hh : (t.at ns).height < fuel) :
    leafDirs fuel t (joinWith '/' ns) = .ok (if (t.at ns).dirs = [] then [joinWith '/' ns]
      else (walk (t.at ns)).map (fun q => joinWith '/' (ns ++ q))) := by
  induction fuel generalizing ns with
  | zero => omega
  | succ fuel ih =>
    have hseg : listDirs t (joinWith '/' ns) = (t.at ns).dirs := by
      unfold listDirs; rw [pathSegs_joinWith hns]
    unfold leafDirs
    rw [hseg]
    split
    · rename_i hd; rw [hd, if_pos rfl]
    · rename_i hd
      rw [if_neg (by simpa using hd)]
      have hwf := h.at ns
      have hone : ∀ d ∈ (t.at ns).dirs, leafDirs fuel t (pathPush (joinWith '/' ns) d) =
          .ok (if ((t.at ns).sub d).dirs = [] then [joinWith '/' (ns ++ [d])]
            else (walk ((t.at ns).sub d)).map (fun q => joinWith '/' (ns ++ d :: q))) := by
        intro d hdm
        have hdn := hwf.dirs_normal d hdm
        rw [pathPush_join hn hns hdn]
        have hat : t.at (ns ++ [d]) = (t.at ns).sub d := by rw [at_append]; rfl
        have := ih (ns ++ [d]) (by simp) (by
          intro n hm
          rcases List.mem_append.1 hm with hm | hm
          · exact hns n hm
          · rw [List.mem_singleton.1 hm]; exact hdn) (by
          rw [hat]
          have := height_sub_lt hdm
          omega)
        rw [this, hat]
        simp
      rw [mapL_map_ok hone]
      show Res.ok _ = Res.ok _
      congr 1
      exact flatten_walk hwf (fun q => joinWith '/' (ns ++ q))

end Hudi
