import Verif.Lemmas.Str
import Verif.Spec.Store

/-! Lemmas about paths and trees. -/

namespace Hudi

open Spec

theorem urlSegment_normal {n : Str} (h : NormalName n) : urlSegment n = n := by
  unfold urlSegment
  rw [List.filter_eq_self]
  intro c hc
  have h1 := (h.2.2.2.2 c hc).1
  unfold urlDrops
  have : ∀ d : Char, d.toNat < 32 → c ≠ d := by
    rintro d hd rfl
    omega
  simp [this '\t' (by decide), this '\n' (by decide), this '\r' (by decide)]

theorem map_urlSegment {ns : List Str} (h : ∀ n ∈ ns, NormalName n) : ns.map urlSegment = ns := by
  induction ns with
  | nil => rfl
  | cons a as ih =>
    rw [List.map_cons, urlSegment_normal (h a (by simp)), ih (fun n hn => h n (by simp [hn]))]

theorem pathSegs_joinWith {ns : List Str} (h : ∀ n ∈ ns, NormalName n) :
    pathSegs (joinWith '/' ns) = ns := by
  unfold pathSegs
  cases ns with
  | nil => rfl
  | cons a as =>
    rw [splitAll_joinWith (by simp) (fun p hp => (h p hp).2.1), map_urlSegment h, List.filter_eq_self]
    intro p hp
    have := h p hp
    simp [this.1, this.2.2.1, this.2.2.2.1]

theorem Spec.TreeWF.sub {t : Tree} (h : TreeWF t) (n : Str) : TreeWF (t.sub n) := by
  induction t with
  | nil => trivial
  | file m s c rest ih => exact ih h.2.2
  | dir m st rest ih1 ih2 =>
    unfold Tree.sub
    split
    · exact h.2.2.1
    · exact ih2 h.2.2.2

theorem Spec.TreeWF.at {t : Tree} (h : TreeWF t) (p : List Str) : TreeWF (t.at p) := by
  induction p generalizing t with
  | nil => exact h
  | cons a as ih => exact ih (h.sub a)

theorem Spec.TreeWF.files_normal {t : Tree} (h : TreeWF t) : ∀ e ∈ t.files, NormalName e.1 := by
  induction t with
  | nil => intro e he; cases he
  | file m s c rest ih =>
    intro e he
    rcases List.mem_cons.1 he with rfl | he
    · exact h.1
    · exact ih h.2.2 e he
  | dir m st rest _ ih2 => exact ih2 h.2.2.2

theorem Spec.TreeWF.dirs_normal {t : Tree} (h : TreeWF t) : ∀ e ∈ t.dirs, NormalName e := by
  induction t with
  | nil => intro e he; cases he
  | file m s c rest ih => exact ih h.2.2
  | dir m st rest _ ih2 =>
    intro e he
    rcases List.mem_cons.1 he with rfl | he
    · exact h.1
    · exact ih2 h.2.2.2 e he

theorem files_sub_names {t : Tree} : ∀ e ∈ t.files, e.1 ∈ names t := by
  induction t with
  | nil => intro e he; cases he
  | file m s c rest ih =>
    intro e he
    rcases List.mem_cons.1 he with rfl | he
    · exact .head _
    · exact .tail _ (ih e he)
  | dir m st rest _ ih2 => exact fun e he => .tail _ (ih2 e he)

theorem dirs_sub_names {t : Tree} : ∀ e ∈ t.dirs, e ∈ names t := by
  induction t with
  | nil => intro e he; cases he
  | file m s c rest ih => exact fun e he => .tail _ (ih e he)
  | dir m st rest _ ih2 =>
    intro e he
    rcases List.mem_cons.1 he with rfl | he
    · exact .head _
    · exact .tail _ (ih2 e he)

theorem Spec.TreeWF.files_nodup {t : Tree} (h : TreeWF t) : (t.files.map Prod.fst).Nodup := by
  induction t with
  | nil => exact .nil
  | file m s c rest ih =>
    refine List.nodup_cons.2 ⟨?_, ih h.2.2⟩
    intro hm
    obtain ⟨e, he, rfl⟩ := List.mem_map.1 hm
    exact h.2.1 (files_sub_names e he)
  | dir m st rest _ ih2 => exact ih2 h.2.2.2

theorem Spec.TreeWF.dirs_nodup {t : Tree} (h : TreeWF t) : t.dirs.Nodup := by
  induction t with
  | nil => exact .nil
  | file m s c rest ih => exact ih h.2.2
  | dir m st rest _ ih2 =>
    exact List.nodup_cons.2 ⟨fun hm => h.2.1 (dirs_sub_names _ hm), ih2 h.2.2.2⟩

end Hudi
