import Verif.Model.Timeline

/-!
# Concrete environments and tables

Used by the examples that show the hypotheses of the theorems to be satisfiable.
-/

namespace Hudi.Demo

theorem le_trans' (a b c : Instant) (h1 : Instant.le a b = true) (h2 : Instant.le b c = true) :
    Instant.le a c = true := by
  unfold Instant.le Instant.cmp at *
  simp only [Ordering.isLE_then_iff_and, Int.isLE_compare, Nat.isLE_compare, Int.compare_eq_lt] at *
  omega

theorem le_total' (a b : Instant) : (Instant.le a b || Instant.le b a) = true := by
  unfold Instant.le Instant.cmp
  simp only [Bool.or_eq_true, Ordering.isLE_then_iff_and, Int.isLE_compare, Nat.isLE_compare,
    Int.compare_eq_lt]
  omega

/-- Insertion of an instant into a sorted list. -/
def insertI (i : Instant) : List Instant → List Instant
  | [] => [i]
  | j :: js => if Instant.le i j then i :: j :: js else j :: insertI i js

/-- Insertion sort of instants. -/
def sortI : List Instant → List Instant
  | [] => []
  | i :: is => insertI i (sortI is)

theorem insertI_perm (i : Instant) (l : List Instant) : (insertI i l).Perm (i :: l) := by
  induction l with
  | nil => exact .refl _
  | cons j js ih =>
    unfold insertI
    split
    · exact .refl _
    · exact (ih.cons j).trans (.swap ..)

theorem sortI_perm (l : List Instant) : (sortI l).Perm l := by
  induction l with
  | nil => exact .refl _
  | cons i is ih => exact (insertI_perm i _).trans (ih.cons i)

theorem insertI_sorted (i : Instant) (l : List Instant)
    (h : l.Pairwise (fun a b => Instant.le a b = true)) :
    (insertI i l).Pairwise (fun a b => Instant.le a b = true) := by
  induction l with
  | nil => simp [insertI]
  | cons j js ih =>
    rw [List.pairwise_cons] at h
    unfold insertI
    split
    · rename_i hij
      refine List.pairwise_cons.2 ⟨?_, List.pairwise_cons.2 h⟩
      intro k hk
      rcases List.mem_cons.1 hk with rfl | hk
      · exact hij
      · exact le_trans' _ _ _ hij (h.1 k hk)
    · rename_i hij
      refine List.pairwise_cons.2 ⟨?_, ih h.2⟩
      intro k hk
      rcases List.mem_cons.1 ((insertI_perm i js).mem_iff.1 hk) with rfl | hk
      · have := le_total' k j
        simp_all
      · exact h.1 k hk

theorem sortI_sorted (l : List Instant) :
    (sortI l).Pairwise (fun a b => Instant.le a b = true) := by
  induction l with
  | nil => exact .nil
  | cons i is ih => exact insertI_sorted i _ ih

/-- A process in the UTC time zone with an insertion sort. -/
def env : Env where
  ltz := some
  sort := sortI
  sort_perm := sortI_perm
  sort_sorted := sortI_sorted

/-- A timeline directory with two completed commits, a replacecommit, pending instants and foreign
files. -/
def hoodieDir : Tree :=
  .file c!"20240103153010000.replacecommit" 1 .junk
  (.file c!"20240103153000.commit" 1 .junk
  (.file c!"20240103153005123.deltacommit" 1 .junk
  (.file c!"20240103153020.inflight" 1 .junk
  (.file c!"20240103153020.commit.requested" 1 .junk
  (.dir c!"archived" .nil
  (.file c!"hoodie.properties" 1 .junk .nil))))))

/-- A store with that timeline directory. -/
def store : Tree := .dir c!".hoodie" hoodieDir .nil

/-- The timeline of that store. -/
def timeline : Timeline := ⟨[],
    [⟨c!"20240103153000", .commit, .completed, 1704295800000⟩,
     ⟨c!"20240103153005123", .deltaCommit, .completed, 1704295805123⟩,
     ⟨c!"20240103153010000", .replaceCommit, .completed, 1704295810000⟩]⟩

end Hudi.Demo
