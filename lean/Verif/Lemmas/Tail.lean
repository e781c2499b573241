import Verif.Spec.Tail
import Verif.Lemmas.Writer
import Verif.Lemmas.History

/-!
# What later writes leave as it was
-/

namespace Hudi

open Spec

theorem filter_upTo_append {h more : History} {stop : Str} (hl : ∀ c ∈ more, compare stop c.ts = .lt) :
    (h ++ more).filter (fun c => (compare c.ts stop).isLE) = h.filter (fun c => (compare c.ts stop).isLE) := by
  rw [List.filter_append]
  have : more.filter (fun c => (compare c.ts stop).isLE) = [] := by
    refine List.filter_eq_nil_iff.2 (fun c hc => ?_)
    have := Std.OrientedCmp.gt_of_lt (hl c hc)
    simp [this]
  rw [this, List.append_nil]

theorem tableAt_later {h more : History} {stop : Str} {k : GroupKey} (hl : ∀ c ∈ more, compare stop c.ts = .lt) :
    tableAt (h ++ more) stop k = tableAt h stop k := by
  unfold tableAt
  rw [filter_upTo_append hl]

theorem recordsAfter_same {W W' : Written} {h : History} {k : GroupKey}
    (hw : ∀ c ∈ h, W.base c.ts k = W'.base c.ts k ∧ W.appended c.ts k = W'.appended c.ts k) :
    recordsAfter W h k = recordsAfter W' h k := by
  unfold recordsAfter
  suffices ∀ (acc : List (List Cell)), h.foldl (fun rows c => match c.changeOf k with
    | none => rows
    | some (.write _) => W.base c.ts k
    | some (.append _) => rows ++ W.appended c.ts k
    | some .replace => []) acc = h.foldl (fun rows c => match c.changeOf k with
    | none => rows
    | some (.write _) => W'.base c.ts k
    | some (.append _) => rows ++ W'.appended c.ts k
    | some .replace => []) acc from this []
  induction h with
  | nil => intro acc; rfl
  | cons c h ih =>
    intro acc
    simp only [List.foldl_cons]
    rw [(hw c (by simp)).1, (hw c (by simp)).2]
    exact ih (fun c' hc' => hw c' (by simp [hc'])) _

theorem recordsAt_later {js more : List Job} {stop : Str} {k : GroupKey}
    (hl : ∀ j ∈ more, compare stop j.commit.ts = .lt) :
    recordsAt (rowsOf (js ++ more)) (commitsOf (js ++ more)) stop k = recordsAt (rowsOf js) (commitsOf js) stop k := by
  unfold recordsAt
  rw [commitsOf_append, filter_upTo_append (fun c hc => by obtain ⟨j, hj, rfl⟩ := mem_commitsOf.1 hc; exact hl j hj)]
  refine recordsAfter_same (fun c hc => ?_)
  obtain ⟨j, hj, rfl⟩ := mem_commitsOf.1 (List.mem_filter.1 hc).1
  have := jobAt_append (js := js) (more := more) (ts := j.commit.ts) ⟨j, hj, rfl⟩
  simp only [rowsOf, this, and_self]

theorem received_later {A : Arrow} {S : Setting} {js more : List Job} {p : Poll}
    (hl : ∀ j ∈ more, compare p.stop j.commit.ts = .lt) (h : p.Received A S js) : p.Received A S (js ++ more) := by
  obtain ⟨ks, h1, h2, h3⟩ := h
  have hl' : ∀ c ∈ commitsOf more, compare p.stop c.ts = .lt := fun c hc => by
    obtain ⟨j, hj, rfl⟩ := mem_commitsOf.1 hc; exact hl j hj
  have ht : ∀ k, tableAt (commitsOf (js ++ more)) p.stop k = tableAt (commitsOf js) p.stop k := fun k => by
    rw [commitsOf_append, tableAt_later hl']
  refine ⟨ks, h1, fun k => ?_, h3.imp ?_⟩
  · rw [h2, ht, commitsOf_append]
    refine and_congr_left fun _ => ⟨?_, ?_⟩
    · rintro ⟨c, hc, h⟩
      exact ⟨c, by simp [hc], h⟩
    · rintro ⟨c, hc, hin, h⟩
      rcases List.mem_append.1 hc with hc | hc
      · exact ⟨c, hc, hin, h⟩
      · have := Std.OrientedCmp.gt_of_lt (hl' c hc)
        have h2 := hin.2
        rw [this] at h2
        cases h2
  · rintro k out ⟨v, rows, q1, q2, q3, q4⟩
    have e : columnsBy (js ++ more) v.base k = columnsBy js v.base k := by
      refine columnsBy_append ?_
      have : versionAfter (commitsOf (js.filter (fun j => (compare j.commit.ts p.stop).isLE))) k = some v := by
        rw [← q1]
        unfold tableAt commitsOf
        rw [List.filter_map]
        rfl
      obtain ⟨j, hj, _, e⟩ := version_job this
      exact ⟨j, (List.mem_filter.1 hj).1, e⟩
    refine ⟨v, rows, (ht k).trans q1, q2.trans e.symm, ?_, e.symm ▸ q4⟩
    intro r
    rw [e]
    show r ∈ rows ↔ r ∈ recordsAt (rowsOf (js ++ more)) _ _ _ ∧ _
    rw [recordsAt_later hl]
    exact q3 r

end Hudi
