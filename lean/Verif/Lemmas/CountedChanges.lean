import Verif.Lemmas.CountedWriter

/-!
# What the files of a table hold that keeps every record
-/

namespace Hudi
open Spec

/-- The files of a state in which no request to append has been repeated. -/
theorem appends_evolving {S : Setting} {s : Work} (hi : Inv S s) (hp : Placed s) (hrt : RollbackTimes S s) (hone : DoneOnce s)
    (hc : ∀ j ∈ s.done, Counts S j) :
    AppendsEvolving S.C S.ltz S.tz (columnsBy s.done) s.tree s.history (rowsOf s.done) (heldIn s) := by
  classical
  have hat : ∀ j ∈ s.done, jobAt s.done j.commit.ts = some j :=
    fun j hj => jobAt_mem (fun j hj j' hj' => hi.unique hj hj') hj
  obtain ⟨p1, p2, p3, p4⟩ := stores_files hi hp
  have hheld : ∀ {k : GroupKey} {base : Str} {l : Str × Str}, KeyOk S k → WriterTimestamp base →
      NamePart l.1 ∧ NamePart l.2 → heldIn s (logPathOf k base l) = blocksAt s.store (logAt k base l) := by
    intro k base l hk hb hl
    unfold heldIn blocksAt
    rw [logPath_segs hk hb hl]
  refine ⟨p1, p2, p3, p4, ?_, ?_⟩
  · intro h1 c h2 e1 k ls e2 v e3
    obtain ⟨d1, j, d2, hd, rfl, rfl, _⟩ := split_commits e1
    have hj : j ∈ s.done := by rw [hd]; simp
    have e : (rowsOf s.done).appended j.commit.ts k = j.appended k := by simp [rowsOf, hat j hj]
    obtain ⟨c1, rows, c2, c3⟩ := hc j hj k ls e2
    obtain ⟨hk, hb, _⟩ := version_part hi hd e3
    refine ⟨c1, rows, ?_, by rw [e]; exact c3⟩
    have : ls.flatMap (fun l => blocksBy j.commit.ts (heldIn s (logPathOf k v.base l))) = ls.flatMap (j.blocks k) := by
      refine List.flatMap_congr fun l hl => ?_
      have hl' := (hi.jobs d1 j d2 hd).logs k ls e2 l hl
      rw [hheld hk hb hl', hone d1 j d2 k ls v l hd e2 e3 hl', if_pos hl]
    rw [this]
    exact c2
  · intro k base l c hap w hw c' hc' ht
    obtain ⟨d1, j, d2, ls, v, ws, hcl, rfl⟩ := commit_log hi hp hap
    obtain ⟨j', hj', rfl⟩ := mem_commitsOf.1 hc'
    cases (stored_ok hi (blockOf_stored hi hp ⟨l, _, hap, hw⟩)).origin with
    | done d1 j2 d2 ls2 v2 l2 hd2 hk2 hv2 hb2 hl2 hw2 ht2 =>
      obtain rfl : j2 = j' := hi.unique (by rw [hd2]; simp) hj' (written_unique ht2 ht)
      refine ⟨commitsOf d1, commitsOf d2, ls2, v2, by unfold Work.history; rw [hd2, commitsOf_append]; rfl, hk2, ?_,
        hv2, hb2⟩
      by_contra hnot
      have h1 := hone d1 j2 d2 k ls2 v2 l hd2 hk2 hv2 hcl.parts
      rw [if_neg hnot, hb2, ← hheld hcl.key hcl.time hcl.parts] at h1
      have h2 : w ∈ blocksBy j2.commit.ts (heldIn s (logPathOf k base l)) :=
        List.mem_filter.2 ⟨hw, decide_eq_true ht⟩
      rw [h1] at h2
      cases h2
    | current a ls2 v2 l2 hc2 hk2 hv2 hb2 hl2 hw2 ht2 _ =>
      have := (hi.attempt a hc2).later j' hj'
      rw [written_unique ht2 ht] at this
      exact absurd this cmp_irrefl
    | failed i' r' w' ht2 hn hir hw2 hb2 hr2 hu hdn hc2 =>
      have e := written_unique ht2 ht
      rcases hdn j' hj' with hlt | hlt
      · rw [e] at hlt
        exact absurd hlt cmp_irrefl
      · rw [e] at hir
        exact absurd (cmp_trans hir hlt) cmp_irrefl
    | rollback i' hb2 hu hdn hc2 =>
      obtain ⟨_, h2, h3, _⟩ := hrt k base w i' _ (blockOf_stored hi hp ⟨l, _, hap, hw⟩) hb2 ht
      rcases h3 j' hj' with h3 | h3
      · exact absurd (cmp_trans h2 h3) cmp_irrefl
      · exact absurd h3 cmp_irrefl

/-- The records that documented writes appended carry their timestamps. -/
theorem dated_rows {S : Setting} {s : Work} (hi : Inv S s) (hdoc : AllDocumented s.done) :
    DatedRowsEvolving (columnsBy s.done) s.history (rowsOf s.done) := by
  intro h1 c h2 e1 k ls e2 v e3 r hr
  obtain ⟨d1, j, d2, hd, rfl, rfl, _⟩ := split_commits e1
  have hj : j ∈ s.done := by rw [hd]; simp
  have e : (rowsOf s.done).appended j.commit.ts k = j.appended k := by
    simp [rowsOf, jobAt_mem (fun j hj j' hj' => hi.unique hj hj') hj]
  rw [e] at hr
  have h1 := (hdoc d1 j d2 hd).dated k ls v e2 e3 r hr
  obtain ⟨j', hj', _, ht⟩ := version_job e3
  rw [hd, columnsBy_append ⟨j', hj', ht⟩]
  exact h1

end Hudi
