import Verif.Props.CleanerTail
import Verif.Props.Cleaner
import Verif.Props.Mirror

/-!
# C94: a copy kept up to date from changes while writers and a cleaner work
-/

namespace Hudi

open Spec

theorem mirrors_cleans {E : Env} {A : Arrow} {S : Setting} {M : MergeEnv A} {schema : Schema} {r : Str}
    {visited : List Work} {copy : List (List Cell)} {s : Work} {pos : Str}
    (h : MirrorsCleaned E A S M schema r visited copy s pos) : Cleans S r nothingYet s := by
  induction h with
  | begins r s c hs hk hn hl tb hive url ho m hm depth hd outs hr copy hc => exact hs
  | polls h r' hle s' hs hk tb ho m hm stop hl outs hr copy' hc ih => exact cleans_after (cleans_mono hle ih) hs

theorem mirrored_cleaned {E : Env} {A : Arrow} {S : Setting} {M : MergeEnv A} {schema : Schema} (hmono : MonotoneTz E.ltz)
    (hsec : WholeSecondsTz E.ltz) {r : Str} {visited : List Work} {copy : List (List Cell)} {s : Work} {pos : Str}
    (h : MirrorsCleaned E A S M schema r visited copy s pos) : Mirrored A S schema visited copy s pos := by
  induction h with
  | begins r s c hs hk hn hl tb hive url ho m hm depth hd outs hr copy hc =>
    refine ⟨cleans_jobs hs, ⟨c, hl, rfl⟩, fun _ _ _ hu _ => ?_⟩
    obtain ⟨outs', h1, h2⟩ := C90_reads_latest_partial E A S M hmono hsec r s hs hn m hm tb [] [] hive url ho depth hd hk
    rw [hr] at h1
    cases h1
    obtain ⟨h3, h4⟩ := snapshot_parts (cleans_jobs hs) hu h2
    exact latest_of_parts h3 h4 hc
  | @polls r visited copy s pos h r' hle s' hs hk tb ho m hm stop hl outs hr copy' hc ih =>
    have hw' := cleans_after (cleans_mono hle (mirrors_cleans h)) hs
    obtain ⟨c0, d0, h1, rfl, h2⟩ := latest_cleaned hmono hw' ho hl
    obtain ⟨more, hd⟩ := cleans_done hs
    refine mirrored_polls ih (cleans_jobs hw') hd h1 (fun hdoc hmeta hin ht hp => ?_) hc
    obtain ⟨outs', h4, h5⟩ := C92_changes_partial E A S M hmono hsec r' s' hw' hdoc hin m hm tb ho hmeta pos ht hp c0
      (List.mem_of_getLast? h1) (hk c0 h1)
    rw [up_to_latest h2, h4] at hr
    cases hr
    exact h5

/-- **C94, the copy (partial).**  As C89, while a cleaner deletes files of versions of file groups that were superseded
by a time that moves on, and that is, at each visit, no later than the latest commit: at each visit the copy is what the
consumer would get if it read the whole table then, the latest version of each record.  Missing: what is missing in C89
(`C94_false`: writes that delete records) and in C90 and C93. -/
theorem C94_copy_partial (E : Env) (A : Arrow) (S : Setting) (M : MergeEnv A) (schema : Schema) (hmono : MonotoneTz E.ltz)
    (hsec : WholeSecondsTz E.ltz) (r : Str) (visited : List Work) (copy : List (List Cell)) (s : Work) (pos : Str)
    (h : MirrorsCleaned E A S M schema r visited copy s pos) (hdoc : AllDocumented s.done) (hmeta : MetaFields S.o)
    (hin : ∀ v ∈ visited, RollbacksInPlace v) (hu : AllUpserts A schema S.pre s.done) (ht : Untied A schema S.pre s.done)
    (hk : KeepsLatest r s) (hn : NamesCurrent s) (tb : Table) (hive url : Bool) (ho : OpenedAt E A S s tb [] [] hive url)
    (m : Moments) (hm : SinceCleaned S r s m) (depth : Nat) (hd : S.depth < depth) :
    ∃ outs, tb.readSnapshotR E A S.C M depth m.race [] = .ok outs ∧
      LatestVersions A schema S.pre (outs.flatMap Batch.rows) copy := by
  have hm' := mirrored_cleaned hmono hsec h
  obtain ⟨outs, h1, h2⟩ := C90_reads_latest_partial E A S M hmono hsec r s (mirrors_cleans h) hn m hm tb [] [] hive url ho
    depth hd hk
  obtain ⟨h3, h4⟩ := snapshot_parts hm'.jobs hu h2
  exact ⟨outs, h1, parts_of_latest h3 h4 (fun r r' hr hr' => ht s.done s.done r r' (List.prefix_refl _)
    (List.prefix_refl _) hr hr') (hm'.copied hdoc hmeta hin hu ht)⟩

/-- **C94, what the copy is (partial).**  Whether or not anybody could read the table then, the copy has of each record
of the table exactly the latest version, and nothing else.  Missing: as in `C94_copy_partial`. -/
theorem C94_latest_partial (E : Env) (A : Arrow) (S : Setting) (M : MergeEnv A) (schema : Schema)
    (hmono : MonotoneTz E.ltz) (hsec : WholeSecondsTz E.ltz) (r : Str) (visited : List Work) (copy : List (List Cell))
    (s : Work) (pos : Str) (h : MirrorsCleaned E A S M schema r visited copy s pos) (hdoc : AllDocumented s.done)
    (hmeta : MetaFields S.o) (hin : ∀ v ∈ visited, RollbacksInPlace v) (hu : AllUpserts A schema S.pre s.done)
    (ht : Untied A schema S.pre s.done) : LatestOf A schema S.pre (InTable s.done) copy :=
  (mirrored_cleaned hmono hsec h).copied hdoc hmeta hin hu ht

/-- **C94, the same rows (partial).**  If, moreover, no record is in two file groups at the time of the visit, the copy
has exactly the rows of the table.  Missing: as in `C94_copy_partial`. -/
theorem C94_same_rows_partial (E : Env) (A : Arrow) (S : Setting) (M : MergeEnv A) (schema : Schema)
    (hmono : MonotoneTz E.ltz) (hsec : WholeSecondsTz E.ltz) (r : Str) (visited : List Work) (copy : List (List Cell))
    (s : Work) (pos : Str) (h : MirrorsCleaned E A S M schema r visited copy s pos) (hdoc : AllDocumented s.done)
    (hmeta : MetaFields S.o) (hin : ∀ v ∈ visited, RollbacksInPlace v) (hu : AllUpserts A schema S.pre s.done)
    (ht : Untied A schema S.pre s.done)
    (hone : ∀ k k' r r', r ∈ recordsAfter (rowsOf s.done) s.history k → r' ∈ recordsAfter (rowsOf s.done) s.history k' →
      keyOf schema r = keyOf schema r' → k = k')
    (hk : KeepsLatest r s) (hn : NamesCurrent s) (tb : Table) (hive url : Bool) (ho : OpenedAt E A S s tb [] [] hive url)
    (m : Moments) (hm : SinceCleaned S r s m) (depth : Nat) (hd : S.depth < depth) :
    ∃ outs, tb.readSnapshotR E A S.C M depth m.race [] = .ok outs ∧ copy.Perm (outs.flatMap Batch.rows) := by
  obtain ⟨outs, h1, h2⟩ := C90_reads_latest_partial E A S M hmono hsec r s (mirrors_cleans h) hn m hm tb [] [] hive url ho
    depth hd hk
  obtain ⟨outs', h5, h6⟩ := C94_copy_partial E A S M schema hmono hsec r visited copy s pos h hdoc hmeta hin hu ht hk hn tb
    hive url ho m hm depth hd
  rw [h1] at h5
  cases h5
  exact ⟨outs, h1, same_rows (mirrored_cleaned hmono hsec h).jobs hu hone h2 h6⟩

end Hudi
