import Verif.Spec.Schema
import Verif.Lemmas.Answers

/-! # Lemmas: the schema of a table and of what is read -/

namespace Hudi
open Spec

theorem latestMetadata_doc {E : Env} {o : Opts} {t0 t : Tree} {tl : Timeline}
    (hload : Timeline.load E o t0 = .ok tl) (hwf0 : ∀ n ∈ timelineNames t0, Spec.NormalName n) :
    (∀ i md, tl.completed.getLast? = some i → docOf t i = some md → tl.latestMetadata t = .ok md) ∧
    (∀ i, tl.completed.getLast? = some i → docOf t i = none → ∃ e, tl.latestMetadata t = .err e) ∧
    (tl.completed.getLast? = none → tl.latestMetadata t = .ok []) := by
  unfold Timeline.latestMetadata
  refine ⟨?_, ?_, ?_⟩
  · intro i md hi hd
    rw [hi]
    exact (instantMetadata_doc (t := t) hload hwf0 (List.mem_of_getLast? hi)).1 md hd
  · intro i hi hd
    rw [hi]
    exact (instantMetadata_doc (t := t) hload hwf0 (List.mem_of_getLast? hi)).2 hd
  · intro h
    rw [h]

theorem parquetData_ok {t : Tree} {path : Str} {b : Batch} :
    getParquetData t path = .ok b ↔ ParquetAt t path b := by
  unfold getParquetData getFile ParquetAt
  cases t.fileAt (pathSegs path) with
  | none => simp
  | some e =>
    obtain ⟨size, c⟩ := e
    cases c with
    | parquet k b => simp
    | _ => simp

theorem readBaseFile_schema {A : Arrow} {o : Opts} {t : Tree} {path : Str} {b : Batch}
    (h : readBaseFile A o t path = .ok b) : ∃ base, ParquetAt t path base ∧ b.schema = base.schema := by
  unfold readBaseFile at h
  obtain ⟨base, h1, h2⟩ := Res.bind_eq_ok.1 h
  have h1' : getParquetData t path = .ok base := by
    revert h1; cases getParquetData t path <;> simp [Res.mapErr]
  refine ⟨base, parquetData_ok.1 h1', ?_⟩
  obtain ⟨f, _, h3⟩ := Res.bind_eq_ok.1 h2
  cases f with
  | none => cases h3; rfl
  | some fs =>
    obtain ⟨m, _, h4⟩ := Res.bind_eq_ok.1 h3
    cases h4
    rfl

theorem concatBatches_schema {schema : Schema} {bs : List Batch} {b : Batch}
    (h : concatBatches schema bs = .ok b) : b.schema = schema := by
  unfold concatBatches at h
  obtain ⟨_, _, h⟩ := Res.bind_eq_ok.1 h
  split at h
  · cases h
  · simp only at h
    split at h
    · cases h
    · cases h; rfl

theorem mergeRecordBatches_schema {A : Arrow} {M : MergeEnv A} {o : Opts} {schema : Schema}
    {bs : List Batch} {b : Batch} (h : mergeRecordBatches A M o schema bs = .ok b) :
    b.schema = schema := by
  unfold mergeRecordBatches at h
  split at h
  · cases h; rfl
  · obtain ⟨st, _, h2⟩ := Res.bind_eq_ok.1 h
    cases st with
    | appendOnly => exact concatBatches_schema h2
    | overwriteWithLatest =>
      obtain ⟨c, h3, h4⟩ := Res.bind_eq_ok.1 h2
      rw [← concatBatches_schema h3]
      unfold mergeLatest at h4
      split at h4
      · cases h4; rfl
      · obtain ⟨_, _, h4⟩ := Res.bind_eq_ok.1 h4
        obtain ⟨_, _, h4⟩ := Res.bind_eq_ok.1 h4
        obtain ⟨_, _, h4⟩ := Res.bind_eq_ok.1 h4
        obtain ⟨_, _, h4⟩ := Res.bind_eq_ok.1 h4
        cases h4
        rfl

theorem readFileSlice_schema {C : Codec} {A : Arrow} {M : MergeEnv A} {ltz : LocalTz} {o : Opts}
    {t : Tree} {s : FileSlice} {b : Batch} (h : readFileSlice C A M ltz o t s = .ok b) :
    HasBaseColumns t s b := by
  unfold readFileSlice at h
  split at h
  · exact readBaseFile_schema h
  · obtain ⟨v, _, h⟩ := Res.bind_eq_ok.1 h
    obtain ⟨ro, _, h⟩ := Res.bind_eq_ok.1 h
    cases ro with
    | true => exact readBaseFile_schema h
    | false =>
      change readMerged C A M ltz o t s = .ok b at h
      unfold readMerged at h
      obtain ⟨base, h1, h⟩ := Res.bind_eq_ok.1 h
      obtain ⟨_, _, h⟩ := Res.bind_eq_ok.1 h
      obtain ⟨_, _, h⟩ := Res.bind_eq_ok.1 h
      obtain ⟨base', h2, h3⟩ := readBaseFile_schema h1
      exact ⟨base', h2, (mergeRecordBatches_schema h).trans h3⟩

end Hudi
