import Verif.Props.ReadDemo
import Verif.Props.Incremental

/-! # C40, C51, C58: counterexamples -/

namespace Hudi
open Spec
namespace Demo

/-- A codec whose parquet blocks have the columns of the base file in another order. -/
def codecSwapped : Codec :=
  { codec with parquet := fun l => match l with
      | [80, a, b, c, d, 69] => .ok [⟨mSchema', [rowOfBytes [a, b, c, d]]⟩]
      | _ => .err .parquet }

def w2Swapped : Batch := ⟨mSchema', [rowOfBytes [52, 67, 122, 3]]⟩

/-- The table of the C40 example with one parquet block in its log file. -/
def swappedTree : Tree :=
  .dir c!".hoodie" (.file c!"20231231000000000.commit" 1 .junk
    (.file c!"20240103000000000.deltacommit" 1 morDoc .nil))
  (.file morBase 1 (.parquet 1 mor) (.file morLog 1 (.bytes (logBytes [w2])) .nil))

theorem swapped_logs : ReadableLogs codecSwapped some c!"utc" swappedTree
    (morSlice.logFiles.map morSlice.logPath) [[w2]] where
  at_ := .cons ⟨1, _, rfl, rfl⟩ .nil
  wf := by intro w hw; obtain rfl : w = w2 := by simpa using hw
           exact w2_wf
  decodes := by intro w hw; obtain rfl : w = w2 := by simpa using hw
                exact ⟨[w2Swapped], rfl⟩
  times := by intro w hw; obtain rfl : w = w2 := by simpa using hw
              exact ⟨t2, _, rfl, rfl⟩
  targets := by intro w hw h; obtain rfl : w = w2 := by simpa using hw
                exact absurd h.1 (by decide)

end Demo

open Demo in
/-- **C40 as stated is false.**  The log block has the columns of the base file in another order.  The
record in it, which is in the range and not rolled back, is not in what is read: its values are filed
under the base file's columns by position, and there they lose against another record. -/
theorem C40_false : ∃ (E : Env) (A : Arrow) (C : Codec) (M : MergeEnv A) (tb : Table) (t : Tree)
    (s : FileSlice) (b b' out : Batch) (w : WBlock) (r : List Cell) (tz ts pre : Str),
    PlainStorage tb ∧ MergesBy tb.opts pre ∧ startOf tb.opts = none ∧ timezoneOf tb.opts = .ok tz ∧
    (tb.fileSlicesAsOf E A t ts [] []).2 = .ok [s] ∧ ParquetAt t s.basePath b ∧ b.WF ∧
    MergeColumns b.schema pre ∧ ReadableLogs C E.ltz tz t (s.logFiles.map s.logPath) [[w]] ∧
    Survives E.ltz tz ⟨tz, none, some ts, false, true⟩ [w] w ∧
    Decodes C w [b'] ∧ b'.WF ∧ b'.schema.Perm b.schema ∧ r ∈ b'.rows ∧
    (tb.readSnapshotAsOf E A C M t ts [] []).2 = .ok [out] ∧
    ∀ r' ∈ out.rows, keyOf out.schema r' ≠ keyOf b'.schema r := by
  refine ⟨env, arrow, codecSwapped, mergeEnv arrow, morTable, swappedTree, morSlice, mor, w2Swapped,
    ⟨mSchema, [mRow c!"1" c!"C" c!"bob" 7, mRow c!"1" c!"A" c!"ann" 5]⟩, w2,
    rowOfBytes [52, 67, 122, 3], c!"utc", t2, c!"ts",
    ⟨by simp [HmNodup, morTable], by simp [morTable]⟩, ⟨by decide, rfl, by decide⟩, rfl, rfl,
    by decide +kernel, ⟨1, 1, _, rfl⟩, by unfold Batch.WF; decide, ⟨by decide, by decide, _, rfl, rfl⟩,
    swapped_logs, ?_, rfl, by unfold Batch.WF; decide, by decide, by decide, by decide +kernel, by decide⟩
  refine ⟨⟨t2, _, rfl, rfl, ?_⟩, ?_⟩
  · refine ⟨(by intro s hs; cases hs), ?_⟩
    intro e he
    cases he
    exact ⟨_, rfl, .inr ⟨rfl, rfl⟩⟩
  · rintro ⟨w', hw, _, i, h, _⟩
    obtain rfl : w' = w2 := by simpa using hw
    exact absurd h.1.1 (by decide)

open Demo in
/-- **C51 as stated is false.**  A start given without milliseconds, `20240101000000`, denotes the time of
the first commit.  The incremental read returns the row of that commit, which the second one kept in
the file it wrote: commit times are compared as text. -/
theorem C51_false : ∃ (E : Env) (A : Arrow) (C : Codec) (M : MergeEnv A) (tb : Table) (t : Tree)
    (s : FileSlice) (b out : Batch) (r : List Cell) (start stop tz pre : Str),
    PlainStorage tb ∧ MergesBy tb.opts pre ∧ MetaFields tb.opts ∧ timezoneOf tb.opts = .ok tz ∧
    WriterTimestamp start ∧ WriterTimestamp stop ∧
    tb.fileSlicesBetween E t (some start) (some stop) = .ok [s] ∧
    SliceFiles C E.ltz tz t ⟨tz, some start, some stop, false, true⟩ s b [] ∧
    MergeColumns b.schema pre ∧ HasCommitTime b.schema ∧
    (∀ r ∈ b.rows, ∀ c, commitTimeOf b.schema r = some c → WriterTimestamp c) ∧
    tb.readIncremental E A C M t start (some stop) = .ok [out] ∧ r ∈ out.rows ∧
    ¬ CommittedBetween E.ltz tz b.schema start (some stop) r := by
  refine ⟨env, arrow, codec, mergeEnv arrow, incTable, incTree, incSlice, inc, inc,
    mRow c!"1" c!"A" c!"ann" 5 ++ [some (.str t1)], c!"20240101000000", t2, c!"utc", c!"ts",
    ⟨by simp [HmNodup, incTable], by simp [incTable]⟩, ⟨by decide, rfl, by decide⟩, by decide, rfl,
    by decide, by decide, by decide +kernel, inc_files _, ⟨by decide, by decide, _, rfl, rfl⟩,
    ⟨_, rfl, rfl⟩, ?_, by decide +kernel, by decide, ?_⟩
  · intro r hr c h
    simp only [inc, List.mem_cons, List.not_mem_nil, or_false] at hr
    rcases hr with rfl | rfl <;> cases h <;> decide
  · rintro ⟨c, dc, ds, h1, h2, h3, h4, _⟩
    cases h1
    have e : parseDatetime some t1 c!"utc" = parseDatetime some c!"20240101000000" c!"utc" := by decide
    replace h2 : parseDatetime some t1 c!"utc" = _ := h2
    rw [e] at h2
    replace h3 : parseDatetime some c!"20240101000000" c!"utc" = _ := h3
    rw [h3] at h2
    cases h2
    exact absurd h4 (Int.lt_irrefl _)

open Demo in
/-- **C58 as stated is false.**  A delta commit records two write stats for one file group: only the first
one's log files are in the slice returned. -/
theorem C58_false : ∃ (E : Env) (t : Tree) (tb : Table) (i : Instant) (md : List (Str × Json))
    (ws : List Write) (ss : List FileSlice),
    Timeline.load E [] t = .ok tb.timeline ∧ tb.timeline.completed = [i] ∧ docOf t i = some md ∧
    RecordsWrites md ws ∧ (∀ w ∈ ws, w.WF ∧ w.base.fileId = w.fileId) ∧
    tb.fileSlicesBetween E t none none = .ok ss ∧
    ∃ w ∈ ws, ∃ l ∈ w.logs, ∀ s ∈ ss, l ∉ s.logFiles := by
  refine ⟨env, .dir c!".hoodie"
    (.file c!"20240103153000000.deltacommit" 1 (.json (.obj doc23)) .nil) .nil,
    ⟨[], [], ⟨[], [inst1]⟩⟩, inst1, doc23, [write2, write3], _, rfl, rfl, rfl,
    doc23_records, ?_, rfl, write3, by simp, logA c!"3", by simp [write3], by decide⟩
  simp only [List.mem_cons, List.not_mem_nil, or_false, forall_eq_or_imp, forall_eq]
  exact ⟨⟨write_wf.2.1, by decide⟩, ⟨write_wf.2.2.1, by decide⟩⟩

end Hudi
