import Verif.Props.Evolving
import Verif.Props.AppendedDemo
import Verif.Props.Schema

/-! # C80: a table that meets the hypotheses, and a counterexample -/

namespace Hudi
open Spec
namespace Demo

/-- The columns after the last commit: one more. -/
def evSchema : Schema := incSchema ++ [⟨c!"note", .utf8, true⟩]

/-- Two file groups; a delta commit to the first; a commit that rewrites the first with one more column. -/
def evHistory : History :=
  [⟨t0, .commit, [(f1, .write c!"0-0-0"), (f2, .write c!"0-0-0")]⟩,
    ⟨t2, .deltaCommit, [(f1, .append [(c!"1", c!"0-0-1")])]⟩,
    ⟨t4, .commit, [(f1, .write c!"0-4-1")]⟩]

def evBase2 : Str := c!"f2_0-0-0_20231231000000000.parquet"
def evBase4 : Str := c!"f1_0-4-1_20240104000000000.parquet"

def evOld : Batch := ⟨incSchema, [datedRow c!"1" c!"D" c!"dan" 5 t0]⟩
def evNew : Batch := ⟨evSchema, [datedRow c!"1" c!"A" c!"ann" 5 t0 ++ [none],
  datedRow c!"4" c!"C" c!"z" 9 t2 ++ [none], datedRow c!"1" c!"E" c!"eve" 1 t4 ++ [some (.str c!"hello")]]⟩

def evCols : Columns := fun ts _ => if ts = t4 then evSchema else incSchema

def evWritten : Written where
  base := fun ts k => if ts = t0 ∧ k = f1 then base1.rows else if ts = t0 ∧ k = f2 then evOld.rows
    else if ts = t4 ∧ k = f1 then evNew.rows else []
  appended := fun ts k => if ts = t2 ∧ k = f1 then x2Batch.rows else []

def evDoc0 : List (Str × Json) :=
  [(c!"partitionToWriteStats", .obj [([], .arr [.obj [(c!"fileId", .str c!"f1"), (c!"path", .str morBase)],
    .obj [(c!"fileId", .str c!"f2"), (c!"path", .str evBase2)]])])]

def evDoc4 : List (Str × Json) :=
  [(c!"partitionToWriteStats", .obj [([], .arr [.obj [(c!"fileId", .str c!"f1"), (c!"path", .str evBase4)]])])]

/-- The log file holds the block of a write that failed, that of the delta commit, and the rollback of the
failed write. -/
def evTree : Tree :=
  .dir c!".hoodie" (.file c!"20231231000000000.commit" 1 (.json (.obj evDoc0))
    (.file c!"20240102000000000.deltacommit" 1 (.json (.obj chDoc2))
    (.file c!"20240104000000000.commit" 1 (.json (.obj evDoc4)) .nil)))
  (.file morBase 1 (.parquet 1 base1) (.file evBase2 1 (.parquet 1 evOld)
    (.file morLog 1 (.bytes (logBytes [x1, x2, w3])) (.file evBase4 1 (.parquet 1 evNew) .nil))))

end Demo

theorem Demo.ev_wf : Demo.evHistory.WF 17 where
  ordered := by decide
  times := by decide
  once := by decide
  replaces := by
    intro c hc k hk
    have : ∀ c ∈ Demo.evHistory, ∀ e ∈ c.changes, e.2 = .replace → c.action = .replaceCommit := by decide
    exact this c hc _ hk rfl
  gone := by
    have : Demo.evHistory.Pairwise (fun c c' => ∀ e ∈ c.changes, e.2 = .replace →
      e.1 ∉ c'.changes.map Prod.fst) := by decide
    refine this.imp ?_
    intro c c' h k hk ch hch
    exact h _ hk rfl (List.mem_map.2 ⟨_, hch, rfl⟩)
  ids := by decide
  tokens := by
    intro c hc k token hk
    have : ∀ c ∈ Demo.evHistory, ∀ e ∈ c.changes,
        (match e.2 with | .write token => decide (NamePart token) | _ => true) = true := by decide
    exact of_decide_eq_true (this c hc _ hk)
  logs := by
    intro c hc k ls hk
    have : ∀ c ∈ Demo.evHistory, ∀ e ∈ c.changes,
        (match e.2 with | .append ls => decide (∀ l ∈ ls, NamePart l.1 ∧ NamePart l.2) | _ => true) = true := by
      decide
    exact of_decide_eq_true (this c hc _ hk)

namespace Demo

theorem ev_stored : Stores env.ltz c!"utc" recTable.opts evTree evHistory :=
  stores_of (by decide) (by decide) (by decide) (partitionOf_mem (by decide) rfl) (by decide) (by decide)
    (by decide)

theorem ev_stored_every : Stores env.ltz c!"utc" everyTable.opts evTree evHistory :=
  stores_of (by decide) (by decide) (by decide) (partitionOf_mem (by decide) rfl) (by decide) (by decide)
    (by decide)

theorem ev_listable : ListableTable env arrow [] evTree recTable c!"utc" evHistory 17 [] [] [] false false where
  load := rfl
  tree := by decide
  zone := rfl
  history := ev_wf
  stores := ev_stored
  parsed := rfl
  columns := (partitionSchema_ok (E := env) (o := []) (t0 := evTree) rfl
    (timelineNames_normal (by decide))).1 (by decide +kernel)
  names := by unfold FieldNames; decide
  applicable := by simp
  style := ⟨rfl, rfl⟩
  parallelism := by intro v hv; cases hv
  docs := fun i hi ha => absurd ha (by revert i; decide)

theorem ev_listable_every : ListableTable env arrow [] evTree everyTable c!"utc" evHistory 17 [] [] []
    false false where
  load := rfl
  tree := by decide
  zone := rfl
  history := ev_wf
  stores := ev_stored_every
  parsed := rfl
  columns := (partitionSchema_ok (E := env) (o := []) (t0 := evTree) rfl
    (timelineNames_normal (by decide))).1 (by decide +kernel)
  names := by unfold FieldNames; decide
  applicable := by simp
  style := ⟨rfl, rfl⟩
  parallelism := by intro v hv; cases hv
  docs := fun i hi ha => absurd ha (by revert i; decide)

def evDocs (ts : Str) : List (Str × Json) := if ts = t0 then evDoc0 else if ts = t2 then chDoc2 else evDoc4
def evWrites (ts : Str) : List Write :=
  if ts = t0 then [⟨[], c!"f1", chBase1, []⟩, ⟨[], c!"f2", ⟨c!"f2", c!"0-0-0", t0, c!"parquet", none⟩, []⟩]
  else if ts = t2 then [⟨[], c!"f1", chBase1, [⟨c!"f1", t0, c!"log", c!"1", c!"0-0-1", none⟩]⟩]
  else [⟨[], c!"f1", ⟨c!"f1", c!"0-4-1", t4, c!"parquet", none⟩, []⟩]

theorem evDocs_record (ts : Str) (h : ts ∈ [t0, t2, t4]) : RecordsWrites (evDocs ts) (evWrites ts) := by
  simp only [List.mem_cons, List.not_mem_nil, or_false] at h
  rcases h with rfl | rfl | rfl
  · refine ⟨[([], [(⟨[], c!"f1", chBase1, []⟩, _),
      (⟨[], c!"f2", ⟨c!"f2", c!"0-0-0", t0, c!"parquet", none⟩, []⟩, _)])], rfl, rfl, ?_⟩
    simp only [List.mem_cons, List.not_mem_nil, or_false, forall_eq, forall_eq_or_imp]
    exact ⟨⟨trivial, _, rfl, rfl, .inr ⟨rfl, rfl, .inl rfl⟩⟩, trivial, _, rfl, rfl, .inr ⟨rfl, rfl, .inl rfl⟩⟩
  · refine ⟨[([], [(⟨[], c!"f1", chBase1, [⟨c!"f1", t0, c!"log", c!"1", c!"0-0-1", none⟩]⟩, _)])], rfl, rfl, ?_⟩
    simp only [List.mem_singleton, forall_eq]
    exact ⟨trivial, _, rfl, rfl, .inl ⟨rfl, rfl⟩⟩
  · refine ⟨[([], [(⟨[], c!"f1", ⟨c!"f1", c!"0-4-1", t4, c!"parquet", none⟩, []⟩, _)])], rfl, rfl, ?_⟩
    simp only [List.mem_singleton, forall_eq]
    exact ⟨trivial, _, rfl, rfl, .inr ⟨rfl, rfl, .inl rfl⟩⟩

theorem ev_docs : StoresDocs evTree evHistory := by
  refine storesDocs_of evDocs evWrites (by decide) ?_ (fun x hx => evDocs_record _ ?_) (by decide) (by decide)
    (by decide)
  · intro x hx
    simp only [evHistory, splitsOf, List.nil_append, List.cons_append, List.mem_cons,
      List.not_mem_nil, or_false] at hx
    rcases hx with rfl | rfl | rfl
    exacts [⟨1, rfl⟩, ⟨1, rfl⟩, ⟨1, rfl⟩]
  · revert x; decide

theorem ev_appends (k : GroupKey) (base : Str) (l : Str × Str) (c : HCommit) :
    AppendsTo evHistory k base l c ↔ k = f1 ∧ base = t0 ∧ l = (c!"1", c!"0-0-1") ∧
      c = ⟨t2, .deltaCommit, [(f1, .append [(c!"1", c!"0-0-1")])]⟩ := by
  rw [appendsTo_mem]
  constructor
  · intro h
    have : ∀ e ∈ appendsList [] evHistory, e = (f1, t0, (c!"1", c!"0-0-1"),
      ⟨t2, .deltaCommit, [(f1, .append [(c!"1", c!"0-0-1")])]⟩) := by decide
    have := this _ h
    simpa using this
  · rintro ⟨rfl, rfl, rfl, rfl⟩
    decide

theorem ev_bases : ∀ c ∈ evHistory, ∀ k token, (k, Change.write token) ∈ c.changes →
    ParquetAt evTree (basePathOf k token c.ts) ⟨evCols c.ts k, evWritten.base c.ts k⟩ ∧
    (⟨evCols c.ts k, evWritten.base c.ts k⟩ : Batch).WF ∧
    ((evWritten.base c.ts k).map (keyOf (evCols c.ts k))).Nodup := by
  intro c hc k token hm
  simp only [evHistory, List.mem_cons, List.not_mem_nil, or_false] at hc
  rcases hc with rfl | rfl | rfl <;> simp only [List.mem_cons, List.not_mem_nil, or_false, Prod.mk.injEq,
    Change.write.injEq, reduceCtorEq, and_false, false_or] at hm
  · rcases hm with ⟨rfl, rfl⟩ | ⟨rfl, rfl⟩
    · exact ⟨⟨1, 1, _, rfl⟩, by unfold Batch.WF; decide, by decide⟩
    · exact ⟨⟨1, 1, _, rfl⟩, by unfold Batch.WF; decide, by decide⟩
  · obtain ⟨rfl, rfl⟩ := hm
    exact ⟨⟨1, 1, _, rfl⟩, by unfold Batch.WF; decide, by decide⟩

theorem ev_logs : ∀ k base l c, AppendsTo evHistory k base l c →
    LogAt codecDated evTree (logPathOf k base l) (chHeld (logPathOf k base l)) := by
  intro k base l c h
  obtain ⟨rfl, rfl, rfl, rfl⟩ := (ev_appends _ _ _ _).1 h
  exact ⟨1, _, rfl, rfl⟩

theorem ev_block {k : GroupKey} {base : Str} {w : WBlock} (hb : BlockOf evHistory chHeld k base w) :
    k = f1 ∧ base = t0 ∧ w ∈ [x1, x2, w3] := by
  obtain ⟨l, c, h, hw⟩ := hb
  obtain ⟨rfl, rfl, rfl, rfl⟩ := (ev_appends _ _ _ _).1 h
  exact ⟨rfl, rfl, hw⟩

theorem ev_blocks : ∀ k base w, BlockOf evHistory chHeld k base w →
    GoodBlock codecDated some c!"utc" w ∧ BatchesFit codecDated (evCols base k) [w] := by
  intro k base w hb
  obtain ⟨rfl, rfl, hw⟩ := ev_block hb
  refine ⟨?_, dated_fit w hw⟩
  simp only [List.mem_cons, List.not_mem_nil, or_false] at hw
  rcases hw with rfl | rfl | rfl
  exacts [x1_good, x2_good, w3_good]

theorem ev_rollbacks : ∀ k base w i, BlockOf evHistory chHeld k base w → RollsBack w i →
    ∀ c ∈ evHistory, c.ts ≠ i := by
  intro k base w i hb hr
  obtain ⟨rfl, rfl, hw⟩ := ev_block hb
  simp only [List.mem_cons, List.not_mem_nil, or_false] at hw
  rcases hw with rfl | rfl | rfl
  · exact absurd hr.1.1 (by decide)
  · exact absurd hr.1.1 (by decide)
  · have : some i = some t1 := hr.2.symm
    cases this
    decide

theorem ev_records : StoresEvolving codecDated some c!"utc" evCols evTree evHistory evWritten chHeld where
  bases := ev_bases
  logs := ev_logs
  blocks := ev_blocks
  rollbacks := ev_rollbacks
  rows := by
    intro k base l c h r
    have h' := h
    obtain ⟨rfl, rfl, rfl, rfl⟩ := (ev_appends _ _ _ _).1 h
    show r ∈ x2Batch.rows ↔ _
    constructor
    · intro hr
      exact ⟨x2, [x2Batch], ⟨_, _, h', show x2 ∈ [x1, x2, w3] by simp⟩, rfl, rfl, by simpa using hr⟩
    · rintro ⟨w, bs, hb, hwr, hdec, hr⟩
      have hw := (ev_block hb).2.2
      simp only [List.mem_cons, List.not_mem_nil, or_false] at hw
      rcases hw with rfl | rfl | rfl
      · exact absurd hwr (by unfold WrittenBy; decide)
      · rw [decodes_det hdec (show Decodes codecDated x2 [x2Batch] from rfl)] at hr
        simpa using hr
      · exact absurd hwr (by unfold WrittenBy; decide)
  nothing := by
    intro c hc k hk
    have : ∀ c ∈ evHistory, ∀ e ∈ c.changes, e.2 ≠ .append [] := by decide
    exact absurd rfl (this c hc _ hk)

theorem ev_appended : AppendsEvolving codecDated some c!"utc" evCols evTree evHistory evWritten chHeld where
  bases := fun c hc k token hm => ⟨(ev_bases c hc k token hm).1, (ev_bases c hc k token hm).2.1⟩
  logs := ev_logs
  blocks := ev_blocks
  rollbacks := ev_rollbacks
  rows := by
    intro a c b he k ls hm v hv
    have hc : c ∈ evHistory := by rw [he]; simp
    obtain ⟨e1, rfl, rfl⟩ := only_append (h := evHistory) (by decide) c hc k ls hm
    have hap1 : AppendsTo evHistory f1 v.base (c!"1", c!"0-0-1") c := ⟨a, b, _, v, he, hm, by simp, hv, rfl⟩
    obtain ⟨_, e2, _, _⟩ := (ev_appends _ _ _ _).1 hap1
    refine ⟨by simp, x2Batch.rows, ?_, by rw [e1]; exact .refl _⟩
    rw [e1, e2]
    simp only [List.flatMap_cons, List.flatMap_nil, List.append_nil]
    show RecordsOf codecDated (blocksBy t2 [x1, x2, w3]) _
    rw [blocksBy_cons, if_neg (by decide), blocksBy_cons, if_pos (by decide), blocksBy_cons,
      if_neg (by decide)]
    exact ⟨[[x2Batch]], .cons rfl .nil, rfl⟩
  only := by
    intro k base l c hc w hw c' hc' hwr
    have h' := hc
    obtain ⟨rfl, rfl, rfl, rfl⟩ := (ev_appends _ _ _ _).1 hc
    replace hw : w ∈ [x1, x2, w3] := hw
    have hts : ∀ c ∈ evHistory, c.ts ≠ t1 ∧ c.ts ≠ t3 := by decide
    have hT2 : ∀ c ∈ evHistory, c.ts = t2 → c = ⟨t2, .deltaCommit, [(f1, .append [(c!"1", c!"0-0-1")])]⟩ := by
      decide
    simp only [List.mem_cons, List.not_mem_nil, or_false] at hw
    rcases hw with rfl | rfl | rfl
    · have : some t1 = some c'.ts := hwr
      exact absurd (Option.some.inj this).symm (hts c' hc').1
    · have : some t2 = some c'.ts := hwr
      rw [hT2 c' hc' (Option.some.inj this).symm]
      exact h'
    · have : some t3 = some c'.ts := hwr
      exact absurd (Option.some.inj this).symm (hts c' hc').2

theorem ev_every {P : Schema → Prop} (h1 : P incSchema) (h2 : P evSchema) : EveryFile evHistory evCols P := by
  intro c _ k _ _
  unfold evCols
  split
  · exact h2
  · exact h1

theorem ev_mergeColumns : EveryFile evHistory evCols (MergeColumns · c!"ts") :=
  ev_every ⟨by decide, by decide, _, rfl, rfl⟩ ⟨by decide, by decide, _, rfl, rfl⟩

theorem ev_commitTime : EveryFile evHistory evCols HasCommitTime := ev_every ⟨_, rfl, rfl⟩ ⟨_, rfl, rfl⟩

theorem ev_dated : DatedEvolving evCols evHistory evWritten chHeld where
  blocks := by
    rintro k base l c h w ⟨l', c', h', hw⟩ _
    have h1 := (ev_appends _ _ _ _).1 h
    have h2 := (ev_appends _ _ _ _).1 h'
    obtain ⟨rfl, rfl, rfl, rfl⟩ := h1
    obtain ⟨_, _, rfl, rfl⟩ := h2
    exact ⟨_, h', hw⟩
  records := by
    intro k base l c h
    obtain ⟨rfl, rfl, rfl, rfl⟩ := (ev_appends _ _ _ _).1 h
    decide

theorem ev_datedRows : DatedRowsEvolving evCols evHistory evWritten := by
  intro a c b he k ls hm v hv
  have hc : c ∈ evHistory := by rw [he]; simp
  obtain ⟨_, rfl, rfl⟩ := only_append (h := evHistory) (by decide) c hc k ls hm
  have hap1 : AppendsTo evHistory f1 v.base (c!"1", c!"0-0-1") c := ⟨a, b, _, v, he, hm, by simp, hv, rfl⟩
  obtain ⟨_, e2, _, rfl⟩ := (ev_appends _ _ _ _).1 hap1
  rw [e2]
  decide

end Demo

open Demo in
/-- The hypotheses of C80 are met by this table.  The latest snapshot has the new column in the file group that
was rewritten and not in the other one; the snapshot as of a time between the last two commits has it in
neither; the changes after the delta commit are the record that was written with a value in the new column. -/
example : MonotoneTz env.ltz ∧ WholeSecondsTz env.ltz ∧
    ListableTable env arrow [] evTree recTable c!"utc" evHistory 17 [] [] [] false false ∧
    StoresDocs evTree evHistory ∧ MergingReader recTable c!"utc" c!"ts" ∧ MetaFields recTable.opts ∧
    EveryFile evHistory evCols (MergeColumns · c!"ts") ∧ EveryFile evHistory evCols HasCommitTime ∧
    StoresEvolving codecDated env.ltz c!"utc" evCols evTree evHistory evWritten chHeld ∧
    DatedEvolving evCols evHistory evWritten chHeld ∧
    (recTable.readSnapshot env arrow codecDated (mergeEnv arrow) evTree [] []).2 = .ok [evNew, evOld] ∧
    (recTable.readSnapshotAsOf env arrow codecDated (mergeEnv arrow) evTree t3 [] []).2 =
      .ok [⟨incSchema, [datedRow c!"4" c!"C" c!"z" 9 t2, datedRow c!"1" c!"A" c!"ann" 5 t0]⟩, evOld] ∧
    recTable.readIncremental env arrow codecDated (mergeEnv arrow) evTree t2 (some t4) =
      .ok [⟨evSchema, [datedRow c!"1" c!"E" c!"eve" 1 t4 ++ [some (.str c!"hello")]]⟩] :=
  ⟨by intro a b a' b' h1 h2 h; cases h1; cases h2; exact h, by intro n d h; cases h; rfl, ev_listable, ev_docs,
    rec_reader, by decide, ev_mergeColumns, ev_commitTime, ev_records, ev_dated, by decide +kernel,
    by decide +kernel, by decide +kernel⟩

open Demo in
/-- The same table, when every record is kept. -/
example : ListableTable env arrow [] evTree everyTable c!"utc" evHistory 17 [] [] [] false false ∧
    StoresDocs evTree evHistory ∧ AppendingReader everyTable c!"utc" ∧ MetaFields everyTable.opts ∧
    EveryFile evHistory evCols HasCommitTime ∧
    AppendsEvolving codecDated env.ltz c!"utc" evCols evTree evHistory evWritten chHeld ∧
    DatedRowsEvolving evCols evHistory evWritten ∧
    (everyTable.readSnapshotAsOf env arrow codecDated (mergeEnv arrow) evTree t3 [] []).2 =
      .ok [⟨incSchema, base1.rows ++ x2Batch.rows⟩, evOld] ∧
    everyTable.readIncremental env arrow codecDated (mergeEnv arrow) evTree t2 (some t4) =
      .ok [⟨evSchema, [datedRow c!"1" c!"E" c!"eve" 1 t4 ++ [some (.str c!"hello")]]⟩] :=
  ⟨ev_listable_every, ev_docs, every_reader, by decide, ev_commitTime, ev_appended, ev_datedRows,
    by decide +kernel, by decide +kernel⟩

namespace Demo

/-- An insert; a delta commit. -/
def wideHistory : History :=
  [⟨t0, .commit, [(f1, .write c!"0-0-0")]⟩, ⟨t3, .deltaCommit, [(f1, .append [(c!"1", c!"0-0-1")])]⟩]

theorem wide_wf : wideHistory.WF 17 where
  ordered := by decide
  times := by decide
  once := by decide
  replaces := by
    intro c hc k hk
    have : ∀ c ∈ wideHistory, ∀ e ∈ c.changes, e.2 = .replace → c.action = .replaceCommit := by decide
    exact this c hc _ hk rfl
  gone := by
    have : wideHistory.Pairwise (fun c c' => ∀ e ∈ c.changes, e.2 = .replace →
      e.1 ∉ c'.changes.map Prod.fst) := by decide
    refine this.imp ?_
    intro c c' h k hk ch hch
    exact h _ hk rfl (List.mem_map.2 ⟨_, hch, rfl⟩)
  ids := by decide
  tokens := by
    intro c hc k token hk
    have : ∀ c ∈ wideHistory, ∀ e ∈ c.changes,
        (match e.2 with | .write token => decide (NamePart token) | _ => true) = true := by decide
    exact of_decide_eq_true (this c hc _ hk)
  logs := by
    intro c hc k ls hk
    have : ∀ c ∈ wideHistory, ∀ e ∈ c.changes,
        (match e.2 with | .append ls => decide (∀ l ∈ ls, NamePart l.1 ∧ NamePart l.2) | _ => true) = true := by
      decide
    exact of_decide_eq_true (this c hc _ hk)

theorem wide_listable : ListableTable env arrow [] wideTree morTable c!"utc" wideHistory 17 [] [] []
    false false where
  load := by decide +kernel
  tree := by decide
  zone := rfl
  history := wide_wf
  stores := stores_of (by decide) (by decide) (by decide) (partitionOf_mem (by decide) rfl) (by decide)
    (by decide) (by decide)
  parsed := rfl
  columns := (partitionSchema_ok (E := env) (o := []) (t0 := wideTree) (by decide +kernel)
    (timelineNames_normal (by decide))).1 (by decide +kernel)
  names := by unfold FieldNames; decide
  applicable := by simp
  style := ⟨rfl, rfl⟩
  parallelism := by intro v hv; cases hv
  docs := fun i hi ha => absurd ha (by revert i; decide)

theorem wide_reader : MergingReader morTable c!"utc" c!"ts" :=
  ⟨⟨by simp [HmNodup, morTable], by simp [morTable]⟩, ⟨by decide, rfl, by decide⟩, rfl, rfl⟩

end Demo

open Demo in
/-- **C80 is false.**  The latest commit of a table appends a record with a value in a new column to the log file
of its file group.  Reading the table returns the record without the value: no batch has the column. -/
theorem C80_false : ∃ (E : Env) (A : Arrow) (C : Codec) (M : MergeEnv A) (o : Opts) (t : Tree) (tb : Table)
    (h : History) (c : HCommit) (k : GroupKey) (base : Str) (l : Str × Str) (w : WBlock) (b : Batch)
    (r : List Cell) (v : Str) (outs : List Batch),
    ListableTable E A o t tb c!"utc" h 17 [] [] [] false false ∧ MergingReader tb c!"utc" c!"ts" ∧
    h.getLast? = some c ∧ AppendsTo h k base l c ∧ LogAt C t (logPathOf k base l) [w] ∧
    GoodBlock C E.ltz c!"utc" w ∧ WrittenBy w c.ts ∧ Decodes C w [b] ∧ r ∈ b.rows ∧
    cellOf b.schema c!"note" r = some (.str v) ∧
    (tb.readSnapshot E A C M t [] []).2 = .ok outs ∧
    ∀ out ∈ outs, (∀ f ∈ out.schema, f.name ≠ c!"note") ∧ ∀ r' ∈ out.rows, some (.str v) ∉ r' := by
  refine ⟨env, arrow, codecWide, mergeEnv arrow, [], wideTree, morTable, wideHistory, _, f1, t0,
    (c!"1", c!"0-0-1"), w5, ⟨wideSchema, [wideRow]⟩, wideRow, c!"new", [wideOut], wide_listable, wide_reader, rfl,
    appendsTo_mem.2 (by decide), ⟨1, _, rfl, rfl⟩,
    ⟨⟨by decide, by unfold MetaFits; decide, by intro _; unfold MetaFits; decide, by decide,
      (by intro rs h; cases h), (by intro t b h; cases h)⟩, ⟨_, rfl⟩, ⟨t3, _, rfl, rfl⟩,
      fun h => absurd h.1 (by decide)⟩, rfl, rfl, by simp, rfl, by decide +kernel, by decide⟩

end Hudi
