import Verif.Props.Appended
import Verif.Props.ChangesDemo

/-! # C76: a table that meets the hypotheses, and a counterexample -/

namespace Hudi
open Spec
namespace Demo

/-- The delta commit wrote its record twice. -/
def everyWritten : Written :=
  { chWritten with appended := fun ts k => if ts = t2 ∧ k = f1 then x2Batch.rows ++ x2Batch.rows else [] }

def everyTree : Tree :=
  .dir c!".hoodie" (.file c!"20231231000000000.commit" 1 (.json (.obj chDoc0))
    (.file c!"20240102000000000.deltacommit" 1 (.json (.obj chDoc2))
    (.file c!"20240104000000000.commit" 1 (.json (.obj chDoc4)) .nil)))
  (.file morBase 1 (.parquet 1 base1) (.file morLog 1 (.bytes (logBytes [x1, x2, x2, w3]))
    (.file recBase 1 (.parquet 1 base2) .nil)))

def everyOpts : Opts := (c!"hoodie.table.record.merge.strategy", c!"APPEND_ONLY") :: morOpts

def everyTable : Table := { recTable with opts := everyOpts }

def everyHeld (p : Str) : List WBlock := if p = morLog then [x1, x2, x2, w3] else []

/-- The other write is still in flight. -/
def keptTable : Table := { dirtyTable with opts := everyOpts }

theorem every_stored : Stores env.ltz c!"utc" everyTable.opts everyTree recHistory :=
  stores_of (by decide) (by decide) (by decide) (partitionOf_mem (by decide) rfl) (by decide) (by decide)
    (by decide)

theorem kept_stored : Stores env.ltz c!"utc" keptTable.opts flightTree recFirst :=
  stores_of (by decide) (by decide) (by decide) (partitionOf_mem (by decide) rfl) (by decide) (by decide)
    (by decide)

theorem every_docs : StoresDocs everyTree recHistory := by
  refine storesDocs_of chDocs chWrites (by decide) ?_ (fun x hx => chDocs_record _ ?_) (by decide) (by decide)
    (by decide)
  · intro x hx
    simp only [recHistory, recFirst, splitsOf, List.cons_append, List.nil_append, List.mem_cons,
      List.not_mem_nil, or_false] at hx
    rcases hx with rfl | rfl | rfl
    exacts [⟨1, rfl⟩, ⟨1, rfl⟩, ⟨1, rfl⟩]
  · revert x; decide

theorem every_listable : ListableTable env arrow [] everyTree everyTable c!"utc" recHistory 17 [] [] []
    false false where
  load := rfl
  tree := by decide
  zone := rfl
  history := rec_wf
  stores := every_stored
  parsed := rfl
  columns := (partitionSchema_ok (E := env) (o := []) (t0 := everyTree) rfl
    (timelineNames_normal (by decide))).1 (by decide +kernel)
  names := by unfold FieldNames; decide
  applicable := by simp
  style := ⟨rfl, rfl⟩
  parallelism := by intro v hv; cases hv
  docs := fun i hi ha => absurd ha (by revert i; decide)

theorem kept_listable : ListableTable env arrow [] flightTree keptTable c!"utc" recFirst 17 [] [] []
    false false where
  load := rfl
  tree := by decide
  zone := rfl
  history := rec_wf.prefix (h' := [⟨t4, .commit, [(f2, .write c!"0-4-1")]⟩])
  stores := kept_stored
  parsed := rfl
  columns := (partitionSchema_ok (E := env) (o := []) (t0 := flightTree) rfl
    (timelineNames_normal (by decide))).1 (by decide +kernel)
  names := by unfold FieldNames; decide
  applicable := by simp
  style := ⟨rfl, rfl⟩
  parallelism := by intro v hv; cases hv
  docs := fun i hi ha => absurd ha (by revert i; decide)

theorem every_reader : AppendingReader everyTable c!"utc" :=
  ⟨⟨by simp [HmNodup, everyTable, recTable], by simp [everyTable, recTable]⟩, by decide, by decide, rfl, rfl⟩

theorem kept_reader : AppendingReader keptTable c!"utc" :=
  ⟨⟨by simp [HmNodup, keptTable, dirtyTable], by simp [keptTable, dirtyTable]⟩, by decide, by decide, rfl, rfl⟩

/-- Both tables hold their records. -/
theorem stores_every {t : Tree} {h : History} {W : Written} {held : Str → List WBlock} (ws : List WBlock)
    (hws : ∀ w ∈ ws, w ∈ [x1, x2, w3])
    (hap : ∀ k base l c, AppendsTo h k base l c ↔ k = f1 ∧ base = t0 ∧
      l = (c!"1", c!"0-0-1") ∧ c = ⟨t2, .deltaCommit, [(f1, .append [(c!"1", c!"0-0-1")])]⟩)
    (hheld : held morLog = ws) (hlog : LogAt codecDated t morLog ws)
    (hbase : ∀ c ∈ h, ∀ e ∈ c.changes, ∀ token, e.2 = .write token →
      ParquetAt t (basePathOf e.1 token c.ts) ⟨incSchema, W.base c.ts e.1⟩ ∧
      W.base c.ts e.1 ∈ [base1.rows, base2.rows])
    (hts : ∀ c ∈ h, c.ts ≠ t1 ∧ c.ts ≠ t3)
    (hone : ∀ c ∈ h, ∀ k ls, (k, Change.append ls) ∈ c.changes → c.ts = t2 ∧ k = f1 ∧ ls = [(c!"1", c!"0-0-1")])
    (hT2 : ∀ c ∈ h, c.ts = t2 → c = ⟨t2, .deltaCommit, [(f1, .append [(c!"1", c!"0-0-1")])]⟩)
    (hrows : ∃ rows, RecordsOf codecDated (blocksBy t2 ws) rows ∧ rows.Perm (W.appended t2 f1)) :
    StoresAppends codecDated some c!"utc" incSchema t h W held where
  bases := by
    intro c hc k token hm
    obtain ⟨h1, h2⟩ := hbase c hc _ hm token rfl
    simp only [List.mem_cons, List.not_mem_nil, or_false] at h2
    refine ⟨h1, ?_⟩
    rcases h2 with h2 | h2 <;> rw [h2] <;> unfold Batch.WF <;> decide
  logs := by
    intro k base l c h
    obtain ⟨rfl, rfl, rfl, rfl⟩ := (hap _ _ _ _).1 h
    show LogAt codecDated t morLog (held morLog)
    rw [hheld]; exact hlog
  blocks := by
    rintro k base w ⟨l, c, h, hw⟩
    obtain ⟨rfl, rfl, rfl, rfl⟩ := (hap _ _ _ _).1 h
    replace hw : w ∈ held morLog := hw
    rw [hheld] at hw
    refine ⟨?_, dated_fit w (hws w hw)⟩
    have hw' := hws w hw
    simp only [List.mem_cons, List.not_mem_nil, or_false] at hw'
    rcases hw' with rfl | rfl | rfl
    exacts [x1_good, x2_good, w3_good]
  rollbacks := by
    rintro k base w i ⟨l, c, h, hw⟩ hr d hd
    obtain ⟨rfl, rfl, rfl, rfl⟩ := (hap _ _ _ _).1 h
    replace hw : w ∈ held morLog := hw
    rw [hheld] at hw
    have hw' := hws w hw
    simp only [List.mem_cons, List.not_mem_nil, or_false] at hw'
    rcases hw' with rfl | rfl | rfl
    · exact absurd hr.1.1 (by decide)
    · exact absurd hr.1.1 (by decide)
    · have : some i = some t1 := hr.2.symm
      cases this
      exact (hts d hd).1
  rows := by
    intro a c b he k ls hm v hv
    have hc : c ∈ h := by rw [he]; simp
    obtain ⟨e1, rfl, rfl⟩ := hone c hc k ls hm
    have hap1 : AppendsTo h f1 v.base (c!"1", c!"0-0-1") c := ⟨a, b, _, v, he, hm, by simp, hv, rfl⟩
    obtain ⟨_, e2, _, _⟩ := (hap _ _ _ _).1 hap1
    refine ⟨by simp, ?_⟩
    rw [e1, e2]
    simp only [List.flatMap_cons, List.flatMap_nil, List.append_nil]
    show ∃ rows, RecordsOf codecDated (blocksBy t2 (held morLog)) rows ∧ _
    rw [hheld]
    exact hrows
  only := by
    intro k base l c hc w hw c' hc' hwr
    obtain ⟨rfl, rfl, rfl, rfl⟩ := (hap _ _ _ _).1 hc
    replace hw : w ∈ held morLog := hw
    rw [hheld] at hw
    have hw' := hws w hw
    simp only [List.mem_cons, List.not_mem_nil, or_false] at hw'
    rcases hw' with rfl | rfl | rfl
    · have : some t1 = some c'.ts := hwr
      exact absurd (Option.some.inj this).symm (hts c' hc').1
    · have : some t2 = some c'.ts := hwr
      rw [hT2 c' hc' (Option.some.inj this).symm]
      exact hc
    · have : some t3 = some c'.ts := hwr
      exact absurd (Option.some.inj this).symm (hts c' hc').2

/-- The appends of a history, by computation. -/
theorem only_append {h : History} (hx : ∀ c ∈ h, ∀ e ∈ c.changes, (match e.2 with
      | .append ls => decide (c.ts = t2 ∧ e.1 = f1 ∧ ls = [(c!"1", c!"0-0-1")])
      | _ => true) = true) :
    ∀ c ∈ h, ∀ k ls, (k, Change.append ls) ∈ c.changes → c.ts = t2 ∧ k = f1 ∧ ls = [(c!"1", c!"0-0-1")] :=
  fun c hc _ _ hm => of_decide_eq_true (hx c hc _ hm)

open Classical in
theorem blocksBy_cons (ts : Str) (w : WBlock) (ws : List WBlock) :
    blocksBy ts (w :: ws) = if lastValue .instantTime w.header = some ts then w :: blocksBy ts ws
      else blocksBy ts ws := by
  unfold blocksBy
  rw [List.filter_cons]
  by_cases h : lastValue .instantTime w.header = some ts
  · rw [if_pos h, if_pos (decide_eq_true (show WrittenBy w ts from h))]
  · rw [if_neg h, if_neg (by rw [decide_eq_true_iff]; exact h)]

theorem every_records : StoresAppends codecDated some c!"utc" incSchema everyTree recHistory everyWritten
    everyHeld := by
  refine stores_every [x1, x2, x2, w3] (by simp) ch_appends rfl ⟨1, _, rfl, rfl⟩ ?_ (by decide)
    (only_append (by decide)) (by decide) ⟨x2Batch.rows ++ x2Batch.rows, ?_, .refl _⟩
  · intro c hc e he token ht
    simp only [recHistory, recFirst, List.cons_append, List.nil_append, List.mem_cons,
      List.not_mem_nil, or_false] at hc
    rcases hc with rfl | rfl | rfl <;> rw [List.mem_singleton] at he <;> subst he <;> cases ht
    · exact ⟨⟨1, 1, _, rfl⟩, by decide⟩
    · exact ⟨⟨1, 1, _, rfl⟩, by decide⟩
  · rw [blocksBy_cons, if_neg (by decide), blocksBy_cons, if_pos (by decide), blocksBy_cons,
      if_pos (by decide), blocksBy_cons, if_neg (by decide)]
    exact ⟨[[x2Batch], [x2Batch]], .cons rfl (.cons rfl .nil), rfl⟩

theorem kept_records : StoresAppends codecDated some c!"utc" incSchema flightTree recFirst chWritten
    flightHeld := by
  refine stores_every [x1, x2] (by simp) flight_appends rfl ⟨1, _, rfl, rfl⟩ ?_ (by decide)
    (only_append (by decide)) (by decide) ⟨x2Batch.rows, ?_, .refl _⟩
  · intro c hc e he token ht
    simp only [recFirst, List.mem_cons, List.not_mem_nil, or_false] at hc
    rcases hc with rfl | rfl <;> rw [List.mem_singleton] at he <;> subst he <;> cases ht
    exact ⟨⟨1, 1, _, rfl⟩, by decide⟩
  · rw [blocksBy_cons, if_neg (by decide), blocksBy_cons, if_pos (by decide)]
    exact ⟨[[x2Batch]], .cons rfl .nil, rfl⟩

theorem every_pending : NoPendingBlocks some c!"utc" t4 recHistory everyHeld := by
  rintro k base w i ⟨l, c, hap, hw⟩ hwr _
  have hap' := hap
  obtain ⟨rfl, rfl, rfl, rfl⟩ := appends_rec hap
  replace hw : w ∈ [x1, x2, x2, w3] := hw
  simp only [List.mem_cons, List.not_mem_nil, or_false, or_self_left] at hw
  rcases hw with rfl | rfl | rfl
  · refine .inr (.inr ⟨w3, ⟨_, _, hap', ?_⟩, ⟨⟨rfl, _, rfl, rfl⟩, ?_⟩, t3, _, _, rfl, rfl, rfl, ?_⟩)
    · show w3 ∈ [x1, x2, x2, w3]
      simp
    · exact hwr
    · left; unfold Before; decide
  · refine .inr (.inl ⟨_, _, hap', ?_⟩)
    have : some t2 = some i := hwr
    cases this
    rfl
  · exact .inl ⟨rfl, _, rfl, rfl⟩

theorem every_pending_span : NoPendingInSpan some c!"utc" t0 t4 recHistory everyHeld := by
  rintro k base w i ⟨l, c, hap, hin, hw⟩ hwr _
  have hap' := hap
  obtain ⟨rfl, rfl, rfl, rfl⟩ := appends_rec hap
  replace hw : w ∈ [x1, x2, x2, w3] := hw
  simp only [List.mem_cons, List.not_mem_nil, or_false, or_self_left] at hw
  rcases hw with rfl | rfl | rfl
  · refine .inr (.inr ⟨w3, ⟨_, _, hap', hin, ?_⟩, ⟨⟨rfl, _, rfl, rfl⟩, ?_⟩, t3, _, _, _, rfl, rfl, rfl, rfl, ?_, ?_⟩)
    · show w3 ∈ [x1, x2, x2, w3]
      simp
    · exact hwr
    · unfold Before; decide
    · left; unfold Before; decide
  · refine .inr (.inl ⟨_, _, hap', ?_⟩)
    have : some t2 = some i := hwr
    cases this
    rfl
  · exact .inl ⟨rfl, _, rfl, rfl⟩

end Demo

open Demo in
/-- The hypotheses of C76 are met by this table, to which a record was appended twice; it is read twice. -/
example : MonotoneTz env.ltz ∧ WholeSecondsTz env.ltz ∧
    ListableTable env arrow [] everyTree everyTable c!"utc" recHistory 17 [] [] [] false false ∧
    AppendingReader everyTable c!"utc" ∧
    StoresAppends codecDated env.ltz c!"utc" incSchema everyTree recHistory everyWritten everyHeld ∧
    (∀ c, recHistory.getLast? = some c → NoPendingBlocks env.ltz c!"utc" c.ts recHistory everyHeld) ∧
    recordsAfter everyWritten recHistory f1 = base1.rows ++ (x2Batch.rows ++ x2Batch.rows) ∧
    (everyTable.readSnapshot env arrow codecDated (mergeEnv arrow) everyTree [] []).2 =
      .ok [⟨incSchema, base1.rows ++ (x2Batch.rows ++ x2Batch.rows)⟩, base2] :=
  ⟨by intro a b a' b' h1 h2 h; cases h1; cases h2; exact h, by intro n d h; cases h; rfl, every_listable,
    every_reader, every_records, by intro c hc; cases hc; exact every_pending, by decide, by decide +kernel⟩

open Demo in
/-- The hypotheses of the theorem on changes are met; the record appended twice after the first commit is
returned twice. -/
example : Timeline.load env [] everyTree = .ok everyTable.timeline ∧
    TreeWF everyTree ∧ timezoneOf everyTable.timeline.opts = .ok c!"utc" ∧ recHistory.WF 17 ∧
    Stores env.ltz c!"utc" everyTable.opts everyTree recHistory ∧ StoresDocs everyTree recHistory ∧
    AppendingReader everyTable c!"utc" ∧ MetaFields everyTable.opts ∧
    HasCommitTime incSchema ∧
    StoresAppends codecDated env.ltz c!"utc" incSchema everyTree recHistory everyWritten everyHeld ∧
    DatedRecords incSchema recHistory everyWritten ∧ NoPendingInSpan env.ltz c!"utc" t0 t4 recHistory everyHeld ∧
    everyTable.readIncremental env arrow codecDated (mergeEnv arrow) everyTree t0 (some t4) =
      .ok [⟨incSchema, x2Batch.rows ++ x2Batch.rows⟩, base2] :=
  ⟨rfl, by decide, rfl, rec_wf, every_stored, every_docs, every_reader, by decide, ⟨_, rfl, rfl⟩,
    every_records, by
      intro c hc k ls hm
      obtain ⟨e1, e2, _⟩ := only_append (h := recHistory) (by decide) c hc k ls hm
      rw [e1, e2]
      decide, every_pending_span, by decide +kernel⟩

open Demo in
/-- **C76 is false.**  A delta commit completes while an earlier one, which has appended a block to the same
log file, is still in flight: reading the table returns the records of the one in flight, which no commit of
the history wrote. -/
theorem C76_false : ∃ (E : Env) (A : Arrow) (C : Codec) (M : MergeEnv A) (o : Opts) (t : Tree) (tb : Table)
    (h : History) (schema : Schema) (W : Written) (held : Str → List WBlock) (outs : List Batch),
    MonotoneTz E.ltz ∧ WholeSecondsTz E.ltz ∧
    ListableTable E A o t tb c!"utc" h 17 [] [] [] false false ∧ AppendingReader tb c!"utc" ∧
    StoresAppends C E.ltz c!"utc" schema t h W held ∧
    (tb.readSnapshot E A C M t [] []).2 = .ok outs ∧
    ∃ out ∈ outs, ∃ r ∈ out.rows, ∀ k, r ∉ recordsAfter W h k := by
  refine ⟨env, arrow, codecDated, mergeEnv arrow, [], flightTree, keptTable, recFirst, incSchema, chWritten,
    flightHeld, [⟨incSchema, base1.rows ++ (x1Batch.rows ++ x2Batch.rows)⟩],
    by intro a b a' b' h1 h2 h; cases h1; cases h2; exact h, by intro n d h; cases h; rfl, kept_listable,
    kept_reader, kept_records, by decide +kernel, _, List.mem_singleton_self _,
    datedRow c!"3" c!"B" c!"y" 1 t1, by decide, ?_⟩
  intro k hk
  obtain ⟨ts, h | h⟩ := recordsAfter_sub hk
  · have : ∀ rows, rows = chWritten.base ts k → rows = base1.rows ∨ rows = base2.rows ∨ rows = [] := by
      rintro rows rfl
      show (if _ then _ else _) = _ ∨ (if _ then _ else _) = _ ∨ (if _ then _ else _) = _
      split
      · exact .inl rfl
      · split
        · exact .inr (.inl rfl)
        · exact .inr (.inr rfl)
    rcases this _ rfl with e | e | e <;> rw [e] at h
    · exact absurd h (by decide)
    · exact absurd h (by decide)
    · cases h
  · have : ∀ rows, rows = chWritten.appended ts k → rows = x2Batch.rows ∨ rows = [] := by
      rintro rows rfl
      show (if _ then _ else _) = _ ∨ (if _ then _ else _) = _
      split
      · exact .inl rfl
      · exact .inr rfl
    rcases this _ rfl with e | e <;> rw [e] at h
    · exact absurd h (by decide)
    · cases h

open Classical in
theorem Demo.filter_flight {P : WBlock → Prop} (h1 : P Demo.x1) (h2 : ¬ P Demo.x2) :
    [Demo.x1, Demo.x2].filter (fun w => decide (P w)) = [Demo.x1] := by
  rw [List.filter_cons, if_pos (decide_eq_true h1), List.filter_cons,
    if_neg (by rw [decide_eq_true_iff]; exact h2), List.filter_nil]

open Demo in
/-- In the table of `C76_false`, which meets the hypotheses of `C76_every_record_and_pending`, the pending
records of the file group are those of the delta commit in flight. -/
example : PendingRecords codecDated some c!"utc" t2 recFirst flightHeld f1 x1Batch.rows := by
  classical
  have hap : AppendsTo recFirst f1 t0 (c!"1", c!"0-0-1")
      ⟨t2, .deltaCommit, [(f1, .append [(c!"1", c!"0-0-1")])]⟩ := (flight_appends _ _ _ _).2 ⟨rfl, rfl, rfl, rfl⟩
  refine ⟨⟨t0, c!"0-0-0", [(c!"1", c!"0-0-1")]⟩, [(c!"1", c!"0-0-1")], by decide, by simp, ?_, ?_⟩
  · intro l
    rw [List.mem_singleton]
    constructor
    · rintro rfl
      exact ⟨_, hap⟩
    · rintro ⟨c, h⟩
      exact ((flight_appends _ _ _ _).1 h).2.2.1
  · rw [show [(c!"1", c!"0-0-1")].flatMap (fun l => flightHeld (logPathOf f1 t0 l)) = [x1, x2] from rfl,
      filter_flight ?_ ?_]
    · exact ⟨[[x1Batch]], .cons rfl .nil, rfl⟩
    · refine ⟨⟨_, _, hap, ?_⟩, ⟨t1, _, _, rfl, rfl, rfl, by left; unfold Before; decide⟩, ?_, ?_⟩
      · show x1 ∈ [x1, x2]
        simp
      · intro l c h
        obtain ⟨_, _, _, rfl⟩ := appends_dirty h
        unfold WrittenBy
        decide
      · rintro w' i ⟨l, c, h, hw⟩ hrb
        obtain ⟨_, _, rfl, rfl⟩ := appends_dirty h
        replace hw : w' ∈ [x1, x2] := hw
        simp only [List.mem_cons, List.not_mem_nil, or_false] at hw
        rcases hw with rfl | rfl <;> exact absurd hrb.1.1 (by decide)
    · intro h
      exact h.notCompleted _ _ hap rfl

open Demo in
/-- The hypotheses of `C76_every_change_and_pending` are met by that table; the pending changes of the file
group are the records of the delta commit in flight, and they are returned. -/
example : Timeline.load env [] flightTree = .ok keptTable.timeline ∧
    TreeWF flightTree ∧ timezoneOf keptTable.timeline.opts = .ok c!"utc" ∧
    recFirst.WF 17 ∧ Stores env.ltz c!"utc" keptTable.opts flightTree recFirst ∧
    StoresDocs flightTree recFirst ∧ AppendingReader keptTable c!"utc" ∧ MetaFields keptTable.opts ∧
    HasCommitTime incSchema ∧
    StoresAppends codecDated env.ltz c!"utc" incSchema flightTree recFirst chWritten flightHeld ∧
    DatedRecords incSchema recFirst chWritten ∧
    PendingChanges codecDated env.ltz c!"utc" t0 t2 recFirst flightHeld f1 x1Batch.rows ∧
    keptTable.readIncremental env arrow codecDated (mergeEnv arrow) flightTree t0 (some t2) =
      .ok [⟨incSchema, x1Batch.rows ++ x2Batch.rows⟩] := by
  classical
  have hap : AppendsTo recFirst f1 t0 (c!"1", c!"0-0-1")
      ⟨t2, .deltaCommit, [(f1, .append [(c!"1", c!"0-0-1")])]⟩ := (flight_appends _ _ _ _).2 ⟨rfl, rfl, rfl, rfl⟩
  have hin : InSpan t0 t2 ⟨t2, .deltaCommit, [(f1, .append [(c!"1", c!"0-0-1")])]⟩ := by unfold InSpan; decide
  refine ⟨rfl, by decide, rfl, rec_wf.prefix (h' := [⟨t4, .commit, [(f2, .write c!"0-4-1")]⟩]), kept_stored,
    flight_docs, kept_reader, by decide, ⟨_, rfl, rfl⟩, kept_records, ?_,
    ⟨⟨t0, c!"0-0-0", [(c!"1", c!"0-0-1")]⟩, [(c!"1", c!"0-0-1")], by decide, by simp, ?_, ?_⟩, by decide +kernel⟩
  · intro c hc k ls hm
    obtain ⟨e1, e2, _⟩ := only_append (h := recFirst) (by decide) c hc k ls hm
    rw [e1, e2]
    decide
  · intro l
    rw [List.mem_singleton]
    constructor
    · rintro rfl
      exact ⟨_, hap, hin⟩
    · rintro ⟨c, h, _⟩
      exact ((flight_appends _ _ _ _).1 h).2.2.1
  · rw [show [(c!"1", c!"0-0-1")].flatMap (fun l => flightHeld (logPathOf f1 t0 l)) = [x1, x2] from rfl,
      filter_flight ?_ ?_]
    · exact ⟨[[x1Batch]], .cons rfl .nil, rfl⟩
    · refine ⟨⟨_, _, hap, hin, ?_⟩,
        ⟨t1, _, _, _, rfl, rfl, rfl, rfl, by unfold Before; decide, by left; unfold Before; decide⟩, ?_, ?_⟩
      · show x1 ∈ [x1, x2]
        simp
      · intro l c h
        obtain ⟨_, _, _, rfl⟩ := appends_dirty h
        unfold WrittenBy
        decide
      · rintro w' i ⟨l, c, h, _, hw⟩ hrb
        obtain ⟨_, _, rfl, rfl⟩ := appends_dirty h
        replace hw : w' ∈ [x1, x2] := hw
        simp only [List.mem_cons, List.not_mem_nil, or_false] at hw
        rcases hw with rfl | rfl <;> exact absurd hrb.1.1 (by decide)
    · intro h
      exact h.notCompleted _ _ hap rfl

end Hudi
