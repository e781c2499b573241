import Verif.Props.Changes
import Verif.Props.RecordsDemo

/-! # C60: tables that meet the hypotheses, and a counterexample -/

namespace Hudi
open Spec
namespace Demo

def datedRow (a k n : Str) (v : Nat) (t : Str) : List Cell := mRow a k n v ++ [some (.str t)]

/-- A codec whose parquet blocks hold one row with its commit time. -/
def codecDated : Codec :=
  { codec with parquet := fun l => match l with
      | [80, a, b, c, d, 1, 69] => .ok [⟨incSchema, [rowOfBytes [a, b, c, d] ++ [some (.str t1)]]⟩]
      | [80, a, b, c, d, 2, 69] => .ok [⟨incSchema, [rowOfBytes [a, b, c, d] ++ [some (.str t2)]]⟩]
      | _ => .err .parquet }

/-- The block of a write that failed. -/
def x1 : WBlock := ⟨.v1, [(.instantTime, t1)], .parquet [80, 51, 66, 121, 1, 1, 69], [], 0, 0⟩

/-- The block of the delta commit. -/
def x2 : WBlock := ⟨.v1, [(.instantTime, t2)], .parquet [80, 52, 67, 122, 9, 2, 69], [], 0, 0⟩

def x1Batch : Batch := ⟨incSchema, [datedRow c!"3" c!"B" c!"y" 1 t1]⟩
def x2Batch : Batch := ⟨incSchema, [datedRow c!"4" c!"C" c!"z" 9 t2]⟩

theorem x1_good : GoodBlock codecDated some c!"utc" x1 where
  wf := ⟨by decide, by unfold MetaFits; decide, by intro _; unfold MetaFits; decide, by decide,
    (by intro rs h; cases h), (by intro t b h; cases h)⟩
  decodes := ⟨[x1Batch], rfl⟩
  time := ⟨t1, _, rfl, rfl⟩
  target := fun h => absurd h.1 (by decide)

theorem x2_good : GoodBlock codecDated some c!"utc" x2 where
  wf := ⟨by decide, by unfold MetaFits; decide, by intro _; unfold MetaFits; decide, by decide,
    (by intro rs h; cases h), (by intro t b h; cases h)⟩
  decodes := ⟨[x2Batch], rfl⟩
  time := ⟨t2, _, rfl, rfl⟩
  target := fun h => absurd h.1 (by decide)

theorem w3_good : GoodBlock codecDated some c!"utc" w3 where
  wf := w3_wf
  decodes := ⟨[], rfl⟩
  time := ⟨t3, _, rfl, rfl⟩
  target := fun h => ⟨t1, h, rfl⟩

theorem dated_fit (w : WBlock) (hw : w ∈ [x1, x2, w3]) : BatchesFit codecDated incSchema [w] := by
  intro w' h' bs h b hb
  rw [List.mem_singleton.1 h'] at h
  simp only [List.mem_cons, List.not_mem_nil, or_false] at hw
  rcases hw with rfl | rfl | rfl
  · rw [decodes_det h (show Decodes codecDated x1 [x1Batch] from rfl), List.mem_singleton] at hb
    subst hb
    exact ⟨by unfold Batch.WF; decide, rfl⟩
  · rw [decodes_det h (show Decodes codecDated x2 [x2Batch] from rfl), List.mem_singleton] at hb
    subst hb
    exact ⟨by unfold Batch.WF; decide, rfl⟩
  · rw [decodes_det h (show Decodes codecDated w3 [] from rfl)] at hb
    cases hb

/-- The rows of the two base files. -/
def base1 : Batch := ⟨incSchema, [datedRow c!"1" c!"A" c!"ann" 5 t0, datedRow c!"1" c!"C" c!"bob" 7 t0]⟩
def base2 : Batch := ⟨incSchema, [datedRow c!"1" c!"D" c!"dan" 5 t4]⟩

def chWritten : Written where
  base := fun ts k => if ts = t0 ∧ k = f1 then base1.rows else if ts = t4 ∧ k = f2 then base2.rows else []
  appended := fun ts k => if ts = t2 ∧ k = f1 then x2Batch.rows else []

def chDoc0 : List (Str × Json) :=
  [(c!"partitionToWriteStats", .obj [([], .arr [.obj [(c!"fileId", .str c!"f1"), (c!"path", .str morBase)]])])]

def chDoc2 : List (Str × Json) :=
  [(c!"partitionToWriteStats", .obj [([], .arr [.obj [(c!"fileId", .str c!"f1"), (c!"path", .str morLog),
    (c!"baseFile", .str morBase), (c!"logFiles", .arr [.str morLog])]])])]

def chDoc4 : List (Str × Json) :=
  [(c!"partitionToWriteStats", .obj [([], .arr [.obj [(c!"fileId", .str c!"f2"), (c!"path", .str recBase)]])])]

/-- The log file holds the block of a write that failed, that of the delta commit, and the rollback of the
failed write. -/
def chTree : Tree :=
  .dir c!".hoodie" (.file c!"20231231000000000.commit" 1 (.json (.obj chDoc0))
    (.file c!"20240102000000000.deltacommit" 1 (.json (.obj chDoc2))
    (.file c!"20240104000000000.commit" 1 (.json (.obj chDoc4)) .nil)))
  (.file morBase 1 (.parquet 1 base1) (.file morLog 1 (.bytes (logBytes [x1, x2, w3]))
    (.file recBase 1 (.parquet 1 base2) .nil)))

def chHeld (p : Str) : List WBlock := if p = morLog then [x1, x2, w3] else []

/-- The other write is still in flight. -/
def flightTree : Tree :=
  .dir c!".hoodie" (.file c!"20231231000000000.commit" 1 (.json (.obj chDoc0))
    (.file c!"20240101000000000.deltacommit.inflight" 1 .junk
    (.file c!"20240102000000000.deltacommit" 1 (.json (.obj chDoc2)) .nil)))
  (.file morBase 1 (.parquet 1 base1) (.file morLog 1 (.bytes (logBytes [x1, x2])) .nil))

def flightHeld (p : Str) : List WBlock := if p = morLog then [x1, x2] else []

end Demo

theorem Demo.ch_stored : Stores Demo.env.ltz c!"utc" Demo.recTable.opts Demo.chTree Demo.recHistory :=
  stores_of (by decide) (by decide) (by decide) (partitionOf_mem (by decide) rfl) (by decide) (by decide)
    (by decide)

theorem Demo.flight_stored : Stores Demo.env.ltz c!"utc" Demo.dirtyTable.opts Demo.flightTree Demo.recFirst :=
  stores_of (by decide) (by decide) (by decide) (partitionOf_mem (by decide) rfl) (by decide) (by decide)
    (by decide)

/-- The ways to split a list of commits. -/
def splitsOf (before : History) : History → List (History × HCommit)
  | [] => []
  | c :: h => (before, c) :: splitsOf (before ++ [c]) h

theorem mem_splitsOf {before h h1 h2 : History} {c : HCommit} (he : h = h1 ++ c :: h2) :
    (before ++ h1, c) ∈ splitsOf before h := by
  induction h1 generalizing before h with
  | nil => subst he; simp [splitsOf]
  | cons d h1 ih =>
    subst he
    have := ih (before := before ++ [d]) rfl
    simp only [List.append_assoc, List.cons_append, List.nil_append] at this
    simp [splitsOf, this]

/-- Checking by computation that a tree holds the metadata of the commits. -/
theorem storesDocs_of {t : Tree} {h : History} (doc : Str → List (Str × Json)) (ws : Str → List Write)
    (h0 : ∀ x ∈ splitsOf [] h, ∀ e ∈ x.2.changes, (match e.2 with
      | .append _ => (versionAfter x.1 e.1).isSome | _ => true) = true)
    (h1 : ∀ x ∈ splitsOf [] h, ∃ size, t.fileAt [c!".hoodie", x.2.ts ++ c!"." ++ suffix x.2.action .completed] =
      some (size, .json (.obj (doc x.2.ts))))
    (h2 : ∀ x ∈ splitsOf [] h, RecordsWrites (doc x.2.ts) (ws x.2.ts))
    (h3 : ∀ x ∈ splitsOf [] h, ((ws x.2.ts).map Write.id).Nodup)
    (h4 : ∀ x ∈ splitsOf [] h, x.2.action ≠ .replaceCommit)
    (h5 : ∀ x ∈ splitsOf [] h, ws x.2.ts = x.2.changes.filterMap (fun e => writeOf x.1 x.2.ts e.1 e.2)) :
    StoresDocs t h where
  based := by
    intro a c b he k ls hm
    have := h0 (a, c) (mem_splitsOf he) _ hm
    intro hn
    simp only [hn] at this
    cases this
  docs := by
    intro a c b he
    have hm : (a, c) ∈ splitsOf [] h := mem_splitsOf he
    obtain ⟨size, hs⟩ := h1 _ hm
    refine ⟨doc c.ts, size, ws c.ts, hs, h2 _ hm, h3 _ hm, fun ha => absurd ha (h4 _ hm), ?_⟩
    intro w
    rw [show ws c.ts = _ from h5 _ hm, List.mem_filterMap]
    constructor
    · rintro ⟨⟨k, ch⟩, k1, k2⟩
      exact ⟨k, ch, k1, k2⟩
    · rintro ⟨k, ch, k1, k2⟩
      exact ⟨⟨k, ch⟩, k1, k2⟩

namespace Demo

def chBase1 : BaseFile := ⟨c!"f1", c!"0-0-0", t0, c!"parquet", none⟩
def chDocs (ts : Str) : List (Str × Json) := if ts = t0 then chDoc0 else if ts = t2 then chDoc2 else chDoc4
def chWrites (ts : Str) : List Write :=
  if ts = t0 then [⟨[], c!"f1", chBase1, []⟩]
  else if ts = t2 then [⟨[], c!"f1", chBase1, [⟨c!"f1", t0, c!"log", c!"1", c!"0-0-1", none⟩]⟩]
  else [⟨[], c!"f2", ⟨c!"f2", c!"0-4-1", t4, c!"parquet", none⟩, []⟩]

theorem chDocs_record (ts : Str) (h : ts ∈ [t0, t2, t4]) : RecordsWrites (chDocs ts) (chWrites ts) := by
  simp only [List.mem_cons, List.not_mem_nil, or_false] at h
  rcases h with rfl | rfl | rfl
  · refine ⟨[([], [(⟨[], c!"f1", chBase1, []⟩, _)])], rfl, rfl, ?_⟩
    simp only [List.mem_singleton, forall_eq]
    exact ⟨trivial, _, rfl, rfl, .inr ⟨rfl, rfl, .inl rfl⟩⟩
  · refine ⟨[([], [(⟨[], c!"f1", chBase1, [⟨c!"f1", t0, c!"log", c!"1", c!"0-0-1", none⟩]⟩, _)])], rfl, rfl, ?_⟩
    simp only [List.mem_singleton, forall_eq]
    exact ⟨trivial, _, rfl, rfl, .inl ⟨rfl, rfl⟩⟩
  · refine ⟨[([], [(⟨[], c!"f2", ⟨c!"f2", c!"0-4-1", t4, c!"parquet", none⟩, []⟩, _)])], rfl, rfl, ?_⟩
    simp only [List.mem_singleton, forall_eq]
    exact ⟨trivial, _, rfl, rfl, .inr ⟨rfl, rfl, .inl rfl⟩⟩

theorem ch_docs : StoresDocs chTree recHistory := by
  refine storesDocs_of chDocs chWrites (by decide) ?_ (fun x hx => chDocs_record _ ?_) (by decide) (by decide)
    (by decide)
  · intro x hx
    simp only [recHistory, recFirst, splitsOf, List.cons_append, List.nil_append, List.mem_cons,
      List.not_mem_nil, or_false] at hx
    rcases hx with rfl | rfl | rfl
    exacts [⟨1, rfl⟩, ⟨1, rfl⟩, ⟨1, rfl⟩]
  · revert x; decide

theorem flight_docs : StoresDocs flightTree recFirst := by
  refine storesDocs_of chDocs chWrites (by decide) ?_ (fun x hx => chDocs_record _ ?_) (by decide) (by decide)
    (by decide)
  · intro x hx
    simp only [recFirst, splitsOf, List.nil_append, List.mem_cons, List.not_mem_nil, or_false] at hx
    rcases hx with rfl | rfl
    exacts [⟨1, rfl⟩, ⟨1, rfl⟩]
  · revert x; decide

/-- Both tables hold their records. -/
theorem stores_dated {t : Tree} {h : History} {held : Str → List WBlock} (ws : List WBlock)
    (hws : ∀ w ∈ ws, w ∈ [x1, x2, w3]) (h2 : x2 ∈ ws)
    (hap : ∀ k base l c, AppendsTo h k base l c ↔ k = f1 ∧ base = t0 ∧
      l = (c!"1", c!"0-0-1") ∧ c = ⟨t2, .deltaCommit, [(f1, .append [(c!"1", c!"0-0-1")])]⟩)
    (hheld : held morLog = ws) (hlog : LogAt codecDated t morLog ws)
    (hbase : ∀ c ∈ h, ∀ e ∈ c.changes, ∀ token, e.2 = .write token →
      ParquetAt t (basePathOf e.1 token c.ts) ⟨incSchema, chWritten.base c.ts e.1⟩ ∧
      chWritten.base c.ts e.1 ∈ [base1.rows, base2.rows])
    (hroll : ∀ c ∈ h, c.ts ≠ t1) (hnil : ∀ c ∈ h, ∀ e ∈ c.changes, e.2 ≠ .append []) :
    StoresRecords codecDated some c!"utc" incSchema t h chWritten held where
  bases := by
    intro c hc k token hm
    obtain ⟨h1, h2⟩ := hbase c hc _ hm token rfl
    simp only [List.mem_cons, List.not_mem_nil, or_false] at h2
    refine ⟨h1, ?_, ?_⟩
    · rcases h2 with h2 | h2 <;> rw [h2] <;> unfold Batch.WF <;> decide
    · rcases h2 with h2 | h2 <;> rw [h2] <;> decide
  logs := by
    intro k base l c h
    obtain ⟨rfl, rfl, rfl, rfl⟩ := (hap _ _ _ _).1 h
    show LogAt codecDated t morLog (held morLog)
    rw [hheld]; exact hlog
  blocks := by
    rintro k base w ⟨l, c, h, hw⟩
    obtain ⟨rfl, rfl, rfl, rfl⟩ := (hap _ _ _ _).1 h
    replace hw : w ∈ held morLog := hw
    rw [hheld] at hw
    refine ⟨?_, dated_fit w (hws w hw)⟩
    have hw' := hws w hw
    simp only [List.mem_cons, List.not_mem_nil, or_false] at hw'
    rcases hw' with rfl | rfl | rfl
    exacts [x1_good, x2_good, w3_good]
  rollbacks := by
    rintro k base w i ⟨l, c, h, hw⟩ hr d hd
    obtain ⟨rfl, rfl, rfl, rfl⟩ := (hap _ _ _ _).1 h
    replace hw : w ∈ held morLog := hw
    rw [hheld] at hw
    have hw' := hws w hw
    simp only [List.mem_cons, List.not_mem_nil, or_false] at hw'
    rcases hw' with rfl | rfl | rfl
    · exact absurd hr.1.1 (by decide)
    · exact absurd hr.1.1 (by decide)
    · have : some i = some t1 := hr.2.symm
      cases this
      exact hroll d hd
  rows := by
    intro k base l c h r
    have hblock : ∀ w, BlockOf ‹History› held k base w ↔ w ∈ ws := by
      intro w
      obtain ⟨rfl, rfl, rfl, rfl⟩ := (hap _ _ _ _).1 h
      constructor
      · rintro ⟨l, c, h', hw⟩
        obtain ⟨_, _, rfl, _⟩ := (hap _ _ _ _).1 h'
        rw [← hheld]; exact hw
      · intro hw
        exact ⟨_, _, h, show w ∈ held morLog by rw [hheld]; exact hw⟩
    obtain ⟨rfl, rfl, rfl, rfl⟩ := (hap _ _ _ _).1 h
    show r ∈ x2Batch.rows ↔ _
    constructor
    · intro hr
      exact ⟨x2, [x2Batch], (hblock _).2 h2, rfl, rfl, by simpa using hr⟩
    · rintro ⟨w, bs, hb, hwr, hdec, hr⟩
      have hw' := hws w ((hblock w).1 hb)
      simp only [List.mem_cons, List.not_mem_nil, or_false] at hw'
      rcases hw' with rfl | rfl | rfl
      · exact absurd hwr (by unfold WrittenBy; decide)
      · rw [decodes_det hdec (show Decodes codecDated x2 [x2Batch] from rfl)] at hr
        simpa using hr
      · exact absurd hwr (by unfold WrittenBy; decide)
  nothing := by
    intro c hc k hk
    exact absurd rfl (hnil c hc _ hk)

theorem ch_appends (k : GroupKey) (base : Str) (l : Str × Str) (c : HCommit) :
    AppendsTo recHistory k base l c ↔ k = f1 ∧ base = t0 ∧ l = (c!"1", c!"0-0-1") ∧
      c = ⟨t2, .deltaCommit, [(f1, .append [(c!"1", c!"0-0-1")])]⟩ := by
  refine ⟨appends_rec, ?_⟩
  rintro ⟨rfl, rfl, rfl, rfl⟩
  rw [appendsTo_mem]
  decide

theorem flight_appends (k : GroupKey) (base : Str) (l : Str × Str) (c : HCommit) :
    AppendsTo recFirst k base l c ↔ k = f1 ∧ base = t0 ∧ l = (c!"1", c!"0-0-1") ∧
      c = ⟨t2, .deltaCommit, [(f1, .append [(c!"1", c!"0-0-1")])]⟩ := by
  refine ⟨appends_dirty, ?_⟩
  rintro ⟨rfl, rfl, rfl, rfl⟩
  rw [appendsTo_mem]
  decide

theorem ch_records : StoresRecords codecDated some c!"utc" incSchema chTree recHistory chWritten chHeld := by
  refine stores_dated [x1, x2, w3] (by simp) (by simp) ch_appends rfl ⟨1, _, rfl, rfl⟩ ?_ (by decide) (by decide)
  intro c hc e he token ht
  simp only [recHistory, recFirst, List.cons_append, List.nil_append, List.mem_cons,
    List.not_mem_nil, or_false] at hc
  rcases hc with rfl | rfl | rfl <;> rw [List.mem_singleton] at he <;> subst he <;> cases ht
  · exact ⟨⟨1, 1, _, rfl⟩, by decide⟩
  · exact ⟨⟨1, 1, _, rfl⟩, by decide⟩

theorem flight_records : StoresRecords codecDated some c!"utc" incSchema flightTree recFirst chWritten
    flightHeld := by
  refine stores_dated [x1, x2] (by simp) (by simp) flight_appends rfl ⟨1, _, rfl, rfl⟩ ?_ (by decide) (by decide)
  intro c hc e he token ht
  simp only [recFirst, List.mem_cons, List.not_mem_nil, or_false] at hc
  rcases hc with rfl | rfl <;> rw [List.mem_singleton] at he <;> subst he <;> cases ht
  exact ⟨⟨1, 1, _, rfl⟩, by decide⟩

theorem dated_of {h : History} {held : Str → List WBlock}
    (hap : ∀ k base l c, AppendsTo h k base l c ↔ k = f1 ∧ base = t0 ∧
      l = (c!"1", c!"0-0-1") ∧ c = ⟨t2, .deltaCommit, [(f1, .append [(c!"1", c!"0-0-1")])]⟩)
    (hr : ∀ c ∈ h, ∀ e ∈ c.changes, (match e.2 with
      | .append _ => decide (∀ r ∈ chWritten.appended c.ts e.1, commitTimeOf incSchema r = some c.ts)
      | _ => true) = true) :
    Dated incSchema h chWritten held where
  blocks := by
    rintro k base l c h w ⟨l', c', h', hw⟩ _
    have h1 := (hap _ _ _ _).1 h
    have h2 := (hap _ _ _ _).1 h'
    obtain ⟨rfl, rfl, rfl, rfl⟩ := h1
    obtain ⟨_, _, rfl, rfl⟩ := h2
    exact ⟨_, h', hw⟩
  records := by
    intro c hc k ls hm
    exact of_decide_eq_true (hr c hc _ hm)

theorem ch_pending : NoPendingInSpan some c!"utc" t0 t4 recHistory chHeld := by
  rintro k base w i ⟨l, c, hap, hin, hw⟩ hwr _
  have hap' := hap
  obtain ⟨rfl, rfl, rfl, rfl⟩ := appends_rec hap
  replace hw : w ∈ [x1, x2, w3] := hw
  simp only [List.mem_cons, List.not_mem_nil, or_false] at hw
  rcases hw with rfl | rfl | rfl
  · refine .inr (.inr ⟨w3, ⟨_, _, hap', hin, ?_⟩, ⟨⟨rfl, _, rfl, rfl⟩, ?_⟩, t3, _, _, _, rfl, rfl, rfl, rfl, ?_, ?_⟩)
    · show w3 ∈ [x1, x2, w3]
      simp
    · exact hwr
    · unfold Before; decide
    · left; unfold Before; decide
  · refine .inr (.inl ⟨_, _, hap', ?_⟩)
    have : some t2 = some i := hwr
    cases this
    rfl
  · exact .inl ⟨rfl, _, rfl, rfl⟩

end Demo

open Demo in
/-- The hypotheses of C60 are met by this table; reading what changed after its first commit returns the
record that the delta commit appended to the first file group, and the second file group. -/
example : MonotoneTz env.ltz ∧ WholeSecondsTz env.ltz ∧ Timeline.load env [] chTree = .ok recTable.timeline ∧
    TreeWF chTree ∧ timezoneOf recTable.timeline.opts = .ok c!"utc" ∧ recHistory.WF 17 ∧
    Stores env.ltz c!"utc" recTable.opts chTree recHistory ∧ StoresDocs chTree recHistory ∧
    MergingReader recTable c!"utc" c!"ts" ∧ MetaFields recTable.opts ∧ MergeColumns incSchema c!"ts" ∧
    HasCommitTime incSchema ∧ StoresRecords codecDated env.ltz c!"utc" incSchema chTree recHistory chWritten chHeld ∧
    Dated incSchema recHistory chWritten chHeld ∧ NoPendingInSpan env.ltz c!"utc" t0 t4 recHistory chHeld ∧
    (WriterTimestamp t0 ∧ t0.length = 17) ∧ (WriterTimestamp t4 ∧ t4.length = 17) ∧
    (∃ d, parseDatetime env.ltz t0 c!"utc" = .ok d) ∧ (∃ d, parseDatetime env.ltz t4 c!"utc" = .ok d) ∧
    recTable.readIncremental env arrow codecDated (mergeEnv arrow) chTree t0 (some t4) =
      .ok [x2Batch, base2] :=
  ⟨by intro a b a' b' h1 h2 h; cases h1; cases h2; exact h, by intro n d h; cases h; rfl, rfl, by decide, rfl,
    rec_wf, ch_stored, ch_docs, rec_reader, by decide, ⟨by decide, by decide, _, rfl, rfl⟩, ⟨_, rfl, rfl⟩,
    ch_records, dated_of ch_appends (by decide), ch_pending, by decide, by decide, ⟨_, rfl⟩, ⟨_, rfl⟩,
    by decide +kernel⟩

open Demo in
/-- **C60 is false.**  A delta commit completes while an earlier one, which has appended a block to the same
log file, is still in flight: the incremental read returns the records of the one in flight, which no
commit of the history wrote. -/
theorem C60_false : ∃ (E : Env) (A : Arrow) (C : Codec) (M : MergeEnv A) (o : Opts) (t : Tree) (tb : Table)
    (h : History) (schema : Schema) (W : Written) (held : Str → List WBlock) (start stop : Str)
    (outs : List Batch),
    MonotoneTz E.ltz ∧ WholeSecondsTz E.ltz ∧ Timeline.load E o t = .ok tb.timeline ∧ TreeWF t ∧
    timezoneOf tb.timeline.opts = .ok c!"utc" ∧ h.WF 17 ∧ Stores E.ltz c!"utc" tb.opts t h ∧
    StoresDocs t h ∧ MergingReader tb c!"utc" c!"ts" ∧ MetaFields tb.opts ∧ MergeColumns schema c!"ts" ∧
    HasCommitTime schema ∧ StoresRecords C E.ltz c!"utc" schema t h W held ∧ Dated schema h W held ∧
    (WriterTimestamp start ∧ start.length = 17) ∧ (WriterTimestamp stop ∧ stop.length = 17) ∧
    tb.readIncremental E A C M t start (some stop) = .ok outs ∧
    ∃ out ∈ outs, ∃ r ∈ out.rows, ∀ k, r ∉ recordsAfter W h k := by
  refine ⟨env, arrow, codecDated, mergeEnv arrow, [], flightTree, dirtyTable, recFirst, incSchema, chWritten,
    flightHeld, t0, t2, [⟨incSchema, [datedRow c!"4" c!"C" c!"z" 9 t2, datedRow c!"3" c!"B" c!"y" 1 t1]⟩],
    by intro a b a' b' h1 h2 h; cases h1; cases h2; exact h, by intro n d h; cases h; rfl, rfl, by decide, rfl,
    rec_wf.prefix (h' := [⟨t4, .commit, [(f2, .write c!"0-4-1")]⟩]), flight_stored, flight_docs,
    dirty_reader, by decide, ⟨by decide, by decide, _, rfl, rfl⟩, ⟨_, rfl, rfl⟩, flight_records,
    dated_of flight_appends (by decide), by decide, by decide, by decide +kernel, _,
    List.mem_singleton_self _, datedRow c!"3" c!"B" c!"y" 1 t1, by simp, ?_⟩
  intro k hk
  obtain ⟨ts, h | h⟩ := recordsAfter_sub hk
  · have : ∀ rows, rows = chWritten.base ts k → rows = base1.rows ∨ rows = base2.rows ∨ rows = [] := by
      rintro rows rfl
      show (if _ then _ else _) = _ ∨ (if _ then _ else _) = _ ∨ (if _ then _ else _) = _
      split
      · exact .inl rfl
      · split
        · exact .inr (.inl rfl)
        · exact .inr (.inr rfl)
    rcases this _ rfl with e | e | e <;> rw [e] at h
    · exact absurd h (by decide)
    · exact absurd h (by decide)
    · cases h
  · have : ∀ rows, rows = chWritten.appended ts k → rows = x2Batch.rows ∨ rows = [] := by
      rintro rows rfl
      show (if _ then _ else _) = _ ∨ (if _ then _ else _) = _
      split
      · exact .inl rfl
      · exact .inr rfl
    rcases this _ rfl with e | e <;> rw [e] at h
    · exact absurd h (by decide)
    · cases h

open Demo in
/-- In the table of `C60_false`, which meets the hypotheses of `C60_changes_and_pending`, the record of the delta
commit in flight is a pending change of the file group. -/
example : PendingChange codecDated some c!"utc" t0 t2 recFirst flightHeld f1 (datedRow c!"3" c!"B" c!"y" 1 t1) := by
  have hap : AppendsTo recFirst f1 t0 (c!"1", c!"0-0-1")
      ⟨t2, .deltaCommit, [(f1, .append [(c!"1", c!"0-0-1")])]⟩ := (flight_appends _ _ _ _).2 ⟨rfl, rfl, rfl, rfl⟩
  refine ⟨⟨t0, c!"0-0-0", [(c!"1", c!"0-0-1")]⟩, x1, [x1Batch], by decide,
    ⟨⟨_, _, hap, by unfold InSpan; decide, ?_⟩, ?_, ?_, ?_⟩, rfl, by decide⟩
  · show x1 ∈ [x1, x2]
    simp
  · exact ⟨t1, _, _, _, rfl, rfl, rfl, rfl, by unfold Before; decide, by left; unfold Before; decide⟩
  · intro l c h
    obtain ⟨_, _, _, rfl⟩ := appends_dirty h
    unfold WrittenBy
    decide
  · rintro w' i ⟨l, c, h, _, hw⟩ hrb
    obtain ⟨_, _, rfl, rfl⟩ := appends_dirty h
    replace hw : w' ∈ [x1, x2] := hw
    simp only [List.mem_cons, List.not_mem_nil, or_false] at hw
    rcases hw with rfl | rfl <;> exact absurd hrb.1.1 (by decide)

end Hudi
