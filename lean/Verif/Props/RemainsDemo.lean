import Verif.Props.Remains
import Verif.Props.RecordsDemo

/-! # C81: a table that meets the hypotheses, and a counterexample -/

namespace Hudi
open Spec
namespace Demo

/-- A log file that only a write that failed appended to, and the rollback of that write. -/
def strayLog : Str := c!".f1_20231231000000000.log.1_0-7-7"

/-- The files of an insert and a delta commit; the log file of a write that failed and was rolled back; and the
base file, not even readable, of a write in flight. -/
def remTree : Tree :=
  .dir c!".hoodie" (.file c!"20231231000000000.commit" 1 .junk
    (.file c!"20240102000000000.deltacommit" 1 morDoc
    (.file c!"20240104000000000.commit.inflight" 1 .junk .nil)))
  (.file morBase 1 (.parquet 1 mor) (.file morLog 1 (.bytes (logBytes [w2]))
    (.file strayLog 1 (.bytes (logBytes [w1, w3])) (.file recBase 1 .junk .nil))))

def remHeld (p : Str) : List WBlock := if p = morLog then [w2] else if p = strayLog then [w1, w3] else []

theorem rem_part (x : Str) : PartitionOf morOpts remTree x ↔ x ∈ [([] : Str)] := partitionOf_mem (by decide) rfl x

theorem rem_here {x : Str} (h : PartitionOf morOpts remTree x) : x = [] := by simpa using (rem_part x).1 h

theorem rem_files (ts : Str) (h1 : (compare t4 ts).isLE = false) :
    FilesUpTo some c!"utc" morOpts remTree remTree recFirst ts where
  timeline := by
    intro name
    rw [completedFile_iff]
    have k1 : ∀ m ∈ listFiles remTree c!".hoodie",
      ((loadSelector c!"utc" [.commit, .deltaCommit, .replaceCommit]).tryCreateInstant some
        m.name).toOption.isSome = true → ∃ c ∈ recFirst, m.name = c.ts ++ c!"." ++ suffix c.action .completed := by
      decide
    have k2 : ∀ c ∈ recFirst, (∃ m ∈ listFiles remTree c!".hoodie",
        m.name = c.ts ++ c!"." ++ suffix c.action .completed) ∧
      ((loadSelector c!"utc" [.commit, .deltaCommit, .replaceCommit]).tryCreateInstant some
        (c.ts ++ c!"." ++ suffix c.action .completed)).toOption.isSome = true := by decide
    constructor
    · rintro ⟨⟨m, hm, rfl⟩, h⟩
      exact k1 m hm h
    · rintro ⟨c, hc, rfl⟩
      exact k2 c hc
  replaced := fun c hc _ ha => by
    have : ∀ c ∈ recFirst, c.action ≠ .replaceCommit := by decide
    exact absurd ha (this c hc)
  written := by
    intro c hc _ x f token hch
    simp only [recFirst, List.mem_cons, List.not_mem_nil, or_false] at hc
    rcases hc with rfl | rfl <;> simp only [List.mem_singleton] at hch <;> cases hch
    exact ⟨(rem_part _).2 (by simp), 1, by decide⟩
  bases := by
    intro x b hx hb hle
    rw [rem_here hx] at hb ⊢
    have hb := mem_basesOf.2 hb
    have : ∀ b ∈ basesOf (metas (filesOf remTree [])), b.commitTimestamp = t4 ∨ (b.extension = c!"parquet" ∧
      ∃ c ∈ recFirst, (([], b.fileId), Change.write b.writeToken) ∈ c.changes ∧ b.commitTimestamp = c.ts) := by decide
    rcases this b hb with h | h
    · rw [h, h1] at hle; cases hle
    · exact h
  listable := by
    intro x hx
    rw [rem_here hx]
    exact (listFileGroups_ok_iff morOpts remTree [] (by decide)).1 (by
      have : (listFileGroups morOpts remTree []).isOk = true := by decide
      cases h : listFileGroups morOpts remTree [] with
      | ok gs => exact ⟨gs, rfl⟩
      | err e => rw [h] at this; cases this
      | panic => rw [h] at this; cases this)
  extensions := by
    intro x hx l l' hl hl'
    rw [rem_here hx] at hl hl'
    rw [← mem_logsOf] at hl hl'
    have : ∀ l ∈ logsOf (metas (filesOf remTree [])), ∀ l' ∈ logsOf (metas (filesOf remTree [])),
      l.fileId = l'.fileId → l.baseCommitTimestamp = l'.baseCommitTimestamp → l.version = l'.version →
      l.writeToken = l'.writeToken → l = l' := by decide
    exact this l hl l' hl'

theorem rem_readable (ts : Str) (h1 : (compare t4 ts).isLE = false) :
    ReadableUpTo env arrow [] remTree remTree dirtyTable c!"utc" recFirst 17 ts [] [] [] false false where
  load := rfl
  timelineNames := by decide
  tree := by decide
  zone := rfl
  history := rec_wf.prefix (h' := [⟨t4, .commit, [(f2, .write c!"0-4-1")]⟩])
  files := rem_files ts h1
  parsed := rfl
  columns := (partitionSchema_ok (E := env) (o := []) (t0 := remTree) rfl
    (timelineNames_normal (by decide))).1 (by decide +kernel)
  names := by unfold FieldNames; decide
  applicable := by simp
  style := ⟨rfl, rfl⟩
  parallelism := by intro v hv; cases hv

/-- Only the first file group has a version in the table. -/
theorem rem_version {ts : Str} {k : GroupKey} {v : Version} (h : tableAt recFirst ts k = some v) :
    k = f1 ∧ v.base = t0 := by
  obtain ⟨h1, c, h2, e1, e2, e3, _⟩ := versionAfter_some.1 (show versionAfter _ k = some v from h)
  have hc : c ∈ recFirst.filter (fun c => (compare c.ts ts).isLE) := by rw [e1]; simp
  have hc := (List.mem_filter.1 hc).1
  have hm := changeOf_mem e2
  simp only [recFirst, List.mem_cons, List.not_mem_nil, or_false] at hc
  rcases hc with rfl | rfl <;> simp only [List.mem_singleton, Prod.mk.injEq] at hm
  · exact ⟨hm.1, e3.symm⟩
  · cases hm.2

theorem rem_log {l : LogFile} (h : LogOf remTree f1 t0 l) : l.fileName = morLog ∨ l.fileName = strayLog := by
  have hl := mem_logsOf.2 h.1
  have : ∀ l ∈ logsOf (metas (filesOf remTree f1.1)), l.fileName = morLog ∨ l.fileName = strayLog := by decide
  exact this l hl

theorem rem_block {w : WBlock} : StoredBlock remTree remHeld f1 t0 w ↔ w ∈ [w1, w2, w3] := by
  have key : ∀ l ∈ logsOf (metas (filesOf remTree f1.1)),
      LogOf remTree f1 t0 l ↔ l.fileId = c!"f1" ∧ l.baseCommitTimestamp = t0 := by
    intro l hl
    exact ⟨fun h => h.2, fun h => ⟨mem_logsOf.1 hl, h⟩⟩
  constructor
  · rintro ⟨l, h1, h2⟩
    rcases rem_log h1 with e | e
    · rw [e] at h2
      have : w ∈ [w2] := h2
      rw [List.mem_singleton.1 this]; simp
    · rw [e] at h2
      have : w ∈ [w1, w3] := h2
      simp only [List.mem_cons, List.not_mem_nil, or_false] at this ⊢
      tauto
  · intro h
    have hA : ⟨c!"f1", t0, c!"log", c!"1", c!"0-0-1", some ⟨morLog, 1, 0, 0, false⟩⟩ ∈
      logsOf (metas (filesOf remTree f1.1)) := by decide
    have hB : ⟨c!"f1", t0, c!"log", c!"1", c!"0-7-7", some ⟨strayLog, 1, 0, 0, false⟩⟩ ∈
      logsOf (metas (filesOf remTree f1.1)) := by decide
    simp only [List.mem_cons, List.not_mem_nil, or_false] at h
    rcases h with rfl | rfl | rfl
    · exact ⟨_, (key _ hB).2 ⟨rfl, rfl⟩, show w1 ∈ [w1, w3] by simp⟩
    · exact ⟨_, (key _ hA).2 ⟨rfl, rfl⟩, show w2 ∈ [w2] by simp⟩
    · exact ⟨_, (key _ hB).2 ⟨rfl, rfl⟩, show w3 ∈ [w1, w3] by simp⟩

theorem rem_appended {k : GroupKey} {base : Str} {c : HCommit} (h : AppendedTo recFirst k base c) : c.ts = t2 := by
  obtain ⟨h1, h2, ls, v, e, hm, _⟩ := h
  have hc : c ∈ recFirst := by rw [e]; simp
  simp only [recFirst, List.mem_cons, List.not_mem_nil, or_false] at hc
  rcases hc with rfl | rfl
  · simp at hm
  · rfl

theorem rem_appended_f1 : AppendedTo recFirst f1 t0 ⟨t2, .deltaCommit, [(f1, .append [(c!"1", c!"0-0-1")])]⟩ :=
  ⟨[⟨t0, .commit, [(f1, .write c!"0-0-0")]⟩], [], _, _, rfl, List.mem_singleton_self _, rfl, rfl⟩

theorem mor_columns : MergeColumns mSchema c!"ts" := ⟨by decide, by decide, _, rfl, rfl⟩

theorem rem_rows (ts : Str) : RowsUpTo codec some c!"utc" (fun _ _ => mSchema) remTree recFirst recWritten remHeld ts where
  bases := by
    intro c hc _ k token hch
    simp only [recFirst, List.mem_cons, List.not_mem_nil, or_false] at hc
    rcases hc with rfl | rfl <;> simp only [List.mem_singleton] at hch <;> cases hch
    exact ⟨⟨1, 1, _, rfl⟩, by unfold Batch.WF; decide, by decide⟩
  logs := by
    intro k v l hv hl
    obtain ⟨rfl, e⟩ := rem_version hv
    rw [e] at hl
    rcases rem_log hl with e | e <;> rw [e]
    · exact ⟨1, _, rfl, rfl⟩
    · exact ⟨1, _, rfl, rfl⟩
  blocks := by
    intro k v w hv hb
    obtain ⟨rfl, e⟩ := rem_version hv
    rw [e] at hb
    have hw := rem_block.1 hb
    refine ⟨good_w w hw, ?_⟩
    intro w' h' bs
    rw [List.mem_singleton.1 h']
    exact mor_fit w hw bs
  rollbacks := by
    intro k v w i hv hb _ hr c hc
    obtain ⟨rfl, e⟩ := rem_version hv
    rw [e] at hb
    have hw := rem_block.1 hb
    rw [rem_appended hc]
    simp only [List.mem_cons, List.not_mem_nil, or_false] at hw
    rcases hw with rfl | rfl | rfl
    · exact absurd hr.1.1 (by decide)
    · exact absurd hr.1.1 (by decide)
    · have : some i = some t1 := hr.2.symm
      cases this
      decide
  rows := by
    intro k v c hv hc _ r
    obtain ⟨rfl, e⟩ := rem_version hv
    rw [rem_appended hc, e]
    show r ∈ w2Batch.rows ↔ _
    constructor
    · intro hr
      exact ⟨w2, _, rem_block.2 (by simp), rfl, w2_decodes, by simpa using hr⟩
    · rintro ⟨w, bs, hb, hwr, hdec, hr⟩
      have hw := rem_block.1 hb
      simp only [List.mem_cons, List.not_mem_nil, or_false] at hw
      rcases hw with rfl | rfl | rfl
      · exact absurd hwr (by unfold WrittenBy; decide)
      · rw [decodes_det hdec w2_decodes] at hr
        simpa using hr
      · exact absurd hwr (by unfold WrittenBy; decide)

theorem rem_settled : Settled some c!"utc" t3 remTree recFirst remHeld := by
  intro k v w i hv hb hwr _
  obtain ⟨rfl, e⟩ := rem_version hv
  rw [e] at hb ⊢
  have hw := rem_block.1 hb
  simp only [List.mem_cons, List.not_mem_nil, or_false] at hw
  rcases hw with rfl | rfl | rfl
  · refine .inr (.inr ⟨w3, rem_block.2 (by simp), ⟨⟨rfl, _, rfl, rfl⟩, ?_⟩, t3, _, _, rfl, rfl, rfl, ?_⟩)
    · exact hwr
    · right; rfl
  · refine .inr (.inl ⟨_, rem_appended_f1, ?_⟩)
    have : some t2 = some i := hwr
    cases this
    rfl
  · exact .inl ⟨rfl, _, rfl, rfl⟩

end Demo

open Demo in
/-- The hypotheses of C81 are met by this table, read as of the rollback of the write that failed; and what is
read. -/
example : MonotoneTz env.ltz ∧ WholeSecondsTz env.ltz ∧
    ReadableUpTo env arrow [] remTree remTree dirtyTable c!"utc" recFirst 17 t3 [] [] [] false false ∧
    MergingReader dirtyTable c!"utc" c!"ts" ∧ EveryFile recFirst (fun _ _ => mSchema) (MergeColumns · c!"ts") ∧
    RowsUpTo codec env.ltz c!"utc" (fun _ _ => mSchema) remTree recFirst recWritten remHeld t3 ∧
    Settled env.ltz c!"utc" t3 remTree recFirst remHeld ∧
    (WriterTimestamp t3 ∧ t3.length = 17) ∧ (∃ d, parseDatetime env.ltz t3 c!"utc" = .ok d) ∧
    (dirtyTable.readSnapshotAsOf env arrow codec (mergeEnv arrow) remTree t3 [] []).2 =
      .ok [⟨mSchema, [mRow c!"1" c!"C" c!"bob" 7, mRow c!"1" c!"A" c!"ann" 5]⟩] :=
  ⟨by intro a b a' b' h1 h2 h; cases h1; cases h2; exact h, by intro n d h; cases h; rfl,
    rem_readable t3 (by decide), dirty_reader, fun _ _ _ _ _ => mor_columns, rem_rows t3,
    rem_settled, by decide, ⟨_, rfl⟩, by decide +kernel⟩

open Demo in
/-- **C81 is false.**  A write appends to a log file of its own, fails, and is rolled back, but only after another
write has completed.  Reading as of that other write returns the records of the one that failed, although at the
time of reading it has been rolled back. -/
theorem C81_false : ∃ (E : Env) (A : Arrow) (C : Codec) (M : MergeEnv A) (o : Opts) (t : Tree) (tb : Table)
    (h : History) (cols : Columns) (W : Written) (held : Str → List WBlock) (c : HCommit) (outs : List Batch),
    MonotoneTz E.ltz ∧ WholeSecondsTz E.ltz ∧ c ∈ h ∧
    ReadableUpTo E A o t t tb c!"utc" h 17 c.ts [] [] [] false false ∧ MergingReader tb c!"utc" c!"ts" ∧
    EveryFile h cols (MergeColumns · c!"ts") ∧ RowsUpTo C E.ltz c!"utc" cols t h W held c.ts ∧
    (∃ later, Settled E.ltz c!"utc" later t h held) ∧
    (tb.readSnapshotAsOf E A C M t c.ts [] []).2 = .ok outs ∧
    ∃ out ∈ outs, ∃ r ∈ out.rows, ∀ k, r ∉ recordsAt W h c.ts k := by
  refine ⟨env, arrow, codec, mergeEnv arrow, [], remTree, dirtyTable, recFirst, fun _ _ => mSchema, recWritten,
    remHeld, ⟨t2, .deltaCommit, [(f1, .append [(c!"1", c!"0-0-1")])]⟩,
    [⟨mSchema, [mRow c!"2" c!"A" c!"x" 9, mRow c!"1" c!"C" c!"bob" 7, mRow c!"3" c!"B" c!"y" 1]⟩],
    by intro a b a' b' h1 h2 h; cases h1; cases h2; exact h, by intro n d h; cases h; rfl,
    by simp [recFirst], rem_readable t2 (by decide), dirty_reader,
    fun _ _ _ _ _ => mor_columns, rem_rows t2, ⟨t3, rem_settled⟩,
    by decide +kernel, _, List.mem_singleton_self _, mRow c!"3" c!"B" c!"y" 1, by simp, ?_⟩
  intro k hk
  obtain ⟨ts, h | h⟩ := recordsAfter_sub (show _ ∈ recordsAfter recWritten _ k from hk)
  · have : ∀ rows, rows = recWritten.base ts k → rows = mor.rows ∨ rows = [] := by
      rintro rows rfl
      show (if _ then _ else _) = _ ∨ (if _ then _ else _) = _
      split
      · exact .inl rfl
      · split
        · exact .inl rfl
        · exact .inr rfl
    rcases this _ rfl with e | e <;> rw [e] at h
    · exact absurd h (by decide)
    · cases h
  · have : ∀ rows, rows = recWritten.appended ts k → rows = w2Batch.rows ∨ rows = [] := by
      rintro rows rfl
      show (if _ then _ else _) = _ ∨ (if _ then _ else _) = _
      split
      · exact .inl rfl
      · exact .inr rfl
    rcases this _ rfl with e | e <;> rw [e] at h
    · exact absurd h (by decide)
    · cases h

end Hudi
