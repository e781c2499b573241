import Verif.Props.Records
import Verif.Props.TravelDemo

/-! # C59: tables that meet the hypotheses, and a counterexample -/

namespace Hudi
open Spec

/-- The appends of a history: file group, base file, log file, commit. -/
def appendsList (before : History) : History → List (GroupKey × Str × (Str × Str) × HCommit)
  | [] => []
  | c :: h => c.changes.flatMap (fun e => match e.2 with
      | .append ls => match versionAfter before e.1 with
        | some v => ls.map (fun l => (e.1, v.base, l, c))
        | none => []
      | _ => []) ++ appendsList (before ++ [c]) h

theorem mem_appendsList {h before : History} {k : GroupKey} {base : Str} {l : Str × Str} {c : HCommit} :
    (k, base, l, c) ∈ appendsList before h ↔ ∃ h1 h2 ls v, h = h1 ++ c :: h2 ∧
      (k, Change.append ls) ∈ c.changes ∧ l ∈ ls ∧ versionAfter (before ++ h1) k = some v ∧ v.base = base := by
  induction h generalizing before with
  | nil => simp [appendsList]
  | cons d h ih =>
    simp only [appendsList, List.mem_append, ih]
    constructor
    · rintro (hm | ⟨h1, h2, ls, v, rfl, hr⟩)
      · obtain ⟨⟨k', ch⟩, he, hm⟩ := List.mem_flatMap.1 hm
        cases ch with
        | write tok => cases hm
        | replace => cases hm
        | append ls =>
          simp only at hm
          cases hv : versionAfter before k' with
          | none => rw [hv] at hm; cases hm
          | some v =>
            rw [hv] at hm
            obtain ⟨l', hl, hm⟩ := List.mem_map.1 hm
            cases hm
            exact ⟨[], h, ls, v, rfl, he, hl, by simpa using hv, rfl⟩
      · exact ⟨d :: h1, h2, ls, v, rfl, by simpa using hr⟩
    · rintro ⟨h1, h2, ls, v, he, hm, hl, hv, rfl⟩
      cases h1 with
      | nil =>
        cases he
        left
        refine List.mem_flatMap.2 ⟨_, hm, ?_⟩
        rw [List.append_nil] at hv
        simp only [hv, List.mem_map]
        exact ⟨l, hl, rfl⟩
      | cons c' h1 =>
        cases he
        exact .inr ⟨h1, h2, ls, v, rfl, hm, hl, by simpa using hv, rfl⟩

theorem appendsTo_mem {h : History} {k : GroupKey} {base : Str} {l : Str × Str} {c : HCommit} :
    AppendsTo h k base l c ↔ (k, base, l, c) ∈ appendsList [] h := by
  rw [mem_appendsList]; rfl

theorem recordsAfter_sub {W : Written} {h : History} {k : GroupKey} {r : List Cell}
    (hr : r ∈ recordsAfter W h k) : ∃ ts, r ∈ W.base ts k ∨ r ∈ W.appended ts k := by
  induction h using List.reverseRecOn with
  | nil => cases hr
  | append_singleton h c ih =>
    unfold recordsAfter at hr ih
    rw [List.foldl_append] at hr
    simp only [List.foldl_cons, List.foldl_nil] at hr
    cases hc : c.changeOf k with
    | none => rw [hc] at hr; exact ih hr
    | some ch =>
      rw [hc] at hr
      cases ch with
      | write tok => exact ⟨c.ts, .inl hr⟩
      | replace => cases hr
      | append ls =>
        rcases List.mem_append.1 hr with hr | hr
        · exact ih hr
        · exact ⟨c.ts, .inr hr⟩

namespace Demo

def t4 : Str := c!"20240104000000000"
def f1 : GroupKey := ([], c!"f1")
def f2 : GroupKey := ([], c!"f2")

/-- An insert; a delta commit; an insert into another file group. -/
def recFirst : History :=
  [⟨t0, .commit, [(f1, .write c!"0-0-0")]⟩, ⟨t2, .deltaCommit, [(f1, .append [(c!"1", c!"0-0-1")])]⟩]

def recHistory : History := recFirst ++ [⟨t4, .commit, [(f2, .write c!"0-4-1")]⟩]

def recWritten : Written where
  base := fun ts k => if ts = t0 ∧ k = f1 then mor.rows else if ts = t4 ∧ k = f2 then mor.rows else []
  appended := fun ts k => if ts = t2 ∧ k = f1 then w2Batch.rows else []

def recBase : Str := c!"f2_0-4-1_20240104000000000.parquet"

def recDoc : Content :=
  .json (.obj [(c!"partitionToWriteStats", .obj [([], .arr [.obj [(c!"fileId", .str c!"f2"),
    (c!"path", .str recBase)]])])])

/-- The log file holds the block of a write that failed, that of the delta commit, and the rollback of the
failed write. -/
def recTree : Tree :=
  .dir c!".hoodie" (.file c!"20231231000000000.commit" 1 .junk
    (.file c!"20240102000000000.deltacommit" 1 morDoc
    (.file c!"20240104000000000.commit" 1 recDoc .nil)))
  (.file morBase 1 (.parquet 1 mor) (.file morLog 1 (.bytes (logBytes [w1, w2, w3]))
    (.file recBase 1 (.parquet 1 mor) .nil)))

def recTable : Table := ⟨morOpts, [], ⟨[], [⟨t0, .commit, .completed, 1703980800000⟩,
  ⟨t2, .deltaCommit, .completed, 1704153600000⟩, ⟨t4, .commit, .completed, 1704326400000⟩]⟩⟩

def recHeld (p : Str) : List WBlock := if p = morLog then [w1, w2, w3] else []

/-- The delta commit completed while another one, which had appended a block before, is still in flight. -/
def dirtyTree : Tree :=
  .dir c!".hoodie" (.file c!"20231231000000000.commit" 1 .junk
    (.file c!"20240101000000000.deltacommit.inflight" 1 .junk
    (.file c!"20240102000000000.deltacommit" 1 morDoc .nil)))
  (.file morBase 1 (.parquet 1 mor) (.file morLog 1 (.bytes (logBytes [w1, w2])) .nil))

def dirtyTable : Table := ⟨morOpts, [], ⟨[], [⟨t0, .commit, .completed, 1703980800000⟩,
  ⟨t2, .deltaCommit, .completed, 1704153600000⟩]⟩⟩

def dirtyHeld (p : Str) : List WBlock := if p = morLog then [w1, w2] else []

end Demo

theorem replaced_none {h : History} (hh : ∀ c ∈ h, c.action ≠ .replaceCommit) (P : HCommit → Prop) :
    ∀ c ∈ h, c.action = .replaceCommit → P c := fun c hc ha => absurd ha (hh c hc)

theorem Demo.rec_wf : Demo.recHistory.WF 17 where
  ordered := by decide
  times := by decide
  once := by decide
  replaces := by
    intro c hc k hk
    have : ∀ c ∈ Demo.recHistory, ∀ e ∈ c.changes, e.2 = .replace → c.action = .replaceCommit := by decide
    exact this c hc _ hk rfl
  gone := by
    have : Demo.recHistory.Pairwise (fun c c' => ∀ e ∈ c.changes, e.2 = .replace →
      e.1 ∉ c'.changes.map Prod.fst) := by decide
    refine this.imp ?_
    intro c c' h k hk ch hch
    exact h _ hk rfl (List.mem_map.2 ⟨_, hch, rfl⟩)
  ids := by decide
  tokens := by
    intro c hc k token hk
    have : ∀ c ∈ Demo.recHistory, ∀ e ∈ c.changes,
        (match e.2 with | .write token => decide (NamePart token) | _ => true) = true := by decide
    exact of_decide_eq_true (this c hc _ hk)
  logs := by
    intro c hc k ls hk
    have : ∀ c ∈ Demo.recHistory, ∀ e ∈ c.changes,
        (match e.2 with | .append ls => decide (∀ l ∈ ls, NamePart l.1 ∧ NamePart l.2) | _ => true) = true := by
      decide
    exact of_decide_eq_true (this c hc _ hk)

/-- A prefix of a history is a history. -/
theorem Spec.History.WF.prefix {h h' : History} {n : Nat} (hw : (h ++ h').WF n) : h.WF n where
  ordered := (List.pairwise_append.1 hw.ordered).1
  times := fun c hc => hw.times c (by simp [hc])
  once := fun c hc => hw.once c (by simp [hc])
  replaces := fun c hc => hw.replaces c (by simp [hc])
  gone := (List.pairwise_append.1 hw.gone).1
  ids := fun c hc => hw.ids c (by simp [hc])
  tokens := fun c hc => hw.tokens c (by simp [hc])
  logs := fun c hc => hw.logs c (by simp [hc])

/-- Checking by computation that a tree with one partition and no replacecommits stores a history. -/
theorem stores_of {ltz : LocalTz} {tz : Str} {o : Opts} {t : Tree} {h : History}
    (h1 : ∀ m ∈ listFiles t c!".hoodie",
      ((loadSelector tz [.commit, .deltaCommit, .replaceCommit]).tryCreateInstant ltz
        m.name).toOption.isSome = true → ∃ c ∈ h, m.name = c.ts ++ c!"." ++ suffix c.action .completed)
    (h2 : ∀ c ∈ h, (∃ m ∈ listFiles t c!".hoodie", m.name = c.ts ++ c!"." ++ suffix c.action .completed) ∧
      ((loadSelector tz [.commit, .deltaCommit, .replaceCommit]).tryCreateInstant ltz
        (c.ts ++ c!"." ++ suffix c.action .completed)).toOption.isSome = true)
    (h3 : ∀ c ∈ h, c.action ≠ .replaceCommit)
    (h4 : ∀ x, PartitionOf o t x ↔ x ∈ [([] : Str)]) (h5 : ∀ c ∈ h, ∀ e ∈ c.changes, e.1.1 ∈ [([] : Str)])
    (h6 : ∀ x ∈ [([] : Str)], ∀ e ∈ filesOf t x, ignoredB e.1 = true ∨ (x, e.1) ∈ recordedNames [] h)
    (h7 : ∀ x ∈ [([] : Str)], ∀ e ∈ recordedNames [] h, e.1 = x →
        e.2 ∈ (filesOf t x).map Prod.fst ∧ ignoredB e.2 = false) : Stores ltz tz o t h where
  timeline := by
    intro name
    rw [completedFile_iff]
    constructor
    · rintro ⟨⟨m, hm, rfl⟩, h⟩
      exact h1 m hm h
    · rintro ⟨c, hc, rfl⟩
      exact h2 c hc
  replaced := replaced_none h3 _
  partitions := fun c hc e he => (h4 _).2 (h5 c hc e he)
  files := by
    intro x hx name
    rw [h4] at hx
    rw [recorded_iff]
    constructor
    · rintro ⟨size, hm, hni⟩
      rcases h6 x hx _ hm with h | h
      · exact absurd (ignoredB_iff.1 h) hni
      · exact h
    · intro hm
      obtain ⟨k1, k2⟩ := h7 x hx _ hm rfl
      obtain ⟨⟨m, size⟩, k3, k4⟩ := List.mem_map.1 k1
      simp only at k4
      subst k4
      exact ⟨size, k3, fun hi => by rw [ignoredB_iff.2 hi] at k2; cases k2⟩

theorem Demo.rec_stored : Stores Demo.env.ltz c!"utc" Demo.recTable.opts Demo.recTree Demo.recHistory :=
  stores_of (by decide) (by decide) (by decide) (partitionOf_mem (by decide) rfl) (by decide) (by decide)
    (by decide)

theorem Demo.dirty_stored : Stores Demo.env.ltz c!"utc" Demo.dirtyTable.opts Demo.dirtyTree Demo.recFirst :=
  stores_of (by decide) (by decide) (by decide) (partitionOf_mem (by decide) rfl) (by decide) (by decide)
    (by decide)

theorem Demo.rec_listable : ListableTable Demo.env Demo.arrow [] Demo.recTree Demo.recTable c!"utc"
    Demo.recHistory 17 [] [] [] false false where
  load := rfl
  tree := by decide
  zone := rfl
  history := Demo.rec_wf
  stores := Demo.rec_stored
  parsed := rfl
  columns := (partitionSchema_ok (E := Demo.env) (o := []) (t0 := Demo.recTree) rfl (timelineNames_normal (by decide))).1 (by decide +kernel)
  names := by unfold FieldNames; decide
  applicable := by simp
  style := ⟨rfl, rfl⟩
  parallelism := by intro v hv; cases hv
  docs := fun i hi ha => absurd ha (by revert i; decide)

theorem Demo.dirty_listable : ListableTable Demo.env Demo.arrow [] Demo.dirtyTree Demo.dirtyTable c!"utc"
    Demo.recFirst 17 [] [] [] false false where
  load := rfl
  tree := by decide
  zone := rfl
  history := Demo.rec_wf.prefix (h' := [⟨Demo.t4, .commit, [(Demo.f2, .write c!"0-4-1")]⟩])
  stores := Demo.dirty_stored
  parsed := rfl
  columns := (partitionSchema_ok (E := Demo.env) (o := []) (t0 := Demo.dirtyTree) rfl (timelineNames_normal (by decide))).1 (by decide +kernel)
  names := by unfold FieldNames; decide
  applicable := by simp
  style := ⟨rfl, rfl⟩
  parallelism := by intro v hv; cases hv
  docs := fun i hi ha => absurd ha (by revert i; decide)


theorem Demo.rec_reader : MergingReader Demo.recTable c!"utc" c!"ts" :=
  ⟨⟨by simp [HmNodup, Demo.recTable], by simp [Demo.recTable]⟩, ⟨by decide, rfl, by decide⟩, rfl, rfl⟩

theorem Demo.dirty_reader : MergingReader Demo.dirtyTable c!"utc" c!"ts" :=
  ⟨⟨by simp [HmNodup, Demo.dirtyTable], by simp [Demo.dirtyTable]⟩, ⟨by decide, rfl, by decide⟩, rfl, rfl⟩

theorem Demo.appends_rec {k : GroupKey} {base : Str} {l : Str × Str} {c : HCommit}
    (h : AppendsTo Demo.recHistory k base l c) : k = Demo.f1 ∧ base = Demo.t0 ∧ l = (c!"1", c!"0-0-1") ∧
      c = ⟨Demo.t2, .deltaCommit, [(Demo.f1, .append [(c!"1", c!"0-0-1")])]⟩ := by
  rw [appendsTo_mem] at h
  have : ∀ e ∈ appendsList [] Demo.recHistory, e = (Demo.f1, Demo.t0, (c!"1", c!"0-0-1"),
    ⟨Demo.t2, .deltaCommit, [(Demo.f1, .append [(c!"1", c!"0-0-1")])]⟩) := by decide
  have := this _ h
  simpa using this

theorem Demo.appends_dirty {k : GroupKey} {base : Str} {l : Str × Str} {c : HCommit}
    (h : AppendsTo Demo.recFirst k base l c) : k = Demo.f1 ∧ base = Demo.t0 ∧ l = (c!"1", c!"0-0-1") ∧
      c = ⟨Demo.t2, .deltaCommit, [(Demo.f1, .append [(c!"1", c!"0-0-1")])]⟩ := by
  rw [appendsTo_mem] at h
  have : ∀ e ∈ appendsList [] Demo.recFirst, e = (Demo.f1, Demo.t0, (c!"1", c!"0-0-1"),
    ⟨Demo.t2, .deltaCommit, [(Demo.f1, .append [(c!"1", c!"0-0-1")])]⟩) := by decide
  have := this _ h
  simpa using this

/-- Both tables hold their records. -/
theorem Demo.stores_records {t : Tree} {h : History} {held : Str → List WBlock} (ws : List WBlock)
    (hws : ∀ w ∈ ws, w ∈ [Demo.w1, Demo.w2, Demo.w3]) (h2 : Demo.w2 ∈ ws)
    (hap : ∀ k base l c, AppendsTo h k base l c ↔ k = Demo.f1 ∧ base = Demo.t0 ∧
      l = (c!"1", c!"0-0-1") ∧ c = ⟨Demo.t2, .deltaCommit, [(Demo.f1, .append [(c!"1", c!"0-0-1")])]⟩)
    (hheld : held Demo.morLog = ws) (hlog : LogAt Demo.codec t Demo.morLog ws)
    (hbase : ∀ c ∈ h, ∀ e ∈ c.changes, ∀ token, e.2 = .write token →
      ParquetAt t (basePathOf e.1 token c.ts) ⟨Demo.mSchema, Demo.recWritten.base c.ts e.1⟩ ∧
      Demo.recWritten.base c.ts e.1 = Demo.mor.rows)
    (hroll : ∀ c ∈ h, c.ts ≠ Demo.t1) (hnil : ∀ c ∈ h, ∀ e ∈ c.changes, e.2 ≠ .append []) :
    StoresRecords Demo.codec some c!"utc" Demo.mSchema t h Demo.recWritten held where
  bases := by
    intro c hc k token hm
    obtain ⟨h1, h2⟩ := hbase c hc _ hm token rfl
    refine ⟨h1, ?_, ?_⟩
    · rw [h2]; unfold Batch.WF; decide
    · rw [h2]; decide
  logs := by
    intro k base l c h
    obtain ⟨rfl, rfl, rfl, rfl⟩ := (hap _ _ _ _).1 h
    show LogAt Demo.codec t Demo.morLog (held Demo.morLog)
    rw [hheld]; exact hlog
  blocks := by
    rintro k base w ⟨l, c, h, hw⟩
    obtain ⟨rfl, rfl, rfl, rfl⟩ := (hap _ _ _ _).1 h
    replace hw : w ∈ held Demo.morLog := hw
    rw [hheld] at hw
    have hw' := hws w hw
    refine ⟨Demo.good_w w hw', ?_⟩
    intro w' h' bs
    rw [List.mem_singleton.1 h']
    exact Demo.mor_fit w hw' bs
  rollbacks := by
    rintro k base w i ⟨l, c, h, hw⟩ hr d hd
    obtain ⟨rfl, rfl, rfl, rfl⟩ := (hap _ _ _ _).1 h
    replace hw : w ∈ held Demo.morLog := hw
    rw [hheld] at hw
    have hw' := hws w hw
    simp only [List.mem_cons, List.not_mem_nil, or_false] at hw'
    rcases hw' with rfl | rfl | rfl
    · exact absurd hr.1.1 (by decide)
    · exact absurd hr.1.1 (by decide)
    · have : some i = some Demo.t1 := hr.2.symm
      cases this
      exact hroll d hd
  rows := by
    intro k base l c h r
    have hblock : ∀ w, BlockOf ‹History› held k base w ↔ w ∈ ws := by
      intro w
      obtain ⟨rfl, rfl, rfl, rfl⟩ := (hap _ _ _ _).1 h
      constructor
      · rintro ⟨l, c, h', hw⟩
        obtain ⟨_, _, rfl, _⟩ := (hap _ _ _ _).1 h'
        rw [← hheld]; exact hw
      · intro hw
        exact ⟨_, _, h, show w ∈ held Demo.morLog by rw [hheld]; exact hw⟩
    obtain ⟨rfl, rfl, rfl, rfl⟩ := (hap _ _ _ _).1 h
    show r ∈ Demo.w2Batch.rows ↔ _
    constructor
    · intro hr
      exact ⟨Demo.w2, _, (hblock _).2 h2, rfl, Demo.w2_decodes, by simpa using hr⟩
    · rintro ⟨w, bs, hb, hwr, hdec, hr⟩
      have hw' := hws w ((hblock w).1 hb)
      simp only [List.mem_cons, List.not_mem_nil, or_false] at hw'
      rcases hw' with rfl | rfl | rfl
      · exact absurd hwr (by unfold WrittenBy; decide)
      · rw [decodes_det hdec Demo.w2_decodes] at hr
        simpa using hr
      · exact absurd hwr (by unfold WrittenBy; decide)
  nothing := by
    intro c hc k hk
    exact absurd rfl (hnil c hc _ hk)

theorem Demo.rec_records : StoresRecords Demo.codec some c!"utc" Demo.mSchema Demo.recTree Demo.recHistory
    Demo.recWritten Demo.recHeld := by
  refine Demo.stores_records [Demo.w1, Demo.w2, Demo.w3] (by simp) (by simp) ?_ rfl ⟨1, _, rfl, rfl⟩ ?_
    (by decide) (by decide)
  · intro k base l c
    refine ⟨Demo.appends_rec, ?_⟩
    rintro ⟨rfl, rfl, rfl, rfl⟩
    rw [appendsTo_mem]
    decide
  · intro c hc e he token ht
    simp only [Demo.recHistory, Demo.recFirst, List.cons_append, List.nil_append, List.mem_cons,
      List.not_mem_nil, or_false] at hc
    rcases hc with rfl | rfl | rfl <;> rw [List.mem_singleton] at he <;> subst he <;> cases ht
    · exact ⟨⟨1, 1, _, rfl⟩, rfl⟩
    · exact ⟨⟨1, 1, _, rfl⟩, rfl⟩

theorem Demo.dirty_records : StoresRecords Demo.codec some c!"utc" Demo.mSchema Demo.dirtyTree Demo.recFirst
    Demo.recWritten Demo.dirtyHeld := by
  refine Demo.stores_records [Demo.w1, Demo.w2] (by simp) (by simp) ?_ rfl ⟨1, _, rfl, rfl⟩ ?_
    (by decide) (by decide)
  · intro k base l c
    refine ⟨Demo.appends_dirty, ?_⟩
    rintro ⟨rfl, rfl, rfl, rfl⟩
    rw [appendsTo_mem]
    decide
  · intro c hc e he token ht
    simp only [Demo.recFirst, List.mem_cons, List.not_mem_nil, or_false] at hc
    rcases hc with rfl | rfl <;> rw [List.mem_singleton] at he <;> subst he <;> cases ht
    exact ⟨⟨1, 1, _, rfl⟩, rfl⟩

theorem Demo.rec_pending : NoPendingBlocks some c!"utc" Demo.t4 Demo.recHistory Demo.recHeld := by
  rintro k base w i ⟨l, c, hap, hw⟩ hwr _
  have hap' := hap
  obtain ⟨rfl, rfl, rfl, rfl⟩ := Demo.appends_rec hap
  replace hw : w ∈ [Demo.w1, Demo.w2, Demo.w3] := hw
  simp only [List.mem_cons, List.not_mem_nil, or_false] at hw
  rcases hw with rfl | rfl | rfl
  · refine .inr (.inr ⟨Demo.w3, ⟨_, _, hap', ?_⟩, ⟨⟨rfl, _, rfl, rfl⟩, ?_⟩, Demo.t3, _, _, rfl, rfl, rfl, ?_⟩)
    · show Demo.w3 ∈ [Demo.w1, Demo.w2, Demo.w3]
      simp
    · exact hwr
    · left; unfold Before; decide
  · refine .inr (.inl ⟨_, _, hap', ?_⟩)
    have : some Demo.t2 = some i := hwr
    cases this
    rfl
  · exact .inl ⟨rfl, _, rfl, rfl⟩

/-- The hypotheses of C59 are met by this table, read at its latest commit; the two file groups' records
after the history, and what is read. -/
example : MonotoneTz Demo.env.ltz ∧ WholeSecondsTz Demo.env.ltz ∧
    ListableTable Demo.env Demo.arrow [] Demo.recTree Demo.recTable c!"utc" Demo.recHistory 17 [] [] []
      false false ∧
    MergingReader Demo.recTable c!"utc" c!"ts" ∧ MergeColumns Demo.mSchema c!"ts" ∧
    StoresRecords Demo.codec Demo.env.ltz c!"utc" Demo.mSchema Demo.recTree Demo.recHistory
      Demo.recWritten Demo.recHeld ∧
    (∀ c, Demo.recHistory.getLast? = some c →
      NoPendingBlocks Demo.env.ltz c!"utc" c.ts Demo.recHistory Demo.recHeld) ∧
    recordsAfter Demo.recWritten Demo.recHistory Demo.f1 = Demo.mor.rows ++ Demo.w2Batch.rows ∧
    (Demo.recTable.readSnapshot Demo.env Demo.arrow Demo.codec (Demo.mergeEnv Demo.arrow) Demo.recTree
      [] []).2 = .ok [⟨Demo.mSchema, [Demo.mRow c!"1" c!"C" c!"bob" 7, Demo.mRow c!"1" c!"A" c!"ann" 5]⟩,
        Demo.mor] :=
  ⟨by intro a b a' b' h1 h2 h; cases h1; cases h2; exact h, by intro n d h; cases h; rfl,
    Demo.rec_listable, Demo.rec_reader, ⟨by decide, by decide, _, rfl, rfl⟩, Demo.rec_records,
    by intro c hc; cases hc; exact Demo.rec_pending, by decide, by decide +kernel⟩

/-- **C59 is false.**  A delta commit completes while an earlier one, which has appended a block to the same
log file, is still in flight: the latest snapshot returns the records of the one in flight, which no
commit of the history wrote. -/
theorem C59_false : ∃ (E : Env) (A : Arrow) (C : Codec) (M : MergeEnv A) (o : Opts) (t : Tree) (tb : Table)
    (h : History) (schema : Schema) (W : Written) (held : Str → List WBlock) (outs : List Batch),
    MonotoneTz E.ltz ∧ WholeSecondsTz E.ltz ∧
    ListableTable E A o t tb c!"utc" h 17 [] [] [] false false ∧ MergingReader tb c!"utc" c!"ts" ∧
    MergeColumns schema c!"ts" ∧ StoresRecords C E.ltz c!"utc" schema t h W held ∧
    (tb.readSnapshot E A C M t [] []).2 = .ok outs ∧
    ∃ out ∈ outs, ∃ r ∈ out.rows, ∀ k, r ∉ recordsAfter W h k := by
  refine ⟨Demo.env, Demo.arrow, Demo.codec, Demo.mergeEnv Demo.arrow, [], Demo.dirtyTree, Demo.dirtyTable,
    Demo.recFirst, Demo.mSchema, Demo.recWritten, Demo.dirtyHeld,
    [⟨Demo.mSchema, [Demo.mRow c!"2" c!"A" c!"x" 9, Demo.mRow c!"1" c!"C" c!"bob" 7,
      Demo.mRow c!"3" c!"B" c!"y" 1]⟩],
    by intro a b a' b' h1 h2 h; cases h1; cases h2; exact h, by intro n d h; cases h; rfl,
    Demo.dirty_listable, Demo.dirty_reader, ⟨by decide, by decide, _, rfl, rfl⟩, Demo.dirty_records,
    by decide +kernel, _, List.mem_singleton_self _, Demo.mRow c!"3" c!"B" c!"y" 1, by simp, ?_⟩
  intro k hk
  obtain ⟨ts, h | h⟩ := recordsAfter_sub hk
  · have : ∀ rows, rows = Demo.recWritten.base ts k → rows = Demo.mor.rows ∨ rows = [] := by
      rintro rows rfl
      show (if _ then _ else _) = _ ∨ (if _ then _ else _) = _
      split
      · exact .inl rfl
      · split
        · exact .inl rfl
        · exact .inr rfl
    rcases this _ rfl with e | e <;> rw [e] at h
    · exact absurd h (by decide)
    · cases h
  · have : ∀ rows, rows = Demo.recWritten.appended ts k → rows = Demo.w2Batch.rows ∨ rows = [] := by
      rintro rows rfl
      show (if _ then _ else _) = _ ∨ (if _ then _ else _) = _
      split
      · exact .inl rfl
      · exact .inr rfl
    rcases this _ rfl with e | e <;> rw [e] at h
    · exact absurd h (by decide)
    · cases h

open Demo in
/-- In the table of `C59_false`, which meets the hypotheses of `C59_records_and_pending`, the record of the delta
commit in flight is a pending row of the file group. -/
example : PendingRow codec some c!"utc" t2 recFirst dirtyHeld f1 (mRow c!"3" c!"B" c!"y" 1) := by
  have hap : AppendsTo recFirst f1 t0 (c!"1", c!"0-0-1")
      ⟨t2, .deltaCommit, [(f1, .append [(c!"1", c!"0-0-1")])]⟩ := by
    rw [appendsTo_mem]; decide
  refine ⟨⟨t0, c!"0-0-0", [(c!"1", c!"0-0-1")]⟩, w1, _, by decide, ⟨⟨_, _, hap, ?_⟩, ?_, ?_, ?_⟩, w1_decodes, by decide⟩
  · show w1 ∈ [w1, w2]
    simp
  · exact ⟨t1, _, _, rfl, rfl, rfl, by left; unfold Before; decide⟩
  · intro l c h
    obtain ⟨_, _, _, rfl⟩ := appends_dirty h
    unfold WrittenBy
    decide
  · rintro w' i ⟨l, c, h, hw⟩ hrb
    obtain ⟨_, _, rfl, rfl⟩ := appends_dirty h
    replace hw : w' ∈ [w1, w2] := hw
    simp only [List.mem_cons, List.not_mem_nil, or_false] at hw
    rcases hw with rfl | rfl <;> exact absurd hrb.1.1 (by decide)

end Hudi
