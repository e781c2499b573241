import Verif.Props.Tidied
import Verif.Props.ChangesDemo
import Verif.Props.Racing

/-! # C79: tables that meet the hypotheses, and counterexamples -/

namespace Hudi
open Spec

namespace Demo

def tidyBase : Str := c!"f1_0-4-1_20240104000000000.parquet"
def tidyOld : Str := c!"f3_0-0-0_20231231000000000.parquet"
def tidyNew : Str := c!"f4_0-3-1_20240103000000000.parquet"

def tidyRows3 : Batch := ⟨incSchema, [datedRow c!"1" c!"E" c!"eve" 5 t3]⟩
def tidyRows4 : Batch :=
  ⟨incSchema, [datedRow c!"1" c!"A" c!"ann" 5 t0, datedRow c!"4" c!"C" c!"z" 9 t2, datedRow c!"9" c!"F" c!"fay" 1 t4]⟩

def tidyDoc : Content :=
  .json (.obj [(c!"partitionToWriteStats", .obj [([], .arr [.obj [(c!"fileId", .str c!"f1"),
    (c!"path", .str tidyBase)]])])])

def tidyReplace : Content :=
  .json (.obj [(c!"partitionToWriteStats", .obj [([], .arr [.obj [(c!"fileId", .str c!"f4"),
    (c!"path", .str tidyNew)]])]), (c!"partitionToReplaceFileIds", .obj [([], .arr [.str c!"f3"])])])

/-- Two file groups are written, `f1` gets a log file, `f4` replaces `f3`, and `f1` is compacted. -/
def fullTree : Tree :=
  .dir c!".hoodie" (.file c!"20231231000000000.commit" 1 .junk
    (.file c!"20240102000000000.deltacommit" 1 (.json (.obj chDoc2))
    (.file c!"20240103000000000.replacecommit" 1 tidyReplace
    (.file c!"20240104000000000.commit" 1 tidyDoc .nil))))
  (.file morBase 1 (.parquet 1 base1) (.file morLog 1 (.bytes (logBytes [x1, x2, w3]))
    (.file tidyOld 1 (.parquet 1 base1) (.file tidyNew 1 (.parquet 1 tidyRows3)
    (.file tidyBase 1 (.parquet 1 tidyRows4) .nil)))))

/-- The slices of `f1` before its compaction and of `f3` have been cleaned, and the instants before the
compaction have been archived. -/
def tidyTree : Tree :=
  .dir c!".hoodie" (.file c!"20240104000000000.commit" 1 tidyDoc .nil)
  (.file tidyNew 1 (.parquet 1 tidyRows3) (.file tidyBase 1 (.parquet 1 tidyRows4) .nil))

/-- Only the superseded base file of `f1` has been taken away so far, not yet its log file. -/
def halfTree : Tree :=
  .dir c!".hoodie" (.file c!"20231231000000000.commit" 1 .junk
    (.file c!"20240102000000000.deltacommit" 1 (.json (.obj chDoc2))
    (.file c!"20240103000000000.replacecommit" 1 tidyReplace
    (.file c!"20240104000000000.commit" 1 tidyDoc .nil))))
  (.file morLog 1 (.bytes (logBytes [x1, x2, w3]))
    (.file tidyOld 1 (.parquet 1 base1) (.file tidyNew 1 (.parquet 1 tidyRows3)
    (.file tidyBase 1 (.parquet 1 tidyRows4) .nil))))

/-- Only the instants have been archived so far. -/
def archivedTree : Tree :=
  .dir c!".hoodie" (.file c!"20240104000000000.commit" 1 tidyDoc .nil)
  (.file morBase 1 (.parquet 1 base1) (.file morLog 1 (.bytes (logBytes [x1, x2, w3]))
    (.file tidyOld 1 (.parquet 1 base1) (.file tidyNew 1 (.parquet 1 tidyRows3)
    (.file tidyBase 1 (.parquet 1 tidyRows4) .nil)))))

def fullTable : Table := ⟨morOpts, [], ⟨[], [⟨t0, .commit, .completed, 1703980800000⟩,
  ⟨t2, .deltaCommit, .completed, 1704153600000⟩, ⟨t3, .replaceCommit, .completed, 1704240000000⟩,
  ⟨t4, .commit, .completed, 1704326400000⟩]⟩⟩

def tidyTable : Table := ⟨morOpts, [], ⟨[], [⟨t4, .commit, .completed, 1704326400000⟩]⟩⟩

theorem full_part (x : Str) : PartitionOf morOpts fullTree x ↔ x ∈ [([] : Str)] := partitionOf_mem (by decide) rfl x

theorem tidy_part (x : Str) : PartitionOf morOpts tidyTree x ↔ x ∈ [([] : Str)] := partitionOf_mem (by decide) rfl x

def tidyB4 : BaseFile := ⟨c!"f1", c!"0-4-1", t4, c!"parquet", some (FileMeta.new tidyBase 1)⟩
def tidyB3 : BaseFile := ⟨c!"f4", c!"0-3-1", t3, c!"parquet", some (FileMeta.new tidyNew 1)⟩
def tidyB1 : BaseFile := ⟨c!"f1", c!"0-0-0", t0, c!"parquet", some (FileMeta.new morBase 1)⟩
def tidyB0 : BaseFile := ⟨c!"f3", c!"0-0-0", t0, c!"parquet", some (FileMeta.new tidyOld 1)⟩

theorem full_bases : basesOf (metas (filesOf fullTree [])) = [tidyB1, tidyB0, tidyB3, tidyB4] := by decide +kernel

theorem tidy_bases : basesOf (metas (filesOf tidyTree [])) = [tidyB3, tidyB4] := by decide +kernel

theorem full_base {b : BaseFile} (h : BaseIn (filesOf fullTree []) b) :
    b = tidyB1 ∨ b = tidyB0 ∨ b = tidyB3 ∨ b = tidyB4 := by
  have := mem_basesOf.2 h
  rw [full_bases] at this
  simpa using this

theorem tidy_base {b : BaseFile} : BaseIn (filesOf tidyTree []) b ↔ b = tidyB3 ∨ b = tidyB4 := by
  rw [← mem_basesOf, tidy_bases]
  simp

theorem full_replaces {i : Instant} (h1 : i ∈ fullTable.timeline.completed) (h2 : i.action = .replaceCommit) :
    i = ⟨t3, .replaceCommit, .completed, 1704240000000⟩ := by
  revert i
  decide

end Demo

open Demo in
theorem Demo.full_tidied : Tidied morOpts t4 1704326400000 fullTable.timeline tidyTable.timeline fullTree tidyTree where
  files := by
    intro x hx f hf
    obtain rfl : x = [] := by simpa using (tidy_part x).1 hx
    refine ⟨(full_part []).2 (by simp), ?_⟩
    revert f
    decide +kernel
  bases := by
    intro x hx b hb
    obtain rfl : x = [] := by simpa using (tidy_part x).1 hx
    rcases tidy_base.1 hb with rfl | rfl <;> rfl
  logs := by
    intro x hx l hl
    obtain rfl : x = [] := by simpa using (tidy_part x).1 hx
    have : logsOf (metas (filesOf tidyTree [])) = [] := by decide +kernel
    have hl := mem_logsOf.2 hl
    rw [this] at hl
    cases hl
  cleaned := by
    intro x b hx hb
    obtain rfl : x = [] := by simpa using (full_part x).1 hx
    have hp : PartitionOf morOpts tidyTree [] := (tidy_part []).2 (by simp)
    rcases full_base hb with rfl | rfl | rfl | rfl
    · exact .inr (.inr ⟨tidyB4, hp, tidy_base.2 (.inr rfl), rfl, by decide, by decide⟩)
    · exact .inr (.inl ⟨⟨t3, .replaceCommit, .completed, 1704240000000⟩, by decide, rfl, by decide, _, rfl,
        _, _, rfl, List.mem_singleton_self _, List.mem_singleton_self _⟩)
    · exact .inl ⟨hp, tidy_base.2 (.inl rfl)⟩
    · exact .inl ⟨hp, tidy_base.2 (.inr rfl)⟩
  together := by
    intro x b l hx hb hl h1 h2 hx'
    obtain rfl : x = [] := by simpa using (full_part x).1 hx
    have e : ∀ l ∈ logsOf (metas (filesOf fullTree [])), l.fileId = c!"f1" ∧ l.baseCommitTimestamp = t0 := by
      decide +kernel
    have e' : logsOf (metas (filesOf tidyTree [])) = [] := by decide +kernel
    obtain ⟨e1, e2⟩ := e l (mem_logsOf.2 hl)
    constructor
    · intro h
      have := mem_logsOf.2 h
      rw [e'] at this
      cases this
    · intro h
      exfalso
      rw [e1] at h1
      rw [e2] at h2
      rcases tidy_base.1 h with rfl | rfl
      · revert h1; decide
      · revert h2; decide
  instants := by
    intro i hi
    obtain rfl : i = ⟨t4, .commit, .completed, 1704326400000⟩ := by simpa [tidyTable] using hi
    exact ⟨by decide, rfl⟩
  latest := rfl
  archived := by
    intro i hi _ ha md hd x f hr hx b hb
    obtain rfl := full_replaces hi ha
    obtain rfl : x = [] := by simpa using (tidy_part x).1 hx
    cases hd
    have hf : f = c!"f3" := by
      obtain ⟨_, _, h1, h2, h3⟩ := hr
      cases h1
      cases List.mem_singleton.1 h2
      cases List.mem_singleton.1 h3
      rfl
    rw [hf]
    rcases tidy_base.1 hb with rfl | rfl <;> decide
  columns := by
    intro i md path s hi hd hf hc
    cases hi
    cases hd
    obtain ⟨_, _, _, _, _, h1, h2, h3⟩ := hf
    cases h1
    cases h2
    rcases h3 with ⟨_, rfl⟩ | ⟨h3, _⟩
    · obtain ⟨z, z', z'', hc⟩ := hc
      exact ⟨z, z', z'', by rw [← hc]; rfl⟩
    · exact absurd ⟨c!"f1_0-4-1_20240104000000000", rfl⟩ h3

/-- The hypotheses of `C79_file_slices_partial`, `C79_latest_slices_partial`, `C79_rows_as_of_partial` and
`C79_latest_rows_partial` are met by that table, of which two file slices and three instants are taken away. -/
example : Timeline.load Demo.env [] Demo.fullTree = .ok Demo.fullTable.timeline ∧
    Timeline.load Demo.env [] Demo.tidyTree = .ok Demo.tidyTable.timeline ∧
    TreeWF Demo.fullTree ∧ TreeWF Demo.tidyTree ∧
    (∀ x, PartitionOf Demo.morOpts Demo.fullTree x → OneExtension (filesOf Demo.fullTree x)) ∧
    timezoneOf [] = .ok c!"utc" ∧ Bound Demo.env.ltz c!"utc" (some Demo.t4) (some 1704326400000) ∧
    Tidied Demo.morOpts Demo.t4 1704326400000 Demo.fullTable.timeline Demo.tidyTable.timeline Demo.fullTree
      Demo.tidyTree ∧
    (∃ a b, (Demo.fullTable.fileSlices Demo.env Demo.arrow Demo.fullTree [] []).2 = .ok [a, b]) ∧
    (Demo.fullTable.readSnapshotAsOf Demo.env Demo.arrow Demo.codecDated (Demo.mergeEnv Demo.arrow) Demo.fullTree
      Demo.t4 [] []).2 = .ok [Demo.tidyRows4, Demo.tidyRows3] := by
  refine ⟨rfl, rfl, by decide, by decide, ?_, rfl, ⟨_, rfl, rfl⟩, Demo.full_tidied, ⟨_, _, rfl⟩, rfl⟩
  intro x hx
  obtain rfl : x = [] := by simpa using (Demo.full_part x).1 hx
  exact oneExtension_of (by decide +kernel)

/-- The hypotheses of `C79_changes_partial` are met by that table, for the changes after the replacement. -/
example : inRange [.commit, .deltaCommit, .replaceCommit] (some 1704240000000) (some 1704326400000)
      Demo.tidyTable.timeline.completed =
    inRange [.commit, .deltaCommit, .replaceCommit] (some 1704240000000) (some 1704326400000)
      Demo.fullTable.timeline.completed ∧
    (∃ s, Demo.fullTable.fileSlicesBetween Demo.env Demo.fullTree (some Demo.t3) (some Demo.t4) = .ok [s] ∧
      Demo.tidyTree.fileAt (pathSegs s.basePath) = Demo.fullTree.fileAt (pathSegs s.basePath) ∧ s.logFiles = []) ∧
    Demo.fullTable.readIncremental Demo.env Demo.arrow Demo.codecDated (Demo.mergeEnv Demo.arrow) Demo.fullTree
      Demo.t3 (some Demo.t4) = .ok [⟨Demo.incSchema, Demo.tidyRows4.rows.drop 2⟩] :=
  ⟨by decide, ⟨_, rfl, rfl, rfl⟩, rfl⟩

namespace Demo

/-- The table of the C59 example with its older instants archived. -/
def recArchived : Tree :=
  .dir c!".hoodie" (.file c!"20240104000000000.commit" 1 recDoc .nil)
  (.file morBase 1 (.parquet 1 mor) (.file morLog 1 (.bytes (logBytes [w1, w2, w3]))
    (.file recBase 1 (.parquet 1 mor) .nil)))

theorem rec_part (x : Str) : PartitionOf morOpts recTree x ↔ x ∈ [([] : Str)] := partitionOf_mem (by decide) rfl x

theorem recArchived_part (x : Str) : PartitionOf morOpts recArchived x ↔ x ∈ [([] : Str)] :=
  partitionOf_mem (by decide) rfl x

end Demo

open Demo in
/-- The hypotheses of `C79_cleaned_records_partial` are met by the table of the C59 example when its older instants
have been archived. -/
example : Timeline.load env [] recArchived = .ok tidyTable.timeline ∧ TreeWF recArchived ∧
    tidyTable.opts = recTable.opts ∧ tidyTable.storageOpts = recTable.storageOpts ∧
    Tidied morOpts t4 1704326400000 recTable.timeline tidyTable.timeline recTree recArchived := by
  have hx : ∀ x, PartitionOf morOpts recArchived x → x = [] := fun x h => by simpa using (recArchived_part x).1 h
  have hx' : ∀ x, PartitionOf morOpts recTree x → x = [] := fun x h => by simpa using (rec_part x).1 h
  have hp : PartitionOf morOpts recArchived [] := (recArchived_part []).2 (by simp)
  have hp' : PartitionOf morOpts recTree [] := (rec_part []).2 (by simp)
  have hf : filesOf recArchived [] = filesOf recTree [] := rfl
  have hat : ∀ n, NormalName n → recArchived.fileAt (pathSegs (pathPush [] n)) = recTree.fileAt (pathSegs (pathPush [] n)) := by
    intro n hn
    rw [pathSegs_pathPush hn]
    rfl
  refine ⟨rfl, by decide, rfl, rfl, ?_, ?_, ?_, ?_, ?_, ?_, rfl, ?_, ?_⟩
  · intro x h f hm
    rw [hx x h] at hm ⊢
    exact ⟨hp', hm⟩
  · intro x h b hb
    rw [hx x h] at hb ⊢
    exact hat _ (baseIn_normal (t := recArchived) (by decide) hb).1
  · intro x h l hl
    rw [hx x h] at hl ⊢
    exact hat _ (logIn_normal (t := recArchived) (by decide) hl)
  · intro x b h hb
    rw [hx' x h] at hb ⊢
    exact .inl ⟨hp, hb⟩
  · intro x b l h hb hl _ _ _
    rw [hx' x h] at hb hl ⊢
    exact ⟨fun _ => hb, fun _ => hl⟩
  · intro i hi
    obtain rfl : i = ⟨t4, .commit, .completed, 1704326400000⟩ := by simpa [tidyTable] using hi
    exact ⟨by decide, rfl⟩
  · intro i hi _ ha
    exact absurd ha (by revert i; decide)
  · intro i md path s hi hd hf hc
    cases hi
    cases hd
    obtain ⟨_, _, _, _, _, h1, h2, h3⟩ := hf
    cases h1
    cases h2
    rcases h3 with ⟨_, rfl⟩ | ⟨h3, _⟩
    · obtain ⟨z, z', z'', hc⟩ := hc
      exact ⟨z, z', z'', by rw [← hc]; rfl⟩
    · exact absurd ⟨c!"f2_0-4-1_20240104000000000", rfl⟩ h3

/-- **C79 does not hold while cleaning is going on.**  Once the base file of a superseded file slice is gone,
but not yet the log file written against it, no snapshot can be read any more: a log file without its base file
in a file group that has other base files makes every query fail. -/
theorem C79_false : ∃ (E : Env) (A : Arrow) (C : Codec) (M : MergeEnv A) (o : Opts) (tb : Table) (t t' : Tree)
    (b b' : BaseFile) (outs : List Batch) (e : ErrKind), TreeWF t ∧ TreeWF t' ∧
    Timeline.load E o t = .ok tb.timeline ∧ Timeline.load E o t' = .ok tb.timeline ∧
    BaseIn (filesOf t []) b ∧ filesOf t [] = (b.fileName, 1) :: filesOf t' [] ∧
    BaseIn (filesOf t' []) b' ∧ b'.fileId = b.fileId ∧ compare b.commitTimestamp b'.commitTimestamp = .lt ∧
    tb.timeline.latestTimestamp = some b'.commitTimestamp ∧
    (tb.readSnapshot E A C M t [] []).2 = .ok outs ∧ (tb.readSnapshot E A C M t' [] []).2 = .err e :=
  ⟨Demo.env, Demo.arrow, Demo.codecDated, Demo.mergeEnv _, [], Demo.fullTable, Demo.fullTree, Demo.halfTree,
    Demo.tidyB1, Demo.tidyB4, _, _, by decide, by decide, rfl, rfl, mem_basesOf.1 (by decide +kernel),
    by decide +kernel, mem_basesOf.1 (by decide +kernel), rfl, by decide, rfl, rfl, rfl⟩

/-- **Nor does it when a replacement is archived before the replaced files are gone.**  The replaced file group
comes back: its rows are read again. -/
theorem C79_false_replaced : ∃ (E : Env) (A : Arrow) (C : Codec) (M : MergeEnv A) (o : Opts) (tb tb' : Table)
    (t t' : Tree) (outs outs' : List Batch) (out : Batch), TreeWF t ∧ TreeWF t' ∧
    Timeline.load E o t = .ok tb.timeline ∧ Timeline.load E o t' = .ok tb'.timeline ∧ tb'.opts = tb.opts ∧
    (∃ old, tb.timeline.completed = old ++ tb'.timeline.completed) ∧ filesOf t' [] = filesOf t [] ∧ out.rows ≠ [] ∧
    (tb.readSnapshot E A C M t [] []).2 = .ok (outs ++ outs') ∧
    (tb'.readSnapshot E A C M t' [] []).2 = .ok (outs ++ out :: outs') :=
  ⟨Demo.env, Demo.arrow, Demo.codecDated, Demo.mergeEnv _, [], Demo.fullTable, Demo.tidyTable, Demo.fullTree,
    Demo.archivedTree, [Demo.tidyRows4], [Demo.tidyRows3], Demo.base1, by decide, by decide, rfl, rfl, rfl, ⟨Demo.fullTable.timeline.completed.take 3, rfl⟩, rfl, by decide, rfl, rfl⟩

/-- **Nor for changes read across archived instants.**  A table that has been cleaned and archived as it should be
still answers a read of the changes since an archived instant, but without the changes of the instants that were
archived since, and without saying so. -/
theorem C79_false_changes : ∃ (E : Env) (A : Arrow) (C : Codec) (M : MergeEnv A) (o : Opts) (tb tb' : Table)
    (t t' : Tree) (ts start : Str) (T : Int) (outs : List Batch) (out : Batch), TreeWF t ∧ TreeWF t' ∧
    Timeline.load E o t = .ok tb.timeline ∧ Timeline.load E o t' = .ok tb'.timeline ∧ tb'.opts = tb.opts ∧
    Tidied tb.opts ts T tb.timeline tb'.timeline t t' ∧ out.rows ≠ [] ∧
    tb.readIncremental E A C M t start none = .ok (out :: outs) ∧
    tb'.readIncremental E A C M t' start none = .ok outs :=
  ⟨Demo.env, Demo.arrow, Demo.codecDated, Demo.mergeEnv _, [], Demo.fullTable, Demo.tidyTable, Demo.fullTree,
    Demo.tidyTree, Demo.t4, Demo.t0, _,
    [⟨Demo.incSchema, Demo.tidyRows4.rows.drop 1⟩], Demo.tidyRows3, by decide, by decide, rfl, rfl, rfl, Demo.full_tidied, by decide, rfl, rfl⟩

end Hudi
