import Verif.Props.RacingChanges
import Verif.Props.RacingDemo

/-! # C68: an incremental read during later writes, and during an unfinished commit -/

namespace Hudi
open Spec
namespace Demo

def busyHoodie (rest : Tree) : Tree := .file c!"20231231000000000.commit" 1 (.json (.obj chDoc0))
  (.file c!"20240101000000000.deltacommit.inflight" 1 .junk
  (.file c!"20240102000000000.deltacommit" 1 (.json (.obj chDoc2)) rest))

/-- A table with one delta commit, whose log file holds the blocks. -/
def busyTree (rest : Tree) (ws : List WBlock) : Tree :=
  .dir c!".hoodie" (busyHoodie rest)
    (.file morBase 1 (.parquet 1 base1) (.file morLog 1 (.bytes (logBytes ws)) .nil))

/-- The table before. -/
def quietTree : Tree := busyTree .nil [x2]

/-- The table after a later delta commit has appended a block and completed. -/
def busierTree : Tree := busyTree (.file c!"20240103000000000.deltacommit" 1 (.json (.obj chDoc2)) .nil) [x2, w3]

/-- The table after the delta commit in flight has appended its block. -/
def earlierTree : Tree := busyTree .nil [x2, x1]

/-- Metadata is read before, data after. -/
def raceTo (t u : Tree) : Race := ⟨fun _ => t, t, t, fun _ => t, fun _ => u, fun _ => u, fun _ => u⟩

theorem busy_same (rest : Tree) (ss : List FileSlice) : MeanwhileAfter codecDated some c!"utc" morOpts t2 dirtyTable.timeline
    (busyTree rest [x2]) ss (busyTree rest [x2]) :=
  ⟨fun _ _ => rfl, fun _ _ _ => id, fun _ _ _ _ _ ws h _ => ⟨[], by rw [List.append_nil]; exact h, by simp⟩⟩

theorem busier_keeps {p : List Str} {e : Nat × Content} (hp : p ≠ [morLog]) (h : quietTree.fileAt p = some e) :
    busierTree.fileAt p = some e := by
  have hk : Keeps (.dir c!".hoodie" (busyHoodie .nil) (.file morBase 1 (.parquet 1 base1) .nil)) busierTree := by
    repeat' (first | exact trivial | exact rfl | refine And.intro ?_ ?_)
  refine keeps_fileAt hk ?_
  revert h
  match p with
  | [] => exact id
  | [n] =>
    simp only [Tree.fileAt, quietTree, busyTree, Tree.file?]
    intro h
    split at h
    · rename_i hn; rw [if_pos hn]; exact h
    · split at h
      · rename_i hn; exact absurd (by rw [hn]) hp
      · cases h
  | n :: m :: ms => exact id

theorem busier_meanwhile (ss : List FileSlice) : MeanwhileAfter codecDated some c!"utc" morOpts t2 dirtyTable.timeline
    quietTree ss busierTree where
  docs := by
    intro i hi
    simp only [dirtyTable, List.mem_cons, List.not_mem_nil, or_false] at hi
    rcases hi with rfl | rfl <;> rfl
  parquet := by
    rintro sl _ b ⟨s, z, f, h⟩
    refine ⟨s, z, f, busier_keeps ?_ h⟩
    intro e
    rw [e] at h
    revert h
    show (some (1, Content.bytes (logBytes [x2])) = some (s, Content.parquet z b f)) → False
    intro h
    cases h
  appended := by
    rintro _ sl _ l _ ws ⟨size, c, h1, h2⟩ _
    by_cases hp : pathSegs (sl.logPath l) = [morLog]
    · refine ⟨[w3], ⟨1, .bytes (logBytes [x2, w3]), by rw [hp]; rfl, ?_⟩, ?_⟩
      · rw [hp] at h1
        have : (1, Content.bytes (logBytes [x2])) = (size, c) := Option.some.inj h1
        cases this
        show logBytes [x2, w3] = logBytes (ws ++ [w3])
        unfold logBytes at h2 ⊢
        rw [List.flatMap_append, ← h2]
        show _ = (List.flatMap blockBytes [x2]) ++ _
        rw [← List.flatMap_append]
        rfl
      · intro w hw
        rw [List.mem_singleton.1 hw]
        exact ⟨w3_good, t3, _, _, rfl, rfl, rfl, by unfold Before; decide⟩
    · exact ⟨[], ⟨size, c, busier_keeps hp h1, by rw [List.append_nil]; exact h2⟩, by simp⟩

def busySlice : FileSlice :=
  ⟨⟨c!"f1", c!"0-0-0", t0, c!"parquet", none⟩, [⟨c!"f1", t0, c!"log", c!"1", c!"0-0-1", none⟩], []⟩

/-- The hypotheses of `C68_changes_isolated_partial` hold of this read of the changes since the first commit,
during which a later delta commit appends to the log file. -/
example : Timeline.load env [] quietTree = .ok dirtyTable.timeline ∧ PlainStorage dirtyTable ∧
    timezoneOf dirtyTable.opts = .ok c!"utc" ∧ dirtyTable.timeline.latestTimestamp = some t2 ∧
    AllSeen (MeanwhileAfter codecDated some c!"utc" dirtyTable.opts t2 dirtyTable.timeline quietTree [busySlice])
      (raceTo quietTree busierTree) ∧
    dirtyTable.fileSlicesBetween env quietTree (some t0) none = .ok [busySlice] ∧
    GoodLogs codecDated some c!"utc" dirtyTable.opts quietTree [busySlice] ∧
    dirtyTable.readIncremental env arrow codecDated (mergeEnv arrow) quietTree t0 none =
      .ok [x2Batch] ∧
    dirtyTable.readIncrementalR env arrow codecDated (mergeEnv arrow) (raceTo quietTree busierTree) t0 none =
      .ok [x2Batch] := by
  refine ⟨by decide +kernel, ⟨by simp [HmNodup, dirtyTable], by simp [dirtyTable]⟩, rfl, rfl,
    ⟨fun _ => busy_same _ _, busy_same _ _, busy_same _ _, fun _ => busy_same _ _, fun _ => busier_meanwhile _,
      fun _ => busier_meanwhile _, fun _ => busier_meanwhile _⟩, by decide +kernel, ?_, by decide +kernel,
    by decide +kernel⟩
  intro _ s hs l hl
  rw [List.mem_singleton] at hs
  subst hs
  have : l = ⟨c!"f1", t0, c!"log", c!"1", c!"0-0-1", none⟩ := by simpa [busySlice] using hl
  subst this
  refine ⟨[x2], ⟨1, .bytes (logBytes [x2]), rfl, rfl⟩, ?_⟩
  intro w hw
  rw [List.mem_singleton.1 hw]
  exact x2_good

end Demo

/-- **C68 as stated is false.**  While a delta commit that was requested before the latest completed one, and is
not completed, appends its block to a log file, a read of the changes up to the latest completed commit returns
its record.  No file is removed, no other file is changed, and the completed instants are the same throughout. -/
theorem C68_false : ∃ (E : Env) (A : Arrow) (C : Codec) (M : MergeEnv A) (t t' : Tree) (tb : Table) (R : Race)
    (start tz : Str) (p : List Str) (size : Nat) (bs : Bytes) (w : WBlock) (before outs : List Batch)
    (r : List Cell),
    TreeWF t ∧ TreeWF t' ∧ Timeline.load E [] t = .ok tb.timeline ∧ Timeline.load E [] t' = .ok tb.timeline ∧
    timezoneOf tb.opts = .ok tz ∧ GoodBlock C E.ltz tz w ∧
    t.fileAt p = some (size, .bytes bs) ∧ t'.fileAt p = some (size, .bytes (bs ++ logBytes [w])) ∧
    (∀ q, q ≠ p → t'.fileAt q = t.fileAt q) ∧
    AllSeen (fun u => u = t ∨ u = t') R ∧
    tb.readIncremental E A C M t start none = .ok before ∧ tb.readIncrementalR E A C M R start none = .ok outs ∧
    r ∈ outs.flatMap Batch.rows ∧ r ∉ before.flatMap Batch.rows := by
  refine ⟨Demo.env, Demo.arrow, Demo.codecDated, Demo.mergeEnv Demo.arrow, Demo.quietTree, Demo.earlierTree,
    Demo.dirtyTable, Demo.raceTo Demo.quietTree Demo.earlierTree, Demo.t0, c!"utc", [Demo.morLog], 1,
    logBytes [Demo.x2], Demo.x1, [Demo.x2Batch], [⟨Demo.incSchema, Demo.x2Batch.rows ++ Demo.x1Batch.rows⟩],
    Demo.datedRow c!"3" c!"B" c!"y" 1 Demo.t1,
    by decide, by decide, by decide +kernel, by decide +kernel, by decide +kernel,
    Demo.x1_good, rfl, rfl, ?_,
    ⟨fun _ => .inl rfl, .inl rfl, .inl rfl, fun _ => .inl rfl, fun _ => .inr rfl, fun _ => .inr rfl,
      fun _ => .inr rfl⟩, by decide +kernel, by decide +kernel, by decide, by decide⟩
  intro q hq
  match q with
  | [] => rfl
  | [n] =>
    have : ¬ Demo.morLog = n := fun e => hq (by rw [e])
    simp only [Tree.fileAt, Demo.quietTree, Demo.earlierTree, Demo.busyTree, Tree.file?, this, if_false]
  | n :: m :: ms => simp only [Tree.fileAt, Demo.quietTree, Demo.earlierTree, Demo.busyTree, Tree.sub]

end Hudi
