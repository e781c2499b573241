import Verif.Props.Faults
import Verif.Props.OpenedDemo

/-! # C72: calls with failing requests, and counterexamples -/

namespace Hudi
open Spec

namespace Demo

/-- The request with the given number fails. -/
def failing (k : Nat) : Faults := fun n => n == k

/-- The snapshot of the table of C71 takes eight requests: the metadata of the latest commit, the schema in a base
file, the listing of the table, the metadata of two base files, and the two base files with a log file.
Whichever of them fails, the read is an error; after the second base file's metadata could not be fetched, the cache
holds the listing. -/
example : (TableCall.snapshot []).requests env arrow codec (mergeEnv arrow) openTable openTree [] = 8 ∧
    (∀ k < 8, ((TableCall.snapshot []).run env arrow codec (mergeEnv arrow) openTable openTree (failing k) []).2.2.isOk =
      false) ∧
    ((TableCall.snapshot []).run env arrow codec (mergeEnv arrow) openTable openTree (failing 8) []).2.2.isOk = true ∧
    ((TableCall.snapshot []).run env arrow codec (mergeEnv arrow) openTable openTree (failing 4) []).2.1.map
      (fun e => (e.1, e.2.length)) = [([], 2)] := by
  refine ⟨?_, ?_, ?_, ?_⟩ <;> decide +kernel

/-- A history with a failed call, after which a call through the handle answers. -/
example : CacheAfterCalls env arrow codec (mergeEnv arrow) openTable [openTree]
      ((TableCall.snapshot []).run env arrow codec (mergeEnv arrow) openTable openTree (failing 4) []).2.1 ∧
    TreeWF openTree ∧
    ((TableCall.snapshot []).answer env arrow codec (mergeEnv arrow) openTable openTree
      ((TableCall.snapshot []).run env arrow codec (mergeEnv arrow) openTable openTree (failing 4) []).2.1).2.isOk =
      true :=
  ⟨.call _ _ _ .opened, by decide, by decide +kernel⟩

/-- The global configuration asks for reads of base files only. -/
def globalWorld : World where
  vars := []
  connect _ uri :=
    if uri = c!"s3://b/trips" then
      .ok ⟨openTree, fun p => if p = c!"/etc/hudi/conf/hudi-defaults.conf" then
        some (.bytes (utf8Encode c!"hoodie.read.use.read_optimized.mode true\n")) else none⟩
    else .err .storage

def plainOpts : Opts :=
  [(c!"hoodie.base.path", c!"s3://b/trips"),
   (c!"hoodie.table.name", c!"trips"), (c!"hoodie.table.type", c!"MERGE_ON_READ"),
   (c!"hoodie.table.version", c!"6"), (c!"hoodie.timeline.layout.version", c!"1"),
   (c!"hoodie.table.precombine.field", c!"ts"),
   (c!"hoodie.datasource.write.hive_style_partitioning", c!"false"),
   (c!"hoodie.datasource.write.partitionpath.urlencode", c!"false")]

def tableWith (o : Opts) : Table := ⟨o, [], ⟨o, openTable.timeline.completed⟩⟩

/-- Opening a table takes three requests; without a global configuration, a failure of the second is harmless. -/
example : ((TableBuilder.fromBaseUri c!"s3://b/trips").buildF env (openWorld openTree) noFaults 0).1 = 3 ∧
    (∀ so ho s path, (openWorld openTree).storage so ho = .ok s → ConfPath (openWorld openTree).vars path →
      s.absolute path = none) ∧
    ((TableBuilder.fromBaseUri c!"s3://b/trips").buildF env (openWorld openTree) (failing 1) 0).2 =
      (TableBuilder.fromBaseUri c!"s3://b/trips").build env (openWorld openTree) ∧
    ((TableBuilder.fromBaseUri c!"s3://b/trips").build env (openWorld openTree)).isOk = true ∧
    ((TableBuilder.fromBaseUri c!"s3://b/trips").buildF env (openWorld openTree) (failing 2) 0).2 = .err .storage := by
  refine ⟨by decide +kernel, ?_, by decide +kernel, by decide +kernel, by decide +kernel⟩
  intro so ho s path h _
  unfold World.storage at h
  split at h
  · cases h
  · obtain ⟨uri, _, h2⟩ := Res.bind_eq_ok.1 h
    simp only [openWorld] at h2
    split at h2
    · cases h2; rfl
    · cases h2

end Demo

/-- **C72 is false of opening a table.**  The global configuration asks for reads of base files only.  The request
for it fails once, when the table is opened; the table opens all the same, and a read through it, in which nothing
fails, returns other rows. -/
theorem C72_false : ∃ (E : Env) (A : Arrow) (C : Codec) (M : MergeEnv A) (w : World) (b : TableBuilder) (F : Faults)
    (t : Tree) (tb tb' : Table) (rows rows' : List Batch),
    F globalConfigRequest = true ∧ (∀ k, k ≠ globalConfigRequest → F k = false) ∧
    (b.buildF E w F 0).2 = .ok tb ∧ b.build E w = .ok tb' ∧
    (tb.readSnapshot E A C M t [] []).2 = .ok rows ∧ (tb'.readSnapshot E A C M t [] []).2 = .ok rows' ∧
    rows.flatMap Batch.rows ≠ rows'.flatMap Batch.rows := by
  refine ⟨Demo.env, Demo.arrow, Demo.codec, Demo.mergeEnv Demo.arrow, Demo.globalWorld,
    TableBuilder.fromBaseUri c!"s3://b/trips", Demo.failing 1, Demo.openTree, Demo.tableWith Demo.plainOpts,
    Demo.tableWith (Demo.plainOpts ++ [(c!"hoodie.read.use.read_optimized.mode", c!"true")]),
    [⟨Demo.mSchema, [Demo.mRow c!"1" c!"C" c!"bob" 7, Demo.mRow c!"1" c!"A" c!"ann" 5]⟩, Demo.mor],
    [Demo.mor, Demo.mor], rfl, fun k hk => by simpa [Demo.failing, globalConfigRequest] using hk, ?_, ?_, ?_, ?_, ?_⟩ <;>
  decide +kernel

/-- **C72 is false of the schema of the DataFusion provider.**  When the request for the latest commit's metadata
fails, the provider reports that the table has no columns. -/
theorem C72_false_provider_schema : ∃ (tb : Table) (t : Tree) (F : Faults) (s : Schema),
    tb.dfSchema t = .ok s ∧ (tb.dfSchemaF t noFaults 0).2 = .ok s ∧ s ≠ [] ∧ (tb.dfSchemaF t F 0).2 = .ok [] :=
  ⟨Demo.openTable, Demo.openTree, Demo.failing 0, _, rfl, rfl, by decide, rfl⟩

end Hudi
