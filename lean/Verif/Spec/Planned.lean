import Verif.Spec.Cleaner
import Verif.Spec.Optimized
import Verif.Spec.Query

/-!
# Specification: a scan that is planned at one moment and executed later

The query engine asks the table for the files to read when it plans a query.  It opens them when it executes the
plan: on other machines, one after the other, while writers and a cleaner go on working.
-/

namespace Hudi.Spec

/-- What the writes have written to base files. -/
def basesBy (js : List Job) : Str → GroupKey → Batch := fun ts k => (jobAt js ts).elim ⟨[], []⟩ (fun j => j.base k)

/-- The file of the plan is found on the storage under the name it was given, has the size that the engine was told,
and holds the batch. -/
def Opens (base : Str) (t : Tree) (f : ScanFile) (b : Batch) : Prop :=
  ∃ rel byteSize footer, storageKey base rel = .ok f.path ∧
    t.fileAt (pathSegs rel) = some (f.size, .parquet byteSize b footer)

/-- The engine executes the plan, opening each file at the moment that `at'` gives for it, and reads these batches. -/
def Executes (base : Str) (at' : ScanFile → Tree) (plan : List (List ScanFile)) (read : List Batch) : Prop :=
  List.Forall₂ (fun f b => Opens base (at' f) f b) plan.flatten read

/-- The rows of the base files carry the values of the partitions they are in. -/
def CarryPartitions (A : Arrow) (schema : Schema) (hive url : Bool) (js : List Job) : Prop :=
  ∀ j ∈ js, ∀ k token, (k, Change.write token) ∈ j.commit.changes → CarriesPartition A schema hive url k.1 (j.base k)

end Hudi.Spec
