import Verif.Spec.Snapshot
import Verif.Model.Faults

/-! # Specification: calls whose requests to the storage may fail -/

namespace Hudi.Spec

/-- No request fails. -/
def noFaults : Faults := fun _ => false

/-- The calls on a table handle that read the storage, and reading a file slice. -/
inductive TableCall
  | slices (filters : List (Str × Str × Str))
  | slicesAsOf (ts : Str) (filters : List (Str × Str × Str))
  | splits (k : Nat) (filters : List (Str × Str × Str))
  | splitsAsOf (k : Nat) (ts : Str) (filters : List (Str × Str × Str))
  | slicesBetween (start stop : Option Str)
  | snapshot (filters : List (Str × Str × Str))
  | snapshotAsOf (ts : Str) (filters : List (Str × Str × Str))
  | incremental (start : Str) (stop : Option Str)
  | schema
  | partitionSchema
  | avroSchema
  | readSlice (options : List (Str × Str)) (s : FileSlice)

/-- What the calls return. -/
inductive Answer
  | slices (l : List FileSlice)
  | splits (l : List (List FileSlice))
  | batches (l : List Batch)
  | schema (s : Schema)
  | text (s : Str)

/-- The two answers are the same up to the order in which file slices are returned or read. -/
def Answer.Same : Answer → Answer → Prop
  | .slices a, .slices b => a.Perm b
  | .splits a, .splits b => a.flatten.Perm b.flatten ∧ a.map List.length = b.map List.length
  | .batches a, .batches b => a.Perm b
  | .schema a, .schema b => a = b
  | .text a, .text b => a = b
  | _, _ => False

/-- The outcome with the value turned into an answer. -/
def answerOf {α : Type} (f : α → Answer) : Res α → Res Answer
  | .ok a => .ok (f a)
  | .err e => .err e
  | .panic => .panic

/-- A call when no request fails, as in the other properties: the handle's cache afterwards and the outcome. -/
def TableCall.answer (E : Env) (A : Arrow) (C : Codec) (M : MergeEnv A) (tb : Table) (t : Tree) (c : Cache) :
    TableCall → Cache × Res Answer
  | .slices fs => ((tb.fileSlices E A t fs c).1, answerOf .slices (tb.fileSlices E A t fs c).2)
  | .slicesAsOf ts fs => ((tb.fileSlicesAsOf E A t ts fs c).1, answerOf .slices (tb.fileSlicesAsOf E A t ts fs c).2)
  | .splits k fs => ((tb.fileSlicesSplits E A t k fs c).1, answerOf .splits (tb.fileSlicesSplits E A t k fs c).2)
  | .splitsAsOf k ts fs =>
    ((tb.fileSlicesSplitsAsOf E A t k ts fs c).1, answerOf .splits (tb.fileSlicesSplitsAsOf E A t k ts fs c).2)
  | .slicesBetween start stop => (c, answerOf .slices (tb.fileSlicesBetween E t start stop))
  | .snapshot fs => ((tb.readSnapshot E A C M t fs c).1, answerOf .batches (tb.readSnapshot E A C M t fs c).2)
  | .snapshotAsOf ts fs =>
    ((tb.readSnapshotAsOf E A C M t ts fs c).1, answerOf .batches (tb.readSnapshotAsOf E A C M t ts fs c).2)
  | .incremental start stop => (c, answerOf .batches (tb.readIncremental E A C M t start stop))
  | .schema => (c, answerOf .schema (tb.schema t))
  | .partitionSchema => (c, answerOf .schema (tb.partitionSchema t))
  | .avroSchema => (c, answerOf .text (tb.avroSchema t))
  | .readSlice options s =>
    (c, answerOf (fun b => .batches [b]) (readFileSlice C A M E.ltz (tb.readerOpts options) t s))

/-- A call whose requests fail as `F` says: the number of requests made, the handle's cache afterwards and the
outcome. -/
def TableCall.run (E : Env) (A : Arrow) (C : Codec) (M : MergeEnv A) (tb : Table) (t : Tree) (F : Faults) (c : Cache) :
    TableCall → Nat × Cache × Res Answer
  | .slices fs =>
    let r := tb.fileSlicesF E A t fs F 0 c
    (r.1, r.2.1, answerOf .slices r.2.2)
  | .slicesAsOf ts fs =>
    let r := tb.fileSlicesAsOfF E A t ts fs F 0 c
    (r.1, r.2.1, answerOf .slices r.2.2)
  | .splits k fs =>
    let r := tb.fileSlicesSplitsF E A t k fs F 0 c
    (r.1, r.2.1, answerOf .splits r.2.2)
  | .splitsAsOf k ts fs =>
    let r := tb.fileSlicesSplitsAsOfF E A t k ts fs F 0 c
    (r.1, r.2.1, answerOf .splits r.2.2)
  | .slicesBetween start stop =>
    let r := tb.fileSlicesBetweenF E t start stop F 0
    (r.1, c, answerOf .slices r.2)
  | .snapshot fs =>
    let r := tb.readSnapshotF E A C M t fs F 0 c
    (r.1, r.2.1, answerOf .batches r.2.2)
  | .snapshotAsOf ts fs =>
    let r := tb.readSnapshotAsOfF E A C M t ts fs F 0 c
    (r.1, r.2.1, answerOf .batches r.2.2)
  | .incremental start stop =>
    let r := tb.readIncrementalF E A C M t start stop F 0
    (r.1, c, answerOf .batches r.2)
  | .schema =>
    let r := tb.timeline.latestSchemaF t F 0
    (r.1, c, answerOf .schema r.2)
  | .partitionSchema =>
    let r := tb.partitionSchemaF t F 0
    (r.1, c, answerOf .schema r.2)
  | .avroSchema =>
    let r := tb.timeline.latestAvroSchemaF t F 0
    (r.1, c, answerOf .text r.2)
  | .readSlice options s =>
    let r := readFileSliceF C A M E.ltz (tb.readerOpts options) t s F 0
    (r.1, c, answerOf (fun b => .batches [b]) r.2)

/-- The number of requests the call makes when none fails. -/
def TableCall.requests (E : Env) (A : Arrow) (C : Codec) (M : MergeEnv A) (tb : Table) (t : Tree) (c : Cache)
    (call : TableCall) : Nat := (call.run E A C M tb t noFaults c).1

/-- The call is about the table as of `ts`: the timestamp asked for or, without one, that of the latest completed
instant. -/
def TableCall.IsAsOf (tb : Table) (ts : Str) : TableCall → Prop
  | .slices _ | .splits _ _ | .snapshot _ => (tb.timeline.completed.getLast?.map Instant.timestamp) = some ts
  | .slicesAsOf ts' _ | .splitsAsOf _ ts' _ | .snapshotAsOf ts' _ => ts = ts'
  | _ => False

/-- The cache of a handle after a sequence of calls, each made against the contents the storage had at the time
(most recent first), with whatever requests failing. -/
inductive CacheAfterCalls (E : Env) (A : Arrow) (C : Codec) (M : MergeEnv A) (tb : Table) :
    List Tree → Cache → Prop
  | opened : CacheAfterCalls E A C M tb [] []
  | call {ts : List Tree} {c : Cache} (t : Tree) (call : TableCall) (F : Faults) :
      CacheAfterCalls E A C M tb ts c → CacheAfterCalls E A C M tb (t :: ts) (call.run E A C M tb t F c).2.1

/-- The number of the request for the global configuration file, among the requests made when a table is opened:
the second, after the one for the table's properties. -/
def globalConfigRequest : Nat := 1

end Hudi.Spec
