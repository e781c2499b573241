import Verif.Spec.Faults
import Verif.Spec.RacingWriter
import Verif.Model.RacingFaults

/-! # Calls on a kept handle while writers work, with requests that fail -/

namespace Hudi.Spec

/-- A call whose requests fail as `F` says, and are answered by the storage as `R` says: the number of requests made, the
handle's cache afterwards and the outcome. -/
def TableCall.race (E : Env) (A : Arrow) (C : Codec) (M : MergeEnv A) (tb : Table) (depth : Nat) (R : Race) (F : Faults)
    (c : Cache) : TableCall → Nat × Cache × Res Answer
  | .slices fs =>
    let r := tb.fileSlicesRF E A depth R fs F 0 c
    (r.1, r.2.1, answerOf .slices r.2.2)
  | .slicesAsOf ts fs =>
    let r := tb.fileSlicesAsOfRF E A depth R ts fs F 0 c
    (r.1, r.2.1, answerOf .slices r.2.2)
  | .splits k fs =>
    let r := tb.fileSlicesSplitsRF E A depth R k fs F 0 c
    (r.1, r.2.1, answerOf .splits r.2.2)
  | .splitsAsOf k ts fs =>
    let r := tb.fileSlicesSplitsAsOfRF E A depth R k ts fs F 0 c
    (r.1, r.2.1, answerOf .splits r.2.2)
  | .slicesBetween start stop =>
    let r := tb.fileSlicesBetweenRF E R start stop F 0
    (r.1, c, answerOf .slices r.2)
  | .snapshot fs =>
    let r := tb.readSnapshotRF E A C M depth R fs F 0 c
    (r.1, r.2.1, answerOf .batches r.2.2)
  | .snapshotAsOf ts fs =>
    let r := tb.readSnapshotAsOfRF E A C M depth R ts fs F 0 c
    (r.1, r.2.1, answerOf .batches r.2.2)
  | .incremental start stop =>
    let r := tb.readIncrementalRF E A C M R start stop F 0
    (r.1, c, answerOf .batches r.2)
  | .schema =>
    let r := tb.timeline.latestSchemaRF R F 0
    (r.1, c, answerOf .schema r.2)
  | .partitionSchema =>
    let r := tb.partitionSchemaRF R F 0
    (r.1, c, answerOf .schema r.2)
  | .avroSchema =>
    let r := tb.timeline.latestAvroSchemaF R.latest F 0
    (r.1, c, answerOf .text r.2)
  | .readSlice options s =>
    let r := readFileSliceRF C A M E.ltz (tb.readerOpts options) R s F 0
    (r.1, c, answerOf (fun b => .batches [b]) r.2)

/-- One of the requests that the call makes when none fails does fail. -/
def TableCall.SomeFails (E : Env) (A : Arrow) (C : Codec) (M : MergeEnv A) (tb : Table) (depth : Nat) (R : Race)
    (F : Faults) (c : Cache) (call : TableCall) : Prop :=
  ∃ k < (call.race E A C M tb depth R noFaults c).1, F k = true

/-- What a handle that was opened when the writers had come to `s0` has cached, after calls that were made on it while
they went on: any calls, each request of each of them failing, or answered at some moment since. -/
inductive KeptWhile (E : Env) (A : Arrow) (S : Setting) (M : MergeEnv A) (s0 : Work) (tb : Table) (depth : Nat) :
    Cache → Prop
  | opened : KeptWhile E A S M s0 tb depth []
  | call {c : Cache} (m : Moments) (call : TableCall) (F : Faults) : Since S s0 m → KeptWhile E A S M s0 tb depth c →
      KeptWhile E A S M s0 tb depth (call.race E A S.C M tb depth m.race F c).2.1

end Hudi.Spec
