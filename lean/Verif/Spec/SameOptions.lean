import Verif.Spec.Distributed
import Verif.Model.PythonBuilder
import Verif.Model.DataFusion

/-!
# Specification: options by their values

Two handles on a table whose options have the same values, and what it means that they answer alike.
-/

namespace Hudi.Spec

/-- Two maps with the same entries, in whatever order. -/
structure SameMap (m m' : Opts) : Prop where
  map : HmNodup m
  map' : HmNodup m'
  values : ∀ k, hmGet k m = hmGet k m'

/-- Two handles with the same options and the same completed instants. -/
structure SameHandle (tb tb' : Table) : Prop where
  hudi : SameMap tb.hudiOptions tb'.hudiOptions
  storage : SameMap tb.storageOptions tb'.storageOptions
  timeline : SameMap tb.timeline.opts tb'.timeline.opts
  instants : tb.timeline.completed = tb'.timeline.completed

/-- The two outcomes are both answers, related by `R`, or the same error, or both a crash. -/
inductive Alike {α β : Type} (R : α → β → Prop) : Res α → Res β → Prop
  | ok {a : α} {b : β} (h : R a b) : Alike R (.ok a) (.ok b)
  | err (e : ErrKind) : Alike R (.err e) (.err e)
  | panic : Alike R .panic .panic

/-- Two sequences of calls on the builder that give the same options: for each kind, each option is given
the same value last. -/
structure SameGiven (calls calls' : List Call) : Prop where
  hudi : ∀ k, lastGiven k (calls.flatMap Call.hudi) = lastGiven k (calls'.flatMap Call.hudi)
  storage : ∀ k, lastGiven k (calls.flatMap Call.storage) = lastGiven k (calls'.flatMap Call.storage)
  generic : ∀ k, lastGiven k (calls.flatMap Call.generic) = lastGiven k (calls'.flatMap Call.generic)

/-- The call of the same name on the Python builder. -/
def Call.applyPy (b : PyBuilder) : Call → PyBuilder
  | .hudiOption k v => b.withHudiOption k v
  | .hudiOptions l => b.withHudiOptions l
  | .storageOption k v => b.withStorageOption k v
  | .storageOptions l => b.withStorageOptions l
  | .option k v => b.withOption k v
  | .options l => b.withOptions l

/-- The Python builder after a sequence of calls. -/
def pyBuilderOf (uri : Str) (calls : List Call) : PyBuilder :=
  calls.foldl Call.applyPy (PyBuilder.fromBaseUri uri)

/-- The two handles answer every call alike, on every storage and with whatever they know from earlier
calls. -/
structure SameAnswers (E : Env) (A : Arrow) (C : Codec) (M : MergeEnv A) (tb tb' : Table) : Prop where
  fileSlices : ∀ t fs c, tb.fileSlices E A t fs c = tb'.fileSlices E A t fs c
  fileSlicesAsOf : ∀ t ts fs c, tb.fileSlicesAsOf E A t ts fs c = tb'.fileSlicesAsOf E A t ts fs c
  splits : ∀ t n fs c, tb.fileSlicesSplits E A t n fs c = tb'.fileSlicesSplits E A t n fs c
  splitsAsOf : ∀ t n ts fs c, tb.fileSlicesSplitsAsOf E A t n ts fs c = tb'.fileSlicesSplitsAsOf E A t n ts fs c
  between : ∀ t start stop, tb.fileSlicesBetween E t start stop = tb'.fileSlicesBetween E t start stop
  snapshot : ∀ t fs c, tb.readSnapshot E A C M t fs c = tb'.readSnapshot E A C M t fs c
  snapshotAsOf : ∀ t ts fs c, tb.readSnapshotAsOf E A C M t ts fs c = tb'.readSnapshotAsOf E A C M t ts fs c
  incremental : ∀ t start stop, tb.readIncremental E A C M t start stop = tb'.readIncremental E A C M t start stop
  schema : ∀ t, tb.schema t = tb'.schema t
  avroSchema : ∀ t, tb.avroSchema t = tb'.avroSchema t
  partitionSchema : ∀ t, tb.partitionSchema t = tb'.partitionSchema t
  commits : ∀ a t desc, tb.timeline.completedOf E a t desc = tb'.timeline.completedOf E a t desc
  clustering : ∀ t desc, tb.timeline.clusteringCommits E t desc = tb'.timeline.clusteringCommits E t desc
  name : tb.tableName = tb'.tableName
  type : tb.tableType = tb'.tableType
  mor : tb.isMor = tb'.isMor
  zone : tb.timezone = tb'.timezone
  baseUrl : ∀ U, tb.baseUrlPath U = tb'.baseUrlPath U
  providerSchema : ∀ t, tb.dfSchema t = tb'.dfSchema t
  scan : ∀ U D t es c, tb.scan E A U D t es c = tb'.scan E A U D t es c
  reader : ∀ w, ByOptions w → ∀ more, Alike (fun r r' => r.storage = r'.storage ∧
    (∀ x, r.readSlice C A M E.ltz x = r'.readSlice C A M E.ltz x) ∧
    ∀ d, r.readDescribed C A M E.ltz d = r'.readDescribed C A M E.ltz d)
    (tb.createReader w more) (tb'.createReader w more)

end Hudi.Spec
