import Verif.Spec.Opened
import Verif.Spec.WriterChanges

/-! # Opening by its path a table that writers work on -/

namespace Hudi.Spec

/-- At `uri` there is, when the writers have come to `s`, the table that they work on, and its properties file,
the calls and the global configuration give it the options that the writers agree on.  (As everywhere, a name in the
timeline directory that looks like that of a completed action has a time that is long enough to be one.) -/
structure TableOf (E : Env) (S : Setting) (s : Work) (w : World) (uri : Str) (calls : List Call) : Prop where
  storage : ∃ st, TableAt w uri calls st S.o ∧ st.tree = s.tree
  calls : ∀ e ∈ calls.flatMap Call.storage, ¬ HudiKey e.1
  wellFormed : WellFormedOptions S.o
  supported : Supported S.o
  timeline : WellNamedTimeline s.tree
  clock : E.ltz = S.ltz
  zone : timezoneOf S.o = .ok S.tz
  merges : MergesBy S.o S.pre
  start : startOf S.o = none

/-- The filters can be applied to the partition columns. -/
structure Askable (A : Arrow) (S : Setting) (filters : List (Str × Str × Str)) (fs : List Filter) (hive url : Bool) :
    Prop where
  names : FieldNames S.pcols
  parsed : fromStrTuples filters = .ok fs
  applicable : ∀ f ∈ fs, Applicable A S.pcols f
  style : PathStyle S.o hive url
  parallelism : ∀ v, hmGet c!"hoodie.read.listing.parallelism" S.o = some v → parseUsize v ≠ some 0

end Hudi.Spec
