import Verif.Spec.Appended
import Verif.Spec.Remains
import Verif.Spec.Writer
import Verif.Spec.Cleaner
import Verif.Spec.WriterOpened

/-!
# Specification: tables that keep every record, while writers work

A table without a merge strategy that overwrites shows every record as often as it was written.
-/

namespace Hudi.Spec

/-- The contents of the files of `FilesUpTo` when every record counts: as in `RowsUpTo`, but the blocks of a completed
commit hold each row exactly as often as the commit appended it. -/
structure CountedUpTo (C : Codec) (ltz : LocalTz) (tz : Str) (cols : Columns) (t : Tree) (h : History) (W : Written)
    (held : Str → List WBlock) (ts : Str) : Prop where
  bases : ∀ c ∈ h, (compare c.ts ts).isLE → ∀ k token, (k, Change.write token) ∈ c.changes →
    ParquetAt t (basePathOf k token c.ts) ⟨cols c.ts k, W.base c.ts k⟩ ∧
    (⟨cols c.ts k, W.base c.ts k⟩ : Batch).WF
  logs : ∀ k v l, tableAt h ts k = some v → LogOf t k v.base l →
    LogAt C t (pathPush k.1 l.fileName) (held (pathPush k.1 l.fileName))
  blocks : ∀ k v w, tableAt h ts k = some v → StoredBlock t held k v.base w →
    GoodBlock C ltz tz w ∧ BatchesFit C (cols v.base k) [w]
  rollbacks : ∀ k v w i, tableAt h ts k = some v → StoredBlock t held k v.base w → WrittenUpTo ltz tz ts w →
    RollsBack w i → ∀ c, AppendedTo h k v.base c → c.ts ≠ i
  rows : ∀ k v c, tableAt h ts k = some v → AppendedTo h k v.base c → (compare c.ts ts).isLE →
    ∃ ls : List LogFile, ls.Nodup ∧ (∀ l ∈ ls, LogOf t k v.base l) ∧
      (∀ l, LogOf t k v.base l → ∀ w ∈ held (pathPush k.1 l.fileName), WrittenBy w c.ts → l ∈ ls) ∧
      ∃ rows, RecordsOf C (ls.flatMap (fun l => blocksBy c.ts (held (pathPush k.1 l.fileName)))) rows ∧
        rows.Perm (W.appended c.ts k)

/-- The batches are the records of the table in the partitions `parts`: one batch per file group of the table, with
the columns of its base file, holding each of its records exactly as often as it was written. -/
def ReadsAll (cols : Columns) (table : GroupKey → Option Version) (parts : Str → Prop)
    (records : GroupKey → List (List Cell)) (outs : List Batch) : Prop :=
  ∃ ks : List GroupKey, ks.Nodup ∧ (∀ k, k ∈ ks ↔ parts k.1 ∧ table k ≠ none) ∧
    List.Forall₂ (fun k out => ∃ v, table k = some v ∧ out.schema = cols v.base k ∧ out.rows.Perm (records k)) ks outs

/-- A handle on a table that keeps every record, opened when the writers had come to `s`, and filters that can be
applied; as `OpenedAt`. -/
structure AppendingAt (E : Env) (A : Arrow) (S : Setting) (s : Work) (tb : Table) (filters : List (Str × Str × Str))
    (fs : List Filter) (hive url : Bool) : Prop where
  load : ∃ o, Timeline.load E o s.tree = .ok tb.timeline
  clock : E.ltz = S.ltz
  zone : timezoneOf tb.timeline.opts = .ok S.tz
  options : tb.opts = S.o
  appends : AppendingReader tb S.tz
  names : FieldNames S.pcols
  parsed : fromStrTuples filters = .ok fs
  applicable : ∀ f ∈ fs, Applicable A S.pcols f
  style : PathStyle S.o hive url
  parallelism : ∀ v, hmGet c!"hoodie.read.listing.parallelism" S.o = some v → parseUsize v ≠ some 0

/-- A handle on a table that keeps every record, opened when the writers had come to `s`; as `HandleAt`. -/
structure AppendsAt (E : Env) (S : Setting) (s : Work) (tb : Table) : Prop where
  load : ∃ o, Timeline.load E o s.tree = .ok tb.timeline
  clock : E.ltz = S.ltz
  zone : timezoneOf tb.timeline.opts = .ok S.tz
  options : tb.opts = S.o
  appends : AppendingReader tb S.tz

/-- At `uri` there is, when the writers have come to `s`, the table that they work on, and its options keep every
record; as `TableOf`. -/
structure AppendedTableOf (E : Env) (S : Setting) (s : Work) (w : World) (uri : Str) (calls : List Call) : Prop where
  storage : ∃ st, TableAt w uri calls st S.o ∧ st.tree = s.tree
  calls : ∀ e ∈ calls.flatMap Call.storage, ¬ HudiKey e.1
  wellFormed : WellFormedOptions S.o
  supported : Supported S.o
  timeline : WellNamedTimeline s.tree
  clock : E.ltz = S.ltz
  zone : timezoneOf S.o = .ok S.tz
  keeps : ¬ OverwritesWithLatest S.o
  notReadOptimized : ¬ ReadOptimized S.o
  start : startOf S.o = none

open Classical in
/-- The batches are the records that were added: one batch per file group that commits of the span changed and that is
in the table at its end, with the columns of its base file, holding each record of `records` that was committed in the
span, exactly as often as it was written. -/
def ReadsAllChanges (cols : Columns) (start stop : Str) (h : History) (records : GroupKey → List (List Cell))
    (outs : List Batch) : Prop :=
  ∃ ks : List GroupKey, ks.Nodup ∧
    (∀ k, k ∈ ks ↔ (∃ c ∈ h, InSpan start stop c ∧ ∃ ch, (k, ch) ∈ c.changes) ∧ tableAt h stop k ≠ none) ∧
    List.Forall₂ (fun k out => ∃ v, tableAt h stop k = some v ∧ out.schema = cols v.base k ∧
      out.rows.Perm ((records k).filter (fun r => decide (CommittedIn (cols v.base k) start (some stop) r)))) ks outs

/-- The blocks that the write wants to append hold each row as often as it is to be appended; no log file is named
twice. -/
def Counts (S : Setting) (j : Job) : Prop :=
  ∀ k ls, (k, Change.append ls) ∈ j.commit.changes → ls.Nodup ∧
    ∃ rows, RecordsOf S.C (ls.flatMap (j.blocks k)) rows ∧ rows.Perm (j.appended k)

/-- A request that appends. -/
def Request.appends : Request → Bool
  | .append _ _ => true
  | _ => false

/-- Writers as in `Works`, none of which makes a request to append twice. -/
inductive WorksOnce (S : Setting) (s : Work) : Work → Prop
  | refl : WorksOnce S s s
  | step {s' s'' : Work} (h : WorksOnce S s s') (hs : WorkStep S s' s'')
    (ho : ∀ a ∈ s''.current, (a.ran.filter Request.appends).Nodup) : WorksOnce S s s''

/-- Writers as in `WorksOnce`, and a cleaner that works beside them, as in `Cleans`. -/
inductive CleansOnce (S : Setting) (r : Str) (s : Work) : Work → Prop
  | refl : CleansOnce S r s s
  | step {s' s'' : Work} (h : CleansOnce S r s s') (hs : CleanStep S r s' s'')
    (ho : ∀ a ∈ s''.current, (a.ran.filter Request.appends).Nodup) : CleansOnce S r s s''

end Hudi.Spec
