import Verif.Spec.Changes

/-!
# Specification: tables that keep every record appended

Tables without a merge strategy that overwrites: nothing is merged, records need no keys, and a record that
was written twice is there twice.
-/

namespace Hudi.Spec

open Classical in
/-- The blocks that the commit with the timestamp `ts` wrote, in order. -/
noncomputable def blocksBy (ts : Str) (ws : List WBlock) : List WBlock :=
  ws.filter (fun w => decide (WrittenBy w ts))

/-- The data files hold the rows that the commits wrote, each as often as it was written, all with the
columns `schema`: base files, and log files with readable blocks `held`, where the rows appended by a commit
are those in the blocks with its timestamp, which are in the log files it appended to.  Log files may hold
blocks of other writes (that failed), and rollbacks, which do not name a completed commit. -/
structure StoresAppends (C : Codec) (ltz : LocalTz) (tz : Str) (schema : Schema) (t : Tree) (h : History)
    (W : Written) (held : Str → List WBlock) : Prop where
  bases : ∀ c ∈ h, ∀ k token, (k, Change.write token) ∈ c.changes →
    ParquetAt t (basePathOf k token c.ts) ⟨schema, W.base c.ts k⟩ ∧ (⟨schema, W.base c.ts k⟩ : Batch).WF
  logs : ∀ k base l c, AppendsTo h k base l c → LogAt C t (logPathOf k base l) (held (logPathOf k base l))
  blocks : ∀ k base w, BlockOf h held k base w → GoodBlock C ltz tz w ∧ BatchesFit C schema [w]
  rollbacks : ∀ k base w i, BlockOf h held k base w → RollsBack w i → ∀ c ∈ h, c.ts ≠ i
  rows : ∀ h1 c h2, h = h1 ++ c :: h2 → ∀ k ls, (k, Change.append ls) ∈ c.changes →
    ∀ v, versionAfter h1 k = some v → ls.Nodup ∧ ∃ rows,
      RecordsOf C (ls.flatMap (fun l => blocksBy c.ts (held (logPathOf k v.base l)))) rows ∧
      rows.Perm (W.appended c.ts k)
  only : ∀ k base l c, AppendsTo h k base l c → ∀ w ∈ held (logPathOf k base l),
    ∀ c' ∈ h, WrittenBy w c'.ts → AppendsTo h k base l c'

/-- The table's options make its readers keep every record, and do not limit them to a range of commits. -/
structure AppendingReader (tb : Table) (tz : Str) : Prop where
  plain : PlainStorage tb
  keeps : ¬ OverwritesWithLatest tb.opts
  notReadOptimized : ¬ ReadOptimized tb.opts
  noStart : startOf tb.opts = none
  zone : timezoneOf tb.opts = .ok tz

/-- The batches are the records of the table in the partitions `parts`: one batch per file group of the
table, holding each of its records as often as it was written. -/
def ReadsEvery (schema : Schema) (table : GroupKey → Option Version) (parts : Str → Prop)
    (records : GroupKey → List (List Cell)) (outs : List Batch) : Prop :=
  ∃ ks : List GroupKey, ks.Nodup ∧ (∀ k, k ∈ ks ↔ parts k.1 ∧ table k ≠ none) ∧
    List.Forall₂ (fun k out => out.schema = schema ∧ out.rows.Perm (records k)) ks outs

open Classical in
/-- The rows are those in the pending blocks of the log files that belong to the file group's base file as of
`ts`, each as often as it is there. -/
def PendingRecords (C : Codec) (ltz : LocalTz) (tz ts : Str) (h : History) (held : Str → List WBlock)
    (k : GroupKey) (rows : List (List Cell)) : Prop :=
  ∃ (v : Version) (LF : List (Str × Str)), tableAt h ts k = some v ∧ LF.Nodup ∧ (∀ l, l ∈ LF ↔ ∃ c, AppendsTo h k v.base l c) ∧
    RecordsOf C ((LF.flatMap (fun l => held (logPathOf k v.base l))).filter
      (fun w => decide (PendingBlock ltz tz ts h held k v.base w))) rows

/-- The same with the rows `pending` of writes in flight. -/
def ReadsEveryAnd (schema : Schema) (table : GroupKey → Option Version) (parts : Str → Prop)
    (records : GroupKey → List (List Cell)) (pending : GroupKey → List (List Cell) → Prop)
    (outs : List Batch) : Prop :=
  ∃ ks : List GroupKey, ks.Nodup ∧ (∀ k, k ∈ ks ↔ parts k.1 ∧ table k ≠ none) ∧
    List.Forall₂ (fun k out => out.schema = schema ∧ ∃ more, pending k more ∧
      out.rows.Perm (records k ++ more)) ks outs

/-- The records that commits appended carry the commits' timestamps. -/
def DatedRecords (schema : Schema) (h : History) (W : Written) : Prop :=
  ∀ c ∈ h, ∀ k ls, (k, Change.append ls) ∈ c.changes → ∀ r ∈ W.appended c.ts k,
    commitTimeOf schema r = some c.ts

open Classical in
/-- The batches are the records that were added: one batch per file group that commits of the span changed
and that is in the table at its end, holding each of its records that was committed in the span, as often as
it was written. -/
def ReadsEveryChange (schema : Schema) (start stop : Str) (h : History) (W : Written) (outs : List Batch) :
    Prop :=
  ∃ ks : List GroupKey, ks.Nodup ∧
    (∀ k, k ∈ ks ↔ (∃ c ∈ h, InSpan start stop c ∧ ∃ ch, (k, ch) ∈ c.changes) ∧ tableAt h stop k ≠ none) ∧
    List.Forall₂ (fun k out => out.schema = schema ∧ out.rows.Perm
      ((recordsAt W h stop k).filter (fun r => decide (CommittedIn schema start (some stop) r)))) ks outs

open Classical in
/-- The rows are those in the pending blocks, of the log files that commits of the span appended to and that
belong to the file group's base file at its end, each as often as it is there. -/
def PendingChanges (C : Codec) (ltz : LocalTz) (tz start stop : Str) (h : History) (held : Str → List WBlock)
    (k : GroupKey) (rows : List (List Cell)) : Prop :=
  ∃ (v : Version) (LF : List (Str × Str)), tableAt h stop k = some v ∧ LF.Nodup ∧
    (∀ l, l ∈ LF ↔ ∃ c, AppendsTo h k v.base l c ∧ InSpan start stop c) ∧
    RecordsOf C ((LF.flatMap (fun l => held (logPathOf k v.base l))).filter
      (fun w => decide (PendingInSpan ltz tz start stop h held k v.base w))) rows

open Classical in
/-- The same as `ReadsEveryChange` with the rows `pending` of writes in flight. -/
def ReadsEveryChangeAnd (schema : Schema) (start stop : Str) (h : History) (W : Written)
    (pending : GroupKey → List (List Cell) → Prop) (outs : List Batch) : Prop :=
  ∃ ks : List GroupKey, ks.Nodup ∧
    (∀ k, k ∈ ks ↔ (∃ c ∈ h, InSpan start stop c ∧ ∃ ch, (k, ch) ∈ c.changes) ∧ tableAt h stop k ≠ none) ∧
    List.Forall₂ (fun k out => out.schema = schema ∧ ∃ more, pending k more ∧ out.rows.Perm
      ((recordsAt W h stop k).filter (fun r => decide (CommittedIn schema start (some stop) r)) ++ more)) ks outs

end Hudi.Spec
