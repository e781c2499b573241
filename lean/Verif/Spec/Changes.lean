import Verif.Spec.Records
import Verif.Spec.Commit

/-!
# Specification: what changed between two times

The file groups and records of a commit history (`Verif/Spec/History.lean`, `Verif/Spec/Records.lean`)
that commits in a span of time changed; and what it means that the metadata of the commits says so.
-/

namespace Hudi.Spec

/-- The commit is after `start` and not after `stop`. -/
def InSpan (start stop : Str) (c : HCommit) : Prop :=
  compare start c.ts = .lt ∧ (compare c.ts stop).isLE = true

instance (start stop : Str) (c : HCommit) : Decidable (InSpan start stop c) := by
  unfold InSpan; infer_instance

/-- The commits of the span. -/
def spanOf (h : History) (start stop : Str) : History := h.filter (fun c => decide (InSpan start stop c))

/-- The log files of the group that the commit appended to. -/
def HCommit.logsOf (c : HCommit) (k : GroupKey) : List (Str × Str) :=
  match c.changeOf k with
  | some (.append ls) => ls
  | _ => []

/-- The file groups that commits of the span changed and that are in the table at its end: with their base
file at the end, and the log files written against it that commits of the span appended to. -/
def changedAt (h : History) (start stop : Str) (k : GroupKey) : Option Version :=
  if (spanOf h start stop).any (fun c => (c.changeOf k).isSome) = true then
    (tableAt h stop k).map (fun v =>
      ⟨v.base, v.token, ((spanOf h start stop).filter (fun c => decide (compare v.base c.ts = .lt))).flatMap
        (fun c => c.logsOf k)⟩)
  else none

/-- What the metadata of a commit after the history `h1` records of its change to the file group: the base
file written; or the base file written against, and the log files appended to. -/
def writeOf (h1 : History) (ts : Str) (k : GroupKey) : Change → Option Write
  | .write token => some ⟨k.1, k.2, ⟨k.2, token, ts, c!"parquet", none⟩, []⟩
  | .append ls => (versionAfter h1 k).map (fun v =>
      ⟨k.1, k.2, ⟨k.2, v.token, v.base, c!"parquet", none⟩,
        ls.map (fun l => ⟨k.2, v.base, c!"log", l.1, l.2, none⟩)⟩)
  | .replace => none

/-- The metadata of each commit is readable, and records what the commit wrote, each file group once.
Commits append to file groups that have a base file. -/
structure StoresDocs (t : Tree) (h : History) : Prop where
  based : ∀ h1 c h2, h = h1 ++ c :: h2 → ∀ k ls, (k, Change.append ls) ∈ c.changes → versionAfter h1 k ≠ none
  docs : ∀ h1 c h2, h = h1 ++ c :: h2 → ∃ md size ws,
    t.fileAt [c!".hoodie", c.ts ++ c!"." ++ suffix c.action .completed] = some (size, .json (.obj md)) ∧
    RecordsWrites md ws ∧ (ws.map Write.id).Nodup ∧ (c.action = .replaceCommit → ReadableReplaced md) ∧
    ∀ w, w ∈ ws ↔ ∃ k ch, (k, ch) ∈ c.changes ∧ writeOf h1 c.ts k ch = some w

/-- The block is in a log file of the file group that was written against the base file of `base` and that
a commit of the span appended to. -/
def SpanBlock (h : History) (start stop : Str) (held : Str → List WBlock) (k : GroupKey) (base : Str)
    (w : WBlock) : Prop :=
  ∃ l c, AppendsTo h k base l c ∧ InSpan start stop c ∧ w ∈ held (logPathOf k base l)

/-- The block was written after `start` and up to `stop`. -/
def WrittenIn (ltz : LocalTz) (tz start stop : Str) (w : WBlock) : Prop :=
  ∃ i d s e, WrittenBy w i ∧ parseDatetime ltz i tz = .ok d ∧ parseDatetime ltz start tz = .ok s ∧
    parseDatetime ltz stop tz = .ok e ∧ Before s d ∧ (Before d e ∨ d = e)

/-- In the log files that commits of the span appended to: every block written in the span is a rollback,
or that of a completed commit to the file group, or its write has been rolled back in the span. -/
def NoPendingInSpan (ltz : LocalTz) (tz start stop : Str) (h : History) (held : Str → List WBlock) : Prop :=
  ∀ k base w i, SpanBlock h start stop held k base w → WrittenBy w i → WrittenIn ltz tz start stop w →
    IsRollback w ∨ (∃ l c, AppendsTo h k base l c ∧ c.ts = i) ∨
    ∃ w', SpanBlock h start stop held k base w' ∧ RollsBack w' i ∧ WrittenIn ltz tz start stop w'

/-- Of a block written in the span, in a log file that commits of the span appended to: no completed commit
had appended it, and no block of the span rolled its write back. -/
structure PendingInSpan (ltz : LocalTz) (tz start stop : Str) (h : History) (held : Str → List WBlock)
    (k : GroupKey) (base : Str) (w : WBlock) : Prop where
  block : SpanBlock h start stop held k base w
  inSpan : WrittenIn ltz tz start stop w
  notCompleted : ∀ l c, AppendsTo h k base l c → ¬ WrittenBy w c.ts
  notRolledBack : ∀ w' i, SpanBlock h start stop held k base w' → RollsBack w' i →
    WrittenIn ltz tz start stop w' → ¬ WrittenBy w i

/-- The row is in a pending block of a log file that belongs to the file group's base file at the end of the
span. -/
def PendingChange (C : Codec) (ltz : LocalTz) (tz start stop : Str) (h : History) (held : Str → List WBlock)
    (k : GroupKey) (r : List Cell) : Prop :=
  ∃ v w bs, tableAt h stop k = some v ∧ PendingInSpan ltz tz start stop h held k v.base w ∧ Decodes C w bs ∧
    r ∈ bs.flatMap Batch.rows

/-- How writers date what they append: the blocks of a commit are in the log files its metadata lists, and
its records carry its timestamp as their commit time. -/
structure Dated (schema : Schema) (h : History) (W : Written) (held : Str → List WBlock) : Prop where
  blocks : ∀ k base l c, AppendsTo h k base l c → ∀ w, BlockOf h held k base w → WrittenBy w c.ts →
    ∃ l', AppendsTo h k base l' c ∧ w ∈ held (logPathOf k base l')
  records : ∀ c ∈ h, ∀ k ls, (k, Change.append ls) ∈ c.changes → ∀ r ∈ W.appended c.ts k,
    commitTimeOf schema r = some c.ts

/-- The batches are the records that changed: one batch per file group that commits of the span changed and
that is in the table at its end, holding the latest version of each of its records among the versions
committed in the span. -/
def ReadsChanges (A : Arrow) (schema : Schema) (pre start stop : Str) (h : History) (W : Written)
    (outs : List Batch) : Prop :=
  ∃ ks : List GroupKey, ks.Nodup ∧
    (∀ k, k ∈ ks ↔ (∃ c ∈ h, InSpan start stop c ∧ ∃ ch, (k, ch) ∈ c.changes) ∧ tableAt h stop k ≠ none) ∧
    List.Forall₂ (fun k out => out.schema = schema ∧ ∃ rows,
      (∀ r, r ∈ rows ↔ r ∈ recordsAt W h stop k ∧ CommittedIn schema start (some stop) r) ∧
      LatestVersions A schema pre rows out.rows) ks outs

/-- One batch per file group that commits of the span changed and that is in the table at its end, holding
the latest version of each record among the rows `rowOf`. -/
def ReadsChangedRows (A : Arrow) (schema : Schema) (pre start stop : Str) (h : History)
    (rowOf : GroupKey → List Cell → Prop) (outs : List Batch) : Prop :=
  ∃ ks : List GroupKey, ks.Nodup ∧
    (∀ k, k ∈ ks ↔ (∃ c ∈ h, InSpan start stop c ∧ ∃ ch, (k, ch) ∈ c.changes) ∧ tableAt h stop k ≠ none) ∧
    List.Forall₂ (fun k out => out.schema = schema ∧ ∃ rows, (∀ r, r ∈ rows ↔ rowOf k r) ∧
      LatestVersions A schema pre rows out.rows) ks outs

end Hudi.Spec
