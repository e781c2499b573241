import Verif.Spec.Appended

/-!
# Specification: tables whose columns change

Writers change the columns of a table by writing base files with the new columns; file groups that are not
rewritten keep the old ones.
-/

namespace Hudi.Spec

/-- The columns of data files: `cols ts k` are those of the base file that the commit with the timestamp `ts`
wrote for the file group `k`, and of the records appended to it afterwards. -/
abbrev Columns := Str → GroupKey → Schema

/-- The data files hold the rows that the commits wrote, with the columns `cols`: base files with one row per
record key; log files with readable blocks `held`, where the rows appended by a commit are those in the
blocks with its timestamp.  Log files may hold blocks of other writes (that failed), and rollbacks, which do
not name a completed commit. -/
structure StoresEvolving (C : Codec) (ltz : LocalTz) (tz : Str) (cols : Columns) (t : Tree) (h : History)
    (W : Written) (held : Str → List WBlock) : Prop where
  bases : ∀ c ∈ h, ∀ k token, (k, Change.write token) ∈ c.changes →
    ParquetAt t (basePathOf k token c.ts) ⟨cols c.ts k, W.base c.ts k⟩ ∧
    (⟨cols c.ts k, W.base c.ts k⟩ : Batch).WF ∧ ((W.base c.ts k).map (keyOf (cols c.ts k))).Nodup
  logs : ∀ k base l c, AppendsTo h k base l c → LogAt C t (logPathOf k base l) (held (logPathOf k base l))
  blocks : ∀ k base w, BlockOf h held k base w → GoodBlock C ltz tz w ∧ BatchesFit C (cols base k) [w]
  rollbacks : ∀ k base w i, BlockOf h held k base w → RollsBack w i → ∀ c ∈ h, c.ts ≠ i
  rows : ∀ k base l c, AppendsTo h k base l c → ∀ r, r ∈ W.appended c.ts k ↔
    ∃ w bs, BlockOf h held k base w ∧ WrittenBy w c.ts ∧ Decodes C w bs ∧ r ∈ bs.flatMap Batch.rows
  nothing : ∀ c ∈ h, ∀ k, (k, Change.append []) ∈ c.changes → W.appended c.ts k = []

/-- Every base file has the property. -/
def EveryFile (h : History) (cols : Columns) (P : Schema → Prop) : Prop :=
  ∀ c ∈ h, ∀ k token, (k, Change.write token) ∈ c.changes → P (cols c.ts k)

/-- The batches are those of the table in the partitions `parts`: one batch per file group of the table, with
the columns of its base file, holding the latest version of each record among the rows `rowOf`. -/
def ReadsEvolving (A : Arrow) (cols : Columns) (pre : Str) (table : GroupKey → Option Version)
    (parts : Str → Prop) (rowOf : GroupKey → List Cell → Prop) (outs : List Batch) : Prop :=
  ∃ ks : List GroupKey, ks.Nodup ∧ (∀ k, k ∈ ks ↔ parts k.1 ∧ table k ≠ none) ∧
    List.Forall₂ (fun k out => ∃ v rows, table k = some v ∧ out.schema = cols v.base k ∧
      (∀ r, r ∈ rows ↔ rowOf k r) ∧ LatestVersions A (cols v.base k) pre rows out.rows) ks outs

/-- How writers date what they append, as in `Dated`. -/
structure DatedEvolving (cols : Columns) (h : History) (W : Written) (held : Str → List WBlock) : Prop where
  blocks : ∀ k base l c, AppendsTo h k base l c → ∀ w, BlockOf h held k base w → WrittenBy w c.ts →
    ∃ l', AppendsTo h k base l' c ∧ w ∈ held (logPathOf k base l')
  records : ∀ k base l c, AppendsTo h k base l c → ∀ r ∈ W.appended c.ts k,
    commitTimeOf (cols base k) r = some c.ts

/-- One batch per file group that commits of the span changed and that is in the table at its end, with the
columns of its base file, holding the latest version of each record among the rows `rowOf`, which may depend
on these columns. -/
def ReadsEvolvingChanges (A : Arrow) (cols : Columns) (pre start stop : Str) (h : History)
    (rowOf : Schema → GroupKey → List Cell → Prop) (outs : List Batch) : Prop :=
  ∃ ks : List GroupKey, ks.Nodup ∧
    (∀ k, k ∈ ks ↔ (∃ c ∈ h, InSpan start stop c ∧ ∃ ch, (k, ch) ∈ c.changes) ∧ tableAt h stop k ≠ none) ∧
    List.Forall₂ (fun k out => ∃ v rows, tableAt h stop k = some v ∧ out.schema = cols v.base k ∧
      (∀ r, r ∈ rows ↔ rowOf (cols v.base k) k r) ∧ LatestVersions A (cols v.base k) pre rows out.rows) ks outs

/-- The same as `StoresAppends`, with the columns `cols`: every row as often as it was written. -/
structure AppendsEvolving (C : Codec) (ltz : LocalTz) (tz : Str) (cols : Columns) (t : Tree) (h : History)
    (W : Written) (held : Str → List WBlock) : Prop where
  bases : ∀ c ∈ h, ∀ k token, (k, Change.write token) ∈ c.changes →
    ParquetAt t (basePathOf k token c.ts) ⟨cols c.ts k, W.base c.ts k⟩ ∧
    (⟨cols c.ts k, W.base c.ts k⟩ : Batch).WF
  logs : ∀ k base l c, AppendsTo h k base l c → LogAt C t (logPathOf k base l) (held (logPathOf k base l))
  blocks : ∀ k base w, BlockOf h held k base w → GoodBlock C ltz tz w ∧ BatchesFit C (cols base k) [w]
  rollbacks : ∀ k base w i, BlockOf h held k base w → RollsBack w i → ∀ c ∈ h, c.ts ≠ i
  rows : ∀ h1 c h2, h = h1 ++ c :: h2 → ∀ k ls, (k, Change.append ls) ∈ c.changes →
    ∀ v, versionAfter h1 k = some v → ls.Nodup ∧ ∃ rows,
      RecordsOf C (ls.flatMap (fun l => blocksBy c.ts (held (logPathOf k v.base l)))) rows ∧
      rows.Perm (W.appended c.ts k)
  only : ∀ k base l c, AppendsTo h k base l c → ∀ w ∈ held (logPathOf k base l),
    ∀ c' ∈ h, WrittenBy w c'.ts → AppendsTo h k base l c'

/-- The batches are the records of the table in the partitions `parts`: one batch per file group of the table,
with the columns of its base file, holding each of its records as often as it was written, and the rows
`pending` of writes in flight. -/
def ReadsEveryEvolving (cols : Columns) (table : GroupKey → Option Version) (parts : Str → Prop)
    (records : GroupKey → List (List Cell)) (pending : GroupKey → List (List Cell) → Prop)
    (outs : List Batch) : Prop :=
  ∃ ks : List GroupKey, ks.Nodup ∧ (∀ k, k ∈ ks ↔ parts k.1 ∧ table k ≠ none) ∧
    List.Forall₂ (fun k out => ∃ v more, table k = some v ∧ out.schema = cols v.base k ∧ pending k more ∧
      out.rows.Perm (records k ++ more)) ks outs

/-- The records that commits appended carry the commits' timestamps, in the columns of the base file that they
were appended to. -/
def DatedRowsEvolving (cols : Columns) (h : History) (W : Written) : Prop :=
  ∀ h1 c h2, h = h1 ++ c :: h2 → ∀ k ls, (k, Change.append ls) ∈ c.changes →
    ∀ v, versionAfter h1 k = some v → ∀ r ∈ W.appended c.ts k, commitTimeOf (cols v.base k) r = some c.ts

open Classical in
/-- The batches are the records that were added: one batch per file group that commits of the span changed
and that is in the table at its end, with the columns of its base file, holding each of its records that was
committed in the span, as often as it was written, and the rows `pending` of writes in flight. -/
def ReadsEveryChangeEvolving (cols : Columns) (start stop : Str) (h : History) (W : Written)
    (pending : GroupKey → List (List Cell) → Prop) (outs : List Batch) : Prop :=
  ∃ ks : List GroupKey, ks.Nodup ∧
    (∀ k, k ∈ ks ↔ (∃ c ∈ h, InSpan start stop c ∧ ∃ ch, (k, ch) ∈ c.changes) ∧ tableAt h stop k ≠ none) ∧
    List.Forall₂ (fun k out => ∃ v more, tableAt h stop k = some v ∧ out.schema = cols v.base k ∧
      pending k more ∧ out.rows.Perm ((recordsAt W h stop k).filter
        (fun r => decide (CommittedIn (cols v.base k) start (some stop) r)) ++ more)) ks outs

end Hudi.Spec
