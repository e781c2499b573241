import Verif.Spec.Changes

/-!
# Specification: reading base files only

Read-optimized queries, and all queries of tables without log files, return the rows of base files.
-/

namespace Hudi.Spec

/-- The storage holds the base files that the commits wrote, each with columns of its own. -/
def StoresBases (t : Tree) (h : History) (written : Str → GroupKey → Batch) : Prop :=
  ∀ c ∈ h, ∀ k token, (k, Change.write token) ∈ c.changes →
    ParquetAt t (basePathOf k token c.ts) (written c.ts k) ∧ (written c.ts k).WF

/-- The query asks for base files only, or there is nothing else: no commit appended to a log file. -/
def BaseFilesOnly (o : Opts) (h : History) : Prop :=
  ReadOptimized o ∨ ∀ c ∈ h, ∀ k ls, (k, Change.append ls) ∈ c.changes → ls = []

/-- The options do not limit the table's readers to a range of commits, and its storage options are its
own. -/
structure PlainReader (tb : Table) : Prop where
  plain : PlainStorage tb
  noStart : startOf tb.opts = none

/-- The commit that wrote the current base file of the file group: the last one that wrote one, if the file
group has not been replaced since. -/
def lastWriteOf (h : History) (k : GroupKey) : Option Str :=
  h.foldl (fun w c => match c.changeOf k with
    | some (.write _) => some c.ts
    | some .replace => none
    | _ => w) none

/-- The commits up to `ts`. -/
def historyTo (h : History) (ts : Str) : History := h.filter (fun c => (compare c.ts ts).isLE)

/-- The batches are the current base files of the file groups in the partitions `parts`, one each, row by
row. -/
def ReadsBaseFiles (written : Str → GroupKey → Batch) (h : History) (parts : Str → Prop) (outs : List Batch) :
    Prop :=
  ∃ ks : List GroupKey, ks.Nodup ∧ (∀ k, k ∈ ks ↔ parts k.1 ∧ lastWriteOf h k ≠ none) ∧
    List.Forall₂ (fun k out => ∃ ts, lastWriteOf h k = some ts ∧ out = written ts k) ks outs

/-- The batches are, for each file group that commits of the span changed and that is in the table at its end,
the rows of its base file at the end that were committed in the span, in order. -/
def ReadsChangedBaseFiles (written : Str → GroupKey → Batch) (h : History) (start stop : Str) (outs : List Batch) :
    Prop :=
  ∃ ks : List GroupKey, ks.Nodup ∧
    (∀ k, k ∈ ks ↔ (∃ c ∈ h, InSpan start stop c ∧ ∃ ch, (k, ch) ∈ c.changes) ∧
      lastWriteOf (historyTo h stop) k ≠ none) ∧
    List.Forall₂ (fun k out => ∃ ts, lastWriteOf (historyTo h stop) k = some ts ∧
      out.schema = (written ts k).schema ∧ ∃ keep : List Cell → Bool,
        (∀ r ∈ (written ts k).rows, keep r = true ↔ CommittedIn (written ts k).schema start (some stop) r) ∧
        out.rows = (written ts k).rows.filter keep) ks outs

end Hudi.Spec
