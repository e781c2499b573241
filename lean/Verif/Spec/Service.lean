import Verif.Spec.RacingWriter
import Verif.Spec.WriterChanges

/-!
# Specification: compaction and clustering

Table services rewrite what is in a table without changing it.  Compaction gives a file group a new base file that
holds the latest versions of its records; clustering replaces file groups by new ones of the same partitions that
hold the same records.
-/

namespace Hudi.Spec

/-- The columns of a file group are those of its base file. -/
def columnsNow (js : List Job) (k : GroupKey) : Schema :=
  ((versionAfter (commitsOf js) k).map (fun v => columnsBy js v.base k)).getD []

/-- The versions of records that a file group holds after the writes. -/
def recordsNow (js : List Job) (k : GroupKey) : List (List Cell) := recordsAfter (rowsOf js) (commitsOf js) k

/-- Rows, with the partition they are in and the columns they have. -/
def tagged (x : Str) (schema : Schema) (rows : List (List Cell)) : List (Str × Schema × List Cell) :=
  rows.map (fun r => (x, schema, r))

/-- The write that follows `before` rewrites: it appends nothing, and the new base files hold exactly the latest
versions of the records of the file groups that it gives new base files or replaces, each in its partition and with
its columns. -/
structure Rewrites (A : Arrow) (pre : Str) (before : List Job) (j : Job) : Prop where
  noAppends : ∀ k ls, (k, Change.append ls) ∉ j.commit.changes
  rows : ∃ (olds news : List GroupKey) (latest : GroupKey → List (List Cell)), olds.Nodup ∧ news.Nodup ∧
    (∀ k, k ∈ olds ↔ (∃ ch, (k, ch) ∈ j.commit.changes) ∧ versionAfter (commitsOf before) k ≠ none) ∧
    (∀ k, k ∈ news ↔ ∃ token, (k, Change.write token) ∈ j.commit.changes) ∧
    (∀ k ∈ olds, LatestVersions A (columnsNow before k) pre (recordsNow before k) (latest k)) ∧
    (olds.flatMap (fun k => tagged k.1 (columnsNow before k) (latest k))).Perm
      (news.flatMap (fun k => tagged k.1 (j.base k).schema (j.base k).rows))

/-- All the writes `more` that follow `js` rewrite. -/
def AllRewrite (A : Arrow) (pre : Str) (js more : List Job) : Prop :=
  ∀ d1 j d2, more = d1 ++ j :: d2 → Rewrites A pre (js ++ d1) j

/-- Of two versions of a record in a file group, one is later than the other. -/
def NoTies (A : Arrow) (pre : Str) (js : List Job) : Prop :=
  ∀ k, ∀ r ∈ recordsNow js k, ∀ r' ∈ recordsNow js k, keyOf (columnsNow js k) r = keyOf (columnsNow js k) r' →
    VersionLE A (columnsNow js k) pre r r' → VersionLE A (columnsNow js k) pre r' r → r = r'

/-- The rows of the batches, with the columns they have. -/
def rowsWithColumns (outs : List Batch) : List (Schema × List Cell) :=
  outs.flatMap (fun b => b.rows.map (fun r => (b.schema, r)))

/-- No record of the table has a commit time later than `ts`. -/
def CommittedBy (js : List Job) (ts : Str) : Prop :=
  ∀ k, ∀ r ∈ recordsNow js k, ∀ c, commitTimeOf (columnsNow js k) r = some c → (compare c ts).isLE

end Hudi.Spec
