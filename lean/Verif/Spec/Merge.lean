import Verif.Spec.Filter
import Verif.Model.Merge

/-!
# Specification: merging versions of records
-/

namespace Hudi.Spec

/-- The cell of a named column in a row. -/
def cellOf (schema : Schema) (name : Str) (row : List Cell) : Cell :=
  ((schema.zip row).find? (fun e => decide (e.1.name = name))).bind Prod.snd

/-- The record key of a row; a null key reads as the empty text. -/
def keyOf (schema : Schema) (row : List Cell) : Str :=
  match cellOf schema c!"_hoodie_record_key" row with
  | some (.str s) => s
  | _ => []

/-- The order of a column's cells: null before everything, values by the order of their type. -/
def CellLE (A : Arrow) (a b : Cell) : Prop :=
  a = none ∨ ∃ v w, a = some v ∧ b = some w ∧ Related A c!"<=" v w

/-- The order of versions of a record: by the precombine column, then by commit sequence number. -/
def VersionLE (A : Arrow) (schema : Schema) (pre : Str) (a b : List Cell) : Prop :=
  CellLE A (cellOf schema pre a) (cellOf schema pre b) ∧
    (CellLE A (cellOf schema pre b) (cellOf schema pre a) →
      CellLE A (cellOf schema c!"_hoodie_commit_seqno" a) (cellOf schema c!"_hoodie_commit_seqno" b))

/-- The rows `result` are the latest versions of the records in `rows`: one row per record key, which
is the greatest version of that key. -/
structure LatestVersions (A : Arrow) (schema : Schema) (pre : Str) (rows result : List (List Cell)) :
    Prop where
  sound : ∀ r ∈ result, r ∈ rows
  one : (result.map (keyOf schema)).Nodup
  all : ∀ r ∈ rows, ∃ r' ∈ result, keyOf schema r' = keyOf schema r
  latest : ∀ r ∈ result, ∀ r' ∈ rows, keyOf schema r' = keyOf schema r → VersionLE A schema pre r' r

/-- The table's options ask for overwriting with the latest version: explicitly, or by default, when
there is a precombine field and meta fields are populated. -/
def OverwritesWithLatest (o : Opts) : Prop :=
  match hmGet c!"hoodie.table.record.merge.strategy" o with
  | some v => lower v = c!"overwrite_with_latest" ∨
      (lower v ≠ c!"append_only" ∧ hmGet c!"hoodie.populate.meta.fields" o ≠ some c!"false" ∧
        hmGet c!"hoodie.table.precombine.field" o ≠ none)
  | none => hmGet c!"hoodie.populate.meta.fields" o ≠ some c!"false" ∧
      hmGet c!"hoodie.table.precombine.field" o ≠ none

instance (o : Opts) : Decidable (OverwritesWithLatest o) := by
  unfold OverwritesWithLatest; split <;> infer_instance

/-- The rows of a batch, put into the columns of a schema by position, whatever the columns are called;
columns in excess are left out. -/
def placed (schema : Schema) (b : Batch) : List (List Cell) := b.rows.map (fun r => r.take schema.length)

/-- A batch fits a schema by position: it has a column of the right type for every one of the schema's, with
no null in one that must not have any. -/
structure FitsByPosition (schema : Schema) (b : Batch) : Prop where
  columns : ∀ (i : Nat) (f : Field), schema[i]? = some f → ∃ g : Field, b.schema[i]? = some g ∧ g.dtype = f.dtype
  nulls : ∀ (i : Nat) (f : Field), schema[i]? = some f → f.nullable = false → ∀ r ∈ b.rows, r[i]? ≠ some none

/-- The columns the merge needs. -/
def MergeColumns (schema : Schema) (pre : Str) : Prop :=
  (∃ f ∈ schema, f.name = pre) ∧ (∃ f ∈ schema, f.name = c!"_hoodie_commit_seqno") ∧
  ∃ f, schema.find? (fun f => decide (f.name = c!"_hoodie_record_key")) = some f ∧ f.dtype = .utf8

end Hudi.Spec
