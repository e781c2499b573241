import Verif.Spec.DataFusion
import Verif.Spec.Healthy

/-!
# Specification: the rows that satisfy the predicates of a query
-/

namespace Hudi.Spec

/-- The value of a column in a row of a batch; null if there is no such column. -/
def batchRow (schema : Schema) (cells : List Cell) : Row := fun n =>
  match schema.findIdx? (fun f => decide (f.name = n)) with
  | some i => (cells[i]?).join
  | none => none

/-- The rows of a batch that satisfy all the predicates. -/
def matching (A : Arrow) (M : Meaning) (es : List Expr) (b : Batch) : List (List Cell) :=
  b.rows.filter (fun r => es.all (fun e => decide (eval A M (batchRow b.schema r) e = some (.bool true))))

/-- The rows in the file carry the values that the path of its partition reads as, or null. -/
def CarriesPartition (A : Arrow) (schema : Schema) (hive url : Bool) (path : Str) (b : Batch) : Prop :=
  ∀ vals, PathReads A schema hive url path vals → ∀ r ∈ b.rows, RowOf schema vals (batchRow b.schema r)

/-- The predicate compares the column `n` with the literal `v`, or is the negation of such a predicate. -/
inductive Compares (n : Str) (v : Option Val) : Expr → Prop
  | column (op : DfOp) (h : ∀ x, op ≠ .other x) : Compares n v (.binary (.column n) op (.literal v))
  | literal (op : DfOp) (h : ∀ x, op ≠ .other x) : Compares n v (.binary (.literal v) op (.column n))
  | notColumn (op : DfOp) (h : ∀ x, op ≠ .other x) :
      Compares n v (.not (.binary (.column n) op (.literal v)))
  | notLiteral (op : DfOp) (h : ∀ x, op ≠ .other x) :
      Compares n v (.not (.binary (.literal v) op (.column n)))

end Hudi.Spec
