import Verif.Model.DataFusion
import Verif.Spec.Filter
import Verif.Spec.Options
import Verif.Spec.Store
import Verif.Spec.Config
import Verif.Spec.Snapshot

/-!
# Specification: predicates of the query engine
-/

namespace Hudi.Spec

/-- A row: the value, or null, of each column. -/
abbrev Row := Str → Option Val

/-- What the engine makes of the expressions and operators outside the model: anything. -/
structure Meaning where
  expr : Str → Row → Option Val
  op : Str → Option Val → Option Val → Option Val

/-- A comparison in SQL: null if a side is null or the sides are not comparable. -/
def sqlCompare (A : Arrow) (test : Ordering → Bool) : Option Val → Option Val → Option Val
  | some a, some b => (a.cmp A b).map (fun o => .bool (test o))
  | _, _ => none

/-- Negation in SQL: null stays null. -/
def sqlNot : Option Val → Option Val
  | some (.bool b) => some (.bool !b)
  | _ => none

/-- The value of an expression on a row. -/
def eval (A : Arrow) (M : Meaning) (row : Row) : Expr → Option Val
  | .column n => row n
  | .literal v => v
  | .not e => sqlNot (eval A M row e)
  | .other n => M.expr n row
  | .binary l op r =>
    let a := eval A M row l
    let b := eval A M row r
    match op with
    | .eq => sqlCompare A (· == .eq) a b
    | .notEq => sqlCompare A (· != .eq) a b
    | .lt => sqlCompare A (· == .lt) a b
    | .ltEq => sqlCompare A (· != .gt) a b
    | .gt => sqlCompare A (· == .gt) a b
    | .gtEq => sqlCompare A (· != .lt) a b
    | .other n => M.op n a b

/-- The row satisfies the predicate. -/
def Satisfies (A : Arrow) (M : Meaning) (row : Row) (e : Expr) : Prop :=
  eval A M row e = some (.bool true)

/-- A comparison of a column with a literal, in either order. -/
def Comparison : Expr → Prop
  | .binary (.column _) op (.literal _) | .binary (.literal _) op (.column _) => ∀ n, op ≠ .other n
  | _ => False

/-- The comparisons that translate to filters: those and their negations. -/
def Translatable : Expr → Prop
  | .not e => Comparison e
  | e => Comparison e

/-- In inequalities the column is on the left. -/
def ColumnFirst : Expr → Prop
  | .binary (.literal _) op _ | .not (.binary (.literal _) op _) => op = .eq ∨ op = .notEq
  | _ => True

/-- The engine's way of writing the values of the types left open by the model is understood by arrow
as a value that compares like it. -/
def Readable (A : Arrow) (D : Str → Str) : Prop :=
  ∀ d s s', A.castOther d (D s) = some s' → ∀ x, A.cmpOther x s' = A.cmpOther x s

/-- The row belongs to the partition with these values: its partition columns have them, or are null. -/
def RowOf (schema : Schema) (vals : List Val) (row : Row) : Prop :=
  ∀ (i : Nat) (f : Field) (v : Val), schema[i]? = some f → vals[i]? = some v →
    row f.name = some v ∨ row f.name = none

/-- `base`, the path of the url of a table's base directory, leads to the directories `ds`.  Which
characters of it are percent-encoded does not matter. -/
def BaseDir (base : Str) (ds : List Str) : Prop :=
  (ds = [] ∧ (base = [] ∨ base = c!"/")) ∨
  (ds ≠ [] ∧ (∀ d ∈ ds, NormalName d) ∧ base.getLast? ≠ some '/' ∧
    utf8Decode (percentDecode (utf8Encode base)) = some ('/' :: joinWith '/' ds))

/-- A name made of characters that are percent-encoded neither in urls nor in object paths: visible ASCII
characters other than the ones listed. -/
def PlainName (s : Str) : Prop :=
  NormalName s ∧ ∀ c ∈ s, 33 ≤ c.toNat ∧ c.toNat < 127 ∧ c ∉ ['"', '#', '%', '*', '/', '<', '>', '?', '[', '\\',
    ']', '^', '`', '{', '|', '}', '~']

instance (s : Str) : Decidable (PlainName s) := by unfold PlainName; infer_instance

/-- `base` is the path of the url of the directories `ds`, which have plain names. -/
def PlainBase (base : Str) (ds : List Str) : Prop :=
  (∀ d ∈ ds, PlainName d) ∧
  ((ds = [] ∧ (base = [] ∨ base = c!"/")) ∨ (ds ≠ [] ∧ base = '/' :: joinWith '/' ds))

/-- The partitions of the table and the files in them have plain names. -/
def PlainTable (o : Opts) (t : Tree) : Prop :=
  ∀ x, PartitionOf o t x → (∀ n ∈ pathSegs x, PlainName n) ∧ ∀ f ∈ filesOf t x, PlainName f.1

/-- The number of partitions of a scan asked for by the table's options; none is asked for by
default. -/
def AskedPartitions (o : Opts) (n : Nat) : Prop :=
  (∃ x, Given .inputPartitions o x ∧ x = .uinteger n) ∨ (NotGiven .inputPartitions o ∧ n = 0)

/-- A predicate that the engine may hand to the table: a comparison whose sides are literals or columns of
the table, or the negation of one. -/
inductive Handed (s : Schema) : Expr → Prop
  | comparison (l r : Expr) (op : DfOp) (hop : ∀ n, op ≠ .other n)
      (hl : (∃ v, l = .literal v) ∨ ∃ f ∈ s, l = .column f.name)
      (hr : (∃ v, r = .literal v) ∨ ∃ f ∈ s, r = .column f.name) : Handed s (.binary l op r)
  | negation (e : Expr) (h : Handed s e) : Handed s (.not e)

end Hudi.Spec
