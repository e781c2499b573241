import Verif.Model.Store

/-! # Specification: storage names and trees -/

namespace Hudi.Spec

/-- A name that a file or directory of an object store can have: neither empty nor dots, without slashes and
control characters. -/
def NormalName (n : Str) : Prop :=
  n ≠ [] ∧ '/' ∉ n ∧ n ≠ c!"." ∧ n ≠ c!".." ∧ ∀ c ∈ n, 32 ≤ c.toNat ∧ c.toNat ≠ 127

instance (n : Str) : Decidable (NormalName n) := by unfold NormalName; infer_instance

/-- The names directly in a directory. -/
def names : Tree → List Str
  | .nil => []
  | .file n _ _ rest => n :: names rest
  | .dir n _ rest => n :: names rest

/-- Every name is normal and no two entries of one directory have the same name. -/
def TreeWF : Tree → Prop
  | .nil => True
  | .file n _ _ rest => NormalName n ∧ n ∉ names rest ∧ TreeWF rest
  | .dir n sub rest => NormalName n ∧ n ∉ names rest ∧ TreeWF sub ∧ TreeWF rest

instance instDecidableTreeWF : (t : Tree) → Decidable (TreeWF t)
  | .nil => isTrue trivial
  | .file n _ _ rest =>
    have := instDecidableTreeWF rest
    inferInstanceAs (Decidable (NormalName n ∧ n ∉ names rest ∧ TreeWF rest))
  | .dir n sub rest =>
    have := instDecidableTreeWF rest
    have := instDecidableTreeWF sub
    inferInstanceAs (Decidable (NormalName n ∧ n ∉ names rest ∧ TreeWF sub ∧ TreeWF rest))

/-- The list of names leads to a directory of the tree. -/
def IsDir : List Str → Tree → Prop
  | [], _ => True
  | n :: ns, t => n ∈ t.dirs ∧ IsDir ns (t.sub n)

/-- The list of names leads to a directory that has no subdirectories. -/
def LeafDir (ns : List Str) (t : Tree) : Prop := IsDir ns t ∧ (t.at ns).dirs = []

end Hudi.Spec
