import Verif.Spec.SameOptions

/-! # Specification: a builder that is used more than once -/

namespace Hudi.Spec

/-- The builder after attempts to open the table, each with the environment and the storage of its time. -/
def afterAttempts (ws : List World) (b : TableBuilder) : TableBuilder :=
  ws.foldl (fun b w => b.afterBuild w) b

/-- From an earlier to a later time: the environment variables are the same; an option found in the table's
properties file is still found there, whatever its value; and the global configuration still gives what it gave. -/
structure KeepsOptions (w w' : World) : Prop where
  vars : w.vars = w'.vars
  table : ∀ so uri s s' f f', w.connect so uri = .ok s → w'.connect so uri = .ok s' →
    TableOptions s f → TableOptions s' f' → ∀ k, f k ≠ none → f' k ≠ none
  global : ∀ so uri s s' f f', w.connect so uri = .ok s → w'.connect so uri = .ok s' →
    GlobalOptions w s f → GlobalOptions w' s' f' → ∀ k v, f k = some v → f' k = some v

end Hudi.Spec
