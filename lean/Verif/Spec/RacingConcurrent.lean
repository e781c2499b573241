import Verif.Spec.Concurrent
import Verif.Spec.RacingFaults
import Verif.Model.RacingConcurrent

/-! # Specification: concurrent queries through one handle while writers work -/

namespace Hudi.Spec

/-- The requests that a query makes before it uses the cache have been answered after the writers had come to `s`, and
before they came to `w`. -/
structure Between (S : Setting) (s w : Work) (m : Moments) : Prop where
  replaced : ∀ i, Works S s (m.replaced i) ∧ Works S (m.replaced i) w
  latest : Works S s m.latest ∧ Works S m.latest w
  schema : Works S s m.schema ∧ Works S m.schema w
  dirs : ∀ x, Works S s (m.dirs x) ∧ Works S (m.dirs x) w
  files : ∀ x, Works S s (m.files x) ∧ Works S (m.files x) w

/-- The run of the queries `asks`, all those made through a handle since it was opened when the writers had come to `s0`:
how far the writers have come, the state of the queries, and those of which a request has failed.  Writers and queries
take steps in any order; queries made one after the other are a case of this. -/
inductive RunsWhile (E : Env) (A : Arrow) (S : Setting) (tb : Table) (depth : Nat) (R : Runtime) (s0 : Work)
    (asks : List Ask) : Work → Conc → List Nat → Prop
  | begin {w : Work} : Works S s0 w → RunsWhile E A S tb depth R s0 asks w (.init [] asks) []
  | work {w w' : Work} {s : Conc} {failed : List Nat} : RunsWhile E A S tb depth R s0 asks w s failed →
      WorkStep S w w' → RunsWhile E A S tb depth R s0 asks w' s failed
  | query {w : Work} {s s' : Conc} {failed : List Nat} (m : Moments) (i : Nat) (ks : List Str) :
      RunsWhile E A S tb depth R s0 asks w s failed → Between S s0 w m →
      s.stepR E A tb depth R m.race w.tree i ks = some s' → RunsWhile E A S tb depth R s0 asks w s' failed
  | fails {w : Work} {s s' : Conc} {failed : List Nat} (i : Nat) (e : ErrKind) :
      RunsWhile E A S tb depth R s0 asks w s failed → s.fail A R i e = some s' →
      RunsWhile E A S tb depth R s0 asks w s' (i :: failed)

/-- The storage when the contents of the file at each path are read. -/
def readAt (d : Str → Work) : Race := { Race.still .nil with data := fun path => (d path).tree }

end Hudi.Spec
