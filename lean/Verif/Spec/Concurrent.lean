import Verif.Spec.Snapshot
import Verif.Model.Concurrent

/-! # Specification: concurrent queries through one handle -/

namespace Hudi.Spec

/-- What a query answers when it is the only one, through a handle never used before. -/
def alone (E : Env) (A : Arrow) (tb : Table) (t : Tree) : Ask → Res (List FileSlice)
  | .latest fs => (tb.fileSlices E A t fs []).2
  | .asOf ts fs => (tb.fileSlicesAsOf E A t ts fs []).2

/-- Two outcomes are the same answer: both the same file slices in some order, or neither is one. -/
def SameAnswer (r r' : Res (List FileSlice)) : Prop :=
  (∀ ss, r = .ok ss → ∃ ss', r' = .ok ss' ∧ ss.Perm ss') ∧
  (∀ ss', r' = .ok ss' → ∃ ss, r = .ok ss ∧ ss.Perm ss')

/-- The state can come about: the scheduler lets the queries take steps in any order, each whenever
its thread is free and the lock it needs is, and hash maps are gone through in any order. -/
inductive Reaches (E : Env) (A : Arrow) (tb : Table) (t : Tree) (R : Runtime) (s0 : Conc) : Conc → Prop
  | refl : Reaches E A tb t R s0 s0
  | step {s s' : Conc} (i : Nat) (ks : List Str) : Reaches E A tb t R s0 s →
      s.step E A tb t R i ks = some s' → Reaches E A tb t R s0 s'

/-- The query number `i` has returned `r`. -/
def Returned (s : Conc) (i : Nat) (r : Res (List FileSlice)) : Prop :=
  ∃ tk, s.tasks[i]? = some tk ∧ tk.pc = .finished r

/-- Every query has returned. -/
def AllReturned (s : Conc) : Prop := ∀ tk ∈ s.tasks, ∃ r, tk.pc = .finished r

/-- Some query can take a step. -/
def CanGoOn (E : Env) (A : Arrow) (tb : Table) (t : Tree) (R : Runtime) (s : Conc) : Prop :=
  ∃ i ks s', s.step E A tb t R i ks = some s'

/-- Every query has a thread of its own. -/
def OwnThreads (R : Runtime) : Prop := ∀ i j, R.thread i = R.thread j → i = j

end Hudi.Spec
