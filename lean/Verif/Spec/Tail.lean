import Verif.Spec.WriterChanges
import Verif.Model.Racing

/-!
# Specification: a consumer that follows a table

A consumer opens the table from time to time, and asks each time for the changes since the latest commit that the table
showed it the time before.
-/

namespace Hudi.Spec

/-- One visit of the consumer: when it opens the table, the commit up to which it has asked before, the commit up to
which it has asked now, and what it has received. -/
structure Poll where
  moment : Work
  start : Str
  stop : Str
  outs : List Batch

/-- The consumer has begun after the commit of the time `pos0`, the latest then, and has made the visits `ps` while
writers worked.  The last was at `s`, and the latest commit was that of the time `pos`. -/
inductive Follows (E : Env) (A : Arrow) (S : Setting) (M : MergeEnv A) (pos0 : Str) : List Poll → Work → Str → Prop
  | begins (s : Work) (c : HCommit) (hs : Works S nothingYet s) (hl : s.history.getLast? = some c) (hp : pos0 = c.ts) :
    Follows E A S M pos0 [] s c.ts
  | polls {ps : List Poll} {s : Work} {pos : Str} (h : Follows E A S M pos0 ps s pos) (s' : Work) (hs : Works S s s')
    (tb : Table) (ho : HandleAt E S s' tb) (m : Moments) (hm : Since S s' m) (stop : Str)
    (hl : tb.timeline.latestTimestampR = .ok stop) (outs : List Batch)
    (hr : tb.readIncrementalR E A S.C M m.race pos none = .ok outs) :
    Follows E A S M pos0 (ps ++ [⟨s', pos, stop, outs⟩]) s' stop

/-- The commit of the time `ts` falls in the visit. -/
def Poll.Covers (p : Poll) (ts : Str) : Prop := compare p.start ts = .lt ∧ (compare ts p.stop).isLE = true

/-- The visit has received what the writes `js`, by the history that they make, had changed between the times asked
for: per file group that they changed and that was in the table at the end, the latest version of each record that was
written in between. -/
def Poll.Received (A : Arrow) (S : Setting) (js : List Job) (p : Poll) : Prop :=
  ReadsEvolvingChanges A (columnsBy js) S.pre p.start p.stop (commitsOf js) (fun schema k r =>
    r ∈ recordsAt (rowsOf js) (commitsOf js) p.stop k ∧ CommittedIn schema p.start (some p.stop) r) p.outs

end Hudi.Spec
