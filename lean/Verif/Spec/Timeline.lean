import Verif.Model.Instant

/-!
# Specification: timeline files

What the names of the files in the timeline directory mean, independently of the parser.
-/

namespace Hudi.Spec

/-- The suffix that Hudi gives to the timeline file of an action in a state. -/
def suffix : Action → State → Str
  | .commit, .requested => c!"commit.requested"
  | .commit, .inflight => c!"inflight"
  | .commit, .completed => c!"commit"
  | .deltaCommit, .requested => c!"deltacommit.requested"
  | .deltaCommit, .inflight => c!"deltacommit.inflight"
  | .deltaCommit, .completed => c!"deltacommit"
  | .replaceCommit, .requested => c!"replacecommit.requested"
  | .replaceCommit, .inflight => c!"replacecommit.inflight"
  | .replaceCommit, .completed => c!"replacecommit"

/-- The file `name` records that the action `i.action`, one of `acts`, completed at the time denoted
by the part of the name before the first dot.  The reader also accepts one trailing dot. -/
def CompletedFile (ltz : LocalTz) (tz : Str) (acts : List Action) (name : Str) (i : Instant) : Prop :=
  ∃ ts a dt, a ∈ acts ∧ '.' ∉ ts ∧
    (name = ts ++ c!"." ++ suffix a .completed ∨ name = ts ++ c!"." ++ suffix a .completed ++ c!".") ∧
    parseDatetime ltz ts tz = .ok dt ∧
    i = { timestamp := ts, action := a, state := .completed, epochMillis := dt.epochMillis }

end Hudi.Spec
