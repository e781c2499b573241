import Verif.Spec.RacingWriter
import Verif.Spec.Evolving
import Verif.Spec.Changes

/-!
# Specification: what writers record of their changes

What readers of the changes between two times rely on, beyond what is required of every write (`Verif/Spec/Writer.lean`).
-/

namespace Hudi.Spec

/-- The write that follows the completed ones `before` records what it does: its document lists the files it writes
and appends to, each file group once; its base files have a commit time column; and the records that it appends carry
its timestamp there. -/
structure Documented (before : List Job) (j : Job) : Prop where
  document : ∃ ws, RecordsWrites j.doc ws ∧ (ws.map Write.id).Nodup ∧
    ∀ w, w ∈ ws ↔ ∃ k ch, (k, ch) ∈ j.commit.changes ∧ writeOf (commitsOf before) j.commit.ts k ch = some w
  commitTime : ∀ k token, (k, Change.write token) ∈ j.commit.changes → HasCommitTime (j.base k).schema
  dated : ∀ k ls v, (k, Change.append ls) ∈ j.commit.changes → versionAfter (commitsOf before) k = some v →
    ∀ r ∈ j.appended k, commitTimeOf (columnsBy before v.base k) r = some j.commit.ts

/-- All writes record what they do. -/
def AllDocumented (js : List Job) : Prop := ∀ d1 j d2, js = d1 ++ j :: d2 → Documented d1 j

/-- The blocks of the log file at the path. -/
def Work.blocksAt (s : Work) (path : Str) : List WBlock := (s.store.get (pathSegs path)).elim [] Stored.blocks

/-- Rollbacks are recorded where the data is: when a write has failed and been rolled back, there is a rollback block
in each of the log files that it has appended to. -/
def RollbacksInPlace (s : Work) : Prop :=
  ∀ p ws w i, s.store.get p = some (.log ws) → w ∈ ws → ¬ IsRollback w → WrittenBy w i →
    (∃ j ∈ s.done, j.commit.ts = i) ∨ (∃ a ∈ s.current, a.job.commit.ts = i) ∨ ∃ w' ∈ ws, RollsBack w' i

end Hudi.Spec
