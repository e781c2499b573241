import Verif.Lemmas.WriterOpened
import Verif.Props.RacingWriter
import Verif.Props.WriterChanges

/-! # C82–C84 for tables opened by their path -/

namespace Hudi
open Spec

/-- **C82, from the path, as of a commit.**  While writers work on a table, it opens by its path at any moment `s0`
(with the properties file in place); and the handle reads, at any later moment, as of any commit that had completed at
`s0`, exactly the records that the writes completed by then had written. -/
theorem C82_opened_as_of (E : Env) (A : Arrow) (S : Setting) (M : MergeEnv A) (hmono : MonotoneTz E.ltz)
    (hsec : WholeSecondsTz E.ltz) (s0 : Work) (hs0 : Works S nothingYet s0) (w : World) (uri : Str)
    (calls : List Call) (hw : TableOf E S s0 w uri calls) (filters : List (Str × Str × Str)) (fs : List Filter)
    (hive url : Bool) (ha : Askable A S filters fs hive url) :
    ∃ tb, (builderOf uri calls).build E w = .ok tb ∧ ∀ s, Works S s0 s → ∀ c ∈ s0.history,
      ∃ outs, (tb.readSnapshotAsOf E A S.C M s.tree c.ts filters []).2 = .ok outs ∧
        ReadsEvolving A (columnsBy s0.done) S.pre (tableAt s0.history c.ts) (Kept A S.pcols hive url fs)
          (fun k r => r ∈ recordsAt (rowsOf s0.done) s0.history c.ts k) outs := by
  obtain ⟨tb, hb, ho, hh⟩ := tableOf_opens hw
  have hp := partitionPath_same ho
  have hf := agree_same ho
  exact ⟨tb, hb, fun s hs c hc => C82_reads_as_of E A { S with o := tb.opts } M hmono hsec s0 s (works_with hp hf hs0)
    (works_with hp hf hs) tb filters fs hive url (askable_with ho ha hh) c hc⟩

/-- **C82, from the path, the latest snapshot.**  Likewise without a timestamp. -/
theorem C82_opened_latest (E : Env) (A : Arrow) (S : Setting) (M : MergeEnv A) (hmono : MonotoneTz E.ltz)
    (hsec : WholeSecondsTz E.ltz) (s0 : Work) (hs0 : Works S nothingYet s0) (w : World) (uri : Str)
    (calls : List Call) (hw : TableOf E S s0 w uri calls) (filters : List (Str × Str × Str)) (fs : List Filter)
    (hive url : Bool) (ha : Askable A S filters fs hive url) :
    ∃ tb, (builderOf uri calls).build E w = .ok tb ∧ ∀ s, Works S s0 s →
      ∃ outs, (tb.readSnapshot E A S.C M s.tree filters []).2 = .ok outs ∧
        ReadsEvolving A (columnsBy s0.done) S.pre (versionAfter s0.history) (Kept A S.pcols hive url fs)
          (fun k r => r ∈ recordsAfter (rowsOf s0.done) s0.history k) outs := by
  obtain ⟨tb, hb, ho, hh⟩ := tableOf_opens hw
  have hp := partitionPath_same ho
  have hf := agree_same ho
  exact ⟨tb, hb, fun s hs => C82_reads_latest E A { S with o := tb.opts } M hmono hsec s0 s (works_with hp hf hs0)
    (works_with hp hf hs) tb filters fs hive url (askable_with ho ha hh)⟩

/-- **C83, from the path, as of a commit.**  Likewise when each request of the read is answered at some moment after
the table was opened, files being read after their partitions have been listed. -/
theorem C83_opened_as_of (E : Env) (A : Arrow) (S : Setting) (M : MergeEnv A) (hmono : MonotoneTz E.ltz)
    (hsec : WholeSecondsTz E.ltz) (s0 : Work) (hs0 : Works S nothingYet s0) (w : World) (uri : Str)
    (calls : List Call) (hw : TableOf E S s0 w uri calls) (filters : List (Str × Str × Str)) (fs : List Filter)
    (hive url : Bool) (ha : Askable A S filters fs hive url) (depth : Nat) (hdepth : S.depth < depth) :
    ∃ tb, (builderOf uri calls).build E w = .ok tb ∧ ∀ m, Since S s0 m → ∀ c ∈ s0.history,
      ∃ outs, tb.readSnapshotAsOfR E A S.C M depth m.race c.ts filters = .ok outs ∧
        ReadsEvolving A (columnsBy s0.done) S.pre (tableAt s0.history c.ts) (Kept A S.pcols hive url fs)
          (fun k r => r ∈ recordsAt (rowsOf s0.done) s0.history c.ts k) outs := by
  obtain ⟨tb, hb, ho, hh⟩ := tableOf_opens hw
  have hp := partitionPath_same ho
  have hf := agree_same ho
  exact ⟨tb, hb, fun m hm c hc => C83_reads_as_of E A { S with o := tb.opts } M hmono hsec s0 (works_with hp hf hs0) m
    (since_with hp hf hm) tb filters fs hive url (askable_with ho ha hh) depth hdepth c hc⟩

/-- **C83, from the path, the latest snapshot.**  Likewise without a timestamp. -/
theorem C83_opened_latest (E : Env) (A : Arrow) (S : Setting) (M : MergeEnv A) (hmono : MonotoneTz E.ltz)
    (hsec : WholeSecondsTz E.ltz) (s0 : Work) (hs0 : Works S nothingYet s0) (w : World) (uri : Str)
    (calls : List Call) (hw : TableOf E S s0 w uri calls) (filters : List (Str × Str × Str)) (fs : List Filter)
    (hive url : Bool) (ha : Askable A S filters fs hive url) (depth : Nat) (hdepth : S.depth < depth) :
    ∃ tb, (builderOf uri calls).build E w = .ok tb ∧ ∀ m, Since S s0 m →
      ∃ outs, tb.readSnapshotR E A S.C M depth m.race filters = .ok outs ∧
        ReadsEvolving A (columnsBy s0.done) S.pre (versionAfter s0.history) (Kept A S.pcols hive url fs)
          (fun k r => r ∈ recordsAfter (rowsOf s0.done) s0.history k) outs := by
  obtain ⟨tb, hb, ho, hh⟩ := tableOf_opens hw
  have hp := partitionPath_same ho
  have hf := agree_same ho
  exact ⟨tb, hb, fun m hm => C83_reads_latest E A { S with o := tb.opts } M hmono hsec s0 (works_with hp hf hs0) m
    (since_with hp hf hm) tb filters fs hive url (askable_with ho ha hh) depth hdepth⟩

/-- **C84, from the path, exactly.**  While writers work on a table, it opens by its path at any moment `s0`; and the
handle reads the changes between any time and any commit that had completed at `s0`, each request being answered at some
later moment: the records that the writes completed in the span had written, and those of blocks, in log files that these
writes have appended to, of failed writes that no block in such a log file rolls back. -/
theorem C84_opened_and_failed (E : Env) (A : Arrow) (S : Setting) (M : MergeEnv A) (hmono : MonotoneTz E.ltz)
    (hsec : WholeSecondsTz E.ltz) (s0 : Work) (hs0 : Works S nothingYet s0) (hdoc : AllDocumented s0.done) (w : World)
    (uri : Str) (calls : List Call) (hw : TableOf E S s0 w uri calls) (hmeta : MetaFields S.o) :
    ∃ tb, (builderOf uri calls).build E w = .ok tb ∧ ∀ m, Since S s0 m → ∀ start, WriterTimestamp start →
      start.length = S.width → (∃ d, parseDatetime S.ltz start S.tz = .ok d) → ∀ c ∈ s0.history,
      ∃ outs, tb.readIncrementalR E A S.C M m.race start (some c.ts) = .ok outs ∧
        ReadsEvolvingChanges A (columnsBy s0.done) S.pre start c.ts s0.history (fun schema k r =>
          (r ∈ recordsAt (rowsOf s0.done) s0.history c.ts k ∧ CommittedIn schema start (some c.ts) r) ∨
            PendingChange S.C S.ltz S.tz start c.ts s0.history s0.blocksAt k r) outs := by
  obtain ⟨tb, hb, ho, hh⟩ := tableOf_opens hw
  have hp := partitionPath_same ho
  have hf := agree_same ho
  exact ⟨tb, hb, fun m hm start h1 h2 h3 c hc => C84_changes_and_failed E A { S with o := tb.opts } M hmono hsec s0
    (works_with hp hf hs0) hdoc m (since_with hp hf hm) tb hh (by unfold MetaFields; rw [← ho]; exact hmeta) start
    ⟨h1, h2⟩ h3 c hc⟩

/-- **C84, from the path, up to a commit (partial).**  Likewise, when rollbacks leave their blocks where those of the
failed write are: exactly the records that the writes completed in the span had written.  Missing: as in
`C84_changes_partial`. -/
theorem C84_opened_changes_partial (E : Env) (A : Arrow) (S : Setting) (M : MergeEnv A) (hmono : MonotoneTz E.ltz)
    (hsec : WholeSecondsTz E.ltz) (s0 : Work) (hs0 : Works S nothingYet s0) (hdoc : AllDocumented s0.done)
    (hin : RollbacksInPlace s0) (w : World) (uri : Str) (calls : List Call) (hw : TableOf E S s0 w uri calls)
    (hmeta : MetaFields S.o) :
    ∃ tb, (builderOf uri calls).build E w = .ok tb ∧ ∀ m, Since S s0 m → ∀ start, WriterTimestamp start →
      start.length = S.width → (∃ d, parseDatetime S.ltz start S.tz = .ok d) → ∀ c ∈ s0.history,
      ∃ outs, tb.readIncrementalR E A S.C M m.race start (some c.ts) = .ok outs ∧
        ReadsEvolvingChanges A (columnsBy s0.done) S.pre start c.ts s0.history (fun schema k r =>
          r ∈ recordsAt (rowsOf s0.done) s0.history c.ts k ∧ CommittedIn schema start (some c.ts) r) outs := by
  obtain ⟨tb, hb, ho, hh⟩ := tableOf_opens hw
  have hp := partitionPath_same ho
  have hf := agree_same ho
  exact ⟨tb, hb, fun m hm start h1 h2 h3 c hc => C84_changes_partial E A { S with o := tb.opts } M hmono hsec s0
    (works_with hp hf hs0) hdoc hin m (since_with hp hf hm) tb hh (by unfold MetaFields; rw [← ho]; exact hmeta) start
    ⟨h1, h2⟩ h3 c hc⟩

end Hudi
