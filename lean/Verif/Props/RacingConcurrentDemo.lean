import Verif.Props.RacingConcurrent
import Verif.Props.RacingWriterDemo

/-! # C87: a concrete case -/

namespace Hudi
open Spec
namespace Demo

/-- Steps of queries while no writer takes one. -/
def runAt (u : Tree) (R : Runtime) : List (Nat × List Str) → Conc → Option Conc
  | [], s => some s
  | (i, ks) :: rest, s => (s.stepR env arrow wkTable 1 R (Race.still u) u i ks).bind (runAt u R rest)

theorem runAt_runs {R : Runtime} {asks : List Ask} {w : Work} (hw : Works wkSetting wkB w) {failed : List Nat}
    {l : List (Nat × List Str)} {s s' : Conc} (hs : RunsWhile env arrow wkSetting wkTable 1 R wkB asks w s failed)
    (h : runAt w.tree R l s = some s') : RunsWhile env arrow wkSetting wkTable 1 R wkB asks w s' failed := by
  induction l generalizing s with
  | nil => cases h; exact hs
  | cons e l ih =>
    obtain ⟨s1, h1, h2⟩ := Option.bind_eq_some_iff.1 h
    exact ih (.query ⟨fun _ => w, w, w, fun _ => w, fun _ => w, fun _ => w, fun _ => w⟩ e.1 e.2 hs
      ⟨fun _ => ⟨hw, .refl _⟩, ⟨hw, .refl _⟩, ⟨hw, .refl _⟩, fun _ => ⟨hw, .refl _⟩, fun _ => ⟨hw, .refl _⟩⟩ h1) h2

theorem runs_works {R : Runtime} {asks : List Ask} {w w' : Work} (hw : Works wkSetting w w') {failed : List Nat} {s : Conc}
    (hs : RunsWhile env arrow wkSetting wkTable 1 R wkB asks w s failed) :
    RunsWhile env arrow wkSetting wkTable 1 R wkB asks w' s failed := by
  induction hw with
  | refl => exact hs
  | step _ hstep ih => exact .work ih hstep

/-- One shard, and a thread for each query. -/
def oneShard : Runtime := ⟨1, fun _ => 0, fun i => i⟩

def wkAsks : List Ask := [.latest [], .asOf t0 [], .latest []]

/-- The first query lists the table when the second write has stopped. -/
def concB : Option Conc := runAt wkB.tree oneShard [(0, [[]])] (.init [] wkAsks)

/-- When that write has been rolled back, the second query lists the table, and puts its listing into the cache; the first
query replaces it by its own, older one; and the second query looks at that. -/
def concR : Option Conc := concB.bind (runAt wkR.tree oneShard
  [(1, [[]]), (1, []), (1, []), (0, []), (1, [[]]), (1, []), (1, []), (1, []), (1, [])])

/-- When the third write has completed, both go on until they return, and a request of the third query fails. -/
def concC : Option Conc := (concR.bind (runAt wkC.tree oneShard
  [(1, []), (0, []), (0, [[]]), (0, []), (0, []), (0, []), (0, []), (0, [])])).bind (Conc.fail arrow oneShard 2 .storage)

theorem wk_runs {s : Conc} (h : concC = some s) :
    RunsWhile env arrow wkSetting wkTable 1 oneShard wkB wkAsks wkC s [2] := by
  obtain ⟨s3, h3, h⟩ := Option.bind_eq_some_iff.1 h
  obtain ⟨s2, h2, h3⟩ := Option.bind_eq_some_iff.1 h3
  obtain ⟨s1, h1, h2⟩ := Option.bind_eq_some_iff.1 h2
  exact .fails 2 .storage (runAt_runs (works_trans works_R works_C) (runs_works works_C
    (runAt_runs works_R (runs_works works_R (runAt_runs (.refl _) (.begin (.refl _)) h1)) h2)) h3) h

/-- The slices that query `i` returned, as far as they tell the file groups. -/
def groupsReturned (s : Conc) (i : Nat) : Option (List Str) :=
  match s.tasks[i]? with
  | some ⟨_, .finished (.ok ss)⟩ => some (ss.map (fun s => s.baseFile.fileId))
  | _ => none

/-- Query `i` has returned an error. -/
def errorReturned (s : Conc) (i : Nat) : Bool :=
  match s.tasks[i]? with
  | some ⟨_, .finished (.err _)⟩ => true
  | _ => false

/-- The slices that query `i` returned are read as the insert. -/
def insertRead (s : Conc) (i : Nat) : Bool :=
  match s.tasks[i]? with
  | some ⟨_, .finished (.ok ss)⟩ =>
    wkTable.readSlicesR env arrow codec (mergeEnv arrow) (readAt (fun _ => wkC)) (.latest []) ss =
      .ok [⟨mSchema, [mRow c!"1" c!"C" c!"bob" 7, mRow c!"1" c!"A" c!"ann" 5]⟩]
  | _ => false

end Demo

open Demo in
/-- The hypotheses of C87 are met: two queries have returned the file group of the insert, though the listing they looked
at has a file of the write that failed, and the third one has returned an error; read after the third write has completed,
the file has the rows of the insert. -/
example : MonotoneTz env.ltz ∧ WholeSecondsTz env.ltz ∧ Works wkSetting nothingYet wkB ∧
    OpenedAt env arrow wkSetting wkB wkTable [] [] false false ∧ wkSetting.depth < 1 ∧
    (∀ x, oneShard.shard x < oneShard.shards) ∧ OwnThreads oneShard ∧ jobA.commit ∈ wkB.history ∧
    ∃ s, RunsWhile env arrow wkSetting wkTable 1 oneShard wkB wkAsks wkC s [2] ∧
      groupsReturned s 0 = some [c!"f1"] ∧ groupsReturned s 1 = some [c!"f1"] ∧ (∃ e, Returned s 2 (.err e)) ∧
      s.cache.map (fun e => e.2.map (fun g => g.fileId)) = [[c!"f2", c!"f1"]] ∧
      (∃ ss, Returned s 0 (.ok ss) ∧
        wkTable.readSlicesR env arrow codec (mergeEnv arrow) (readAt (fun _ => wkC)) (.latest []) ss =
          .ok [⟨mSchema, [mRow c!"1" c!"C" c!"bob" 7, mRow c!"1" c!"A" c!"ann" 5]⟩]) := by
  refine ⟨by intro a b a' b' h1 h2 h; cases h1; cases h2; exact h, by intro n d h; cases h; rfl,
    works_trans works_A works_B, wk_opened, by decide, fun _ => Nat.zero_lt_one, fun _ _ h => h, List.mem_singleton.2 rfl, ?_⟩
  have h : concC.any (fun s => groupsReturned s 0 = some [c!"f1"] ∧ groupsReturned s 1 = some [c!"f1"] ∧
      errorReturned s 2 = true ∧ s.cache.map (fun e => e.2.map (fun g => g.fileId)) = [[c!"f2", c!"f1"]] ∧
      insertRead s 0 = true) = true := by decide +kernel
  obtain ⟨s, h1, h2⟩ := (Option.any_eq_true _ _).1 h
  obtain ⟨g1, g2, g3, g4, g5⟩ := of_decide_eq_true h2
  refine ⟨s, wk_runs h1, g1, g2, ?_, g4, ?_⟩
  · unfold errorReturned at g3
    split at g3
    · rename_i ask e hs
      exact ⟨e, _, hs, rfl⟩
    · cases g3
  · unfold insertRead at g5
    split at g5
    · rename_i ask ss hs
      exact ⟨ss, ⟨_, hs, rfl⟩, of_decide_eq_true g5⟩
    · cases g5

end Hudi
