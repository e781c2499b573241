import Verif.Props.RacingConcurrentOpened
import Verif.Props.RacingConcurrentDemo
import Verif.Props.WriterOpenedDemo

/-! # C87 for tables opened by their path: a run that meets the hypotheses -/

namespace Hudi
open Spec
namespace Demo

/-- Steps of queries while no writer takes one. -/
def pathRunAt (u : Tree) (R : Runtime) : List (Nat × List Str) → Conc → Option Conc
  | [], s => some s
  | (i, ks) :: rest, s => (s.stepR env arrow pathTable 1 R (Race.still u) u i ks).bind (pathRunAt u R rest)

theorem pathRunAt_runs {R : Runtime} {asks : List Ask} {w : Work} (hw : Works pathSetting (withProps wkB) w)
    {failed : List Nat} {l : List (Nat × List Str)} {s s' : Conc}
    (hs : RunsWhile env arrow pathSetting pathTable 1 R (withProps wkB) asks w s failed)
    (h : pathRunAt w.tree R l s = some s') :
    RunsWhile env arrow pathSetting pathTable 1 R (withProps wkB) asks w s' failed := by
  induction l generalizing s with
  | nil => cases h; exact hs
  | cons e l ih =>
    obtain ⟨s1, h1, h2⟩ := Option.bind_eq_some_iff.1 h
    exact ih (.query ⟨fun _ => w, w, w, fun _ => w, fun _ => w, fun _ => w, fun _ => w⟩ e.1 e.2 hs
      ⟨fun _ => ⟨hw, .refl _⟩, ⟨hw, .refl _⟩, ⟨hw, .refl _⟩, fun _ => ⟨hw, .refl _⟩, fun _ => ⟨hw, .refl _⟩⟩ h1) h2

theorem pathRuns_works {R : Runtime} {asks : List Ask} {w w' : Work} (hw : Works pathSetting w w') {failed : List Nat}
    {s : Conc} (hs : RunsWhile env arrow pathSetting pathTable 1 R (withProps wkB) asks w s failed) :
    RunsWhile env arrow pathSetting pathTable 1 R (withProps wkB) asks w' s failed := by
  induction hw with
  | refl => exact hs
  | step _ hstep ih => exact .work ih hstep

/-- The first query lists the table when the second write has stopped. -/
def pathConcB : Option Conc := pathRunAt (withProps wkB).tree oneShard [(0, [[]])] (.init [] wkAsks)

/-- When the base file of that write has been deleted, the second query lists the table, both queries use the cache until
they return, and a request of the third one fails. -/
def pathConcR : Option Conc := (pathConcB.bind (pathRunAt pathR.tree oneShard
  [(1, [[]]), (1, []), (1, []), (0, []), (1, [[]]), (1, []), (1, []), (1, []), (1, []),
   (1, []), (0, []), (0, [[]]), (0, []), (0, []), (0, []), (0, []), (0, [])])).bind (Conc.fail arrow oneShard 2 .storage)

theorem path_runs {s : Conc} (h : pathConcR = some s) :
    RunsWhile env arrow pathSetting pathTable 1 oneShard (withProps wkB) wkAsks pathR s [2] := by
  obtain ⟨s2, h2, h⟩ := Option.bind_eq_some_iff.1 h
  obtain ⟨s1, h1, h2⟩ := Option.bind_eq_some_iff.1 h2
  exact .fails 2 .storage (pathRunAt_runs path_undone (pathRuns_works path_undone
    (pathRunAt_runs (.refl _) (.begin (.refl _)) h1)) h2) h

/-- The slices that query `i` returned are read as the insert. -/
def pathInsertRead (s : Conc) (i : Nat) : Bool :=
  match s.tasks[i]? with
  | some ⟨_, .finished (.ok ss)⟩ =>
    pathTable.readSlicesR env arrow codec (mergeEnv arrow) (readAt (fun _ => pathR)) (.latest []) ss =
      .ok [⟨mSchema, [mRow c!"1" c!"C" c!"bob" 7, mRow c!"1" c!"A" c!"ann" 5]⟩]
  | _ => false

end Demo

open Demo in
/-- The hypotheses of C87 from the path are met by a table whose second write has stopped, which is opened by its path and
queried by three tasks while that write is rolled back: two have returned the file group of the insert, the third an
error. -/
example : MonotoneTz env.ltz ∧ WholeSecondsTz env.ltz ∧ Works pathSetting nothingYet (withProps wkB) ∧
    TableOf env pathSetting (withProps wkB) (openWorld (withProps wkB).tree) c!"s3://b/trips" openCalls ∧
    Askable arrow pathSetting [] [] false false ∧ pathSetting.depth < 1 ∧
    (∀ x, oneShard.shard x < oneShard.shards) ∧ jobA.commit ∈ (withProps wkB).history ∧
    (builderOf c!"s3://b/trips" openCalls).build env (openWorld (withProps wkB).tree) = .ok pathTable ∧
    ∃ s, RunsWhile env arrow pathSetting pathTable 1 oneShard (withProps wkB) wkAsks pathR s [2] ∧
      groupsReturned s 0 = some [c!"f1"] ∧ groupsReturned s 1 = some [c!"f1"] ∧ errorReturned s 2 = true ∧
      pathInsertRead s 0 = true := by
  refine ⟨by intro a b a' b' h1 h2 h; cases h1; cases h2; exact h, by intro n d h; cases h; rfl,
    works_trans (path_works (works_trans works_A works_B)) (props_works _ rfl rfl _),
    tableOf_build rfl rfl rfl rfl rfl path_build, path_askable, by decide, fun _ => Nat.zero_lt_one,
    List.mem_singleton.2 rfl, path_build, ?_⟩
  have h : pathConcR.any (fun s => groupsReturned s 0 = some [c!"f1"] ∧ groupsReturned s 1 = some [c!"f1"] ∧
      errorReturned s 2 = true ∧ pathInsertRead s 0 = true) = true := by decide +kernel
  obtain ⟨s, h1, h2⟩ := (Option.any_eq_true _ _).1 h
  exact ⟨s, path_runs h1, of_decide_eq_true h2⟩

end Hudi
