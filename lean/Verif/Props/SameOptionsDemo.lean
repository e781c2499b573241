import Verif.Props.SameOptions
import Verif.Props.DistributedDemo

/-! # C74: calls that give the same options, and a counterexample -/

namespace Hudi
open Spec

namespace Demo

/-- The options of `openCalls`, one by one, in another order and one of them twice. -/
def otherCalls : List Call :=
  [.option c!"timeout" c!"1s", .option c!"timeout" c!"10s", .options [(c!"hoodie.read.listing.parallelism", c!"4")]]

theorem same_given : SameGiven openCalls otherCalls := by
  refine ⟨fun _ => rfl, fun _ => rfl, fun k => ?_⟩
  show lastGiven k [(c!"hoodie.read.listing.parallelism", c!"4"), (c!"timeout", c!"10s")] =
    lastGiven k [(c!"timeout", c!"1s"), (c!"timeout", c!"10s"), (c!"hoodie.read.listing.parallelism", c!"4")]
  rw [← lastGiven_eq, ← lastGiven_eq]
  by_cases h1 : c!"hoodie.read.listing.parallelism" = k
  · subst h1; decide
  · by_cases h2 : c!"timeout" = k
    · subst h2; decide
    · rw [hmGet_eq_none.2, hmGet_eq_none.2]
      · intro hm
        rcases List.mem_cons.1 hm with h | hm
        · exact h1 h.symm
        rcases List.mem_cons.1 hm with h | hm
        · exact h2 h.symm
        rcases List.mem_cons.1 hm with h | hm
        · exact h2 h.symm
        exact (nomatch hm)
      · intro hm
        rcases List.mem_cons.1 hm with h | hm
        · exact h2 h.symm
        rcases List.mem_cons.1 hm with h | hm
        · exact h1 h.symm
        exact (nomatch hm)

/-- Both open the table, with the entries of their options in different orders. -/
example : SameGiven openCalls otherCalls ∧ ByOptions (openWorld openTree) ∧
    (builderOf c!"s3://b/trips" openCalls).build env (openWorld openTree) = .ok openTable ∧
    (∃ tb, (builderOf c!"s3://b/trips" otherCalls).build env (openWorld openTree) = .ok tb ∧
      SameHandle openTable tb) := by
  have hw : ByOptions (openWorld openTree) := open_connected.options
  have h := C74_opening_partial env (openWorld openTree) hw c!"s3://b/trips" _ _ same_given
  exact ⟨same_given, hw, open_build, h.answer open_build⟩

/-- The Python builder with the calls, its dictionary gone through backwards. -/
example : (pyBuilderOf c!"s3://b/trips" otherCalls).options =
      [(c!"timeout", c!"10s"), (c!"hoodie.read.listing.parallelism", c!"4")] ∧
    ([(c!"hoodie.read.listing.parallelism", c!"4"), (c!"timeout", c!"10s")] : List (Str × Str)).Perm
      (pyBuilderOf c!"s3://b/trips" otherCalls).options ∧
    (∃ tb, buildHudiTable env (openWorld openTree) c!"s3://b/trips" [] []
      [(c!"hoodie.read.listing.parallelism", c!"4"), (c!"timeout", c!"10s")] = .ok tb) :=
  ⟨rfl, .swap _ _ _, openTable, by decide +kernel⟩

/-- The account that two names of one option select: the options are gone through in the order in which
the map has them, and the last one counts. -/
def accountOf (so : Opts) : Option Str :=
  (so.filterMap (fun e =>
    if e.1 = c!"access_key_id" ∨ e.1 = c!"aws_access_key_id" then some e.2 else none)).getLast?

def latestOf : Res Table → Option Str
  | .ok tb => tb.timeline.latestTimestamp
  | _ => none

/-- A storage on which each of two accounts has a table at the uri. -/
def accountsWorld : World where
  vars := []
  connect so uri :=
    if uri = c!"s3://b/trips" then
      if accountOf so = some c!"ann" then .ok ⟨openTree, fun _ => none⟩ else .ok ⟨openDirtyTree, fun _ => none⟩
    else .err .storage

end Demo

open Demo in
/-- **C74, for two names of one option.**  The storage library has several names for one option, such as
`access_key_id` and `aws_access_key_id`, and goes through the map of options in its order; the last one
counts.  When both are given with different values, the table that is opened depends on the order of the
entries. -/
theorem C74_false : ∃ (E : Env) (w : World) (uri : Str) (options options' : List (Str × Str)) (tb tb' : Table),
    (options.map Prod.fst).Nodup ∧ options.Perm options' ∧
    Table.newWithOptions E w uri options = .ok tb ∧ Table.newWithOptions E w uri options' = .ok tb' ∧
    tb.timeline.latestTimestamp ≠ tb'.timeline.latestTimestamp := by
  let build (l : List (Str × Str)) := Table.newWithOptions env accountsWorld c!"s3://b/trips" l
  let a : Str × Str := (c!"access_key_id", c!"ann")
  let b : Str × Str := (c!"aws_access_key_id", c!"bob")
  have key : latestOf (build [a, b]) = some t2 ∧ latestOf (build [b, a]) = some t4 := by decide +kernel
  cases h1 : build [a, b] with
  | ok tb =>
    cases h2 : build [b, a] with
    | ok tb' =>
      rw [h1, h2] at key
      refine ⟨env, accountsWorld, c!"s3://b/trips", [a, b], [b, a], tb, tb', by decide, .swap _ _ _, h1, h2, ?_⟩
      have k1 : tb.timeline.latestTimestamp = some t2 := key.1
      have k2 : tb'.timeline.latestTimestamp = some t4 := key.2
      rw [k1, k2]
      decide
    | err e => rw [h2] at key; exact (nomatch key.2)
    | panic => rw [h2] at key; exact (nomatch key.2)
  | err e => rw [h1] at key; exact (nomatch key.1)
  | panic => rw [h1] at key; exact (nomatch key.1)

end Hudi
