import Verif.Props.RacingConcurrent
import Verif.Lemmas.WriterOpened

/-! # C87: concurrent queries through the handle of a table opened by its path -/

namespace Hudi
open Spec

section
variable {S : Setting} {o : Opts} (hp : ∀ x, PartitionPath S.o x ↔ PartitionPath o x)
  (hf : partitionFieldNames S.o = partitionFieldNames o ∧ (OverwritesWithLatest o → OverwritesWithLatest S.o))
include hp hf

theorem runsWhile_with {E : Env} {A : Arrow} {tb : Table} {depth : Nat} {R : Runtime} {s0 : Work} {asks : List Ask}
    {w : Work} {s : Conc} {failed : List Nat} (h : RunsWhile E A S tb depth R s0 asks w s failed) :
    RunsWhile E A { S with o := o } tb depth R s0 asks w s failed := by
  induction h with
  | begin h => exact .begin (works_with hp hf h)
  | work _ hs ih => exact .work ih (step_with hp hf hs)
  | query m i ks _ hm hs ih =>
    exact .query m i ks ih ⟨fun i => ⟨works_with hp hf (hm.replaced i).1, works_with hp hf (hm.replaced i).2⟩,
      ⟨works_with hp hf hm.latest.1, works_with hp hf hm.latest.2⟩,
      ⟨works_with hp hf hm.schema.1, works_with hp hf hm.schema.2⟩,
      fun x => ⟨works_with hp hf (hm.dirs x).1, works_with hp hf (hm.dirs x).2⟩,
      fun x => ⟨works_with hp hf (hm.files x).1, works_with hp hf (hm.files x).2⟩⟩ hs
  | fails i e _ hs ih => exact .fails i e ih hs

end

/-- **C87, from the path.**  A program opens a table by its path when the writers have come to `s0`, and uses the handle
for any number of queries at the same time, while the writers go on and requests may fail.  A query that has returned has
returned an error if a request of its has failed; and otherwise file slices from which, whenever after that each file is
read, exactly the records are read that the writes completed by the commit asked for, or by `s0`, had written. -/
theorem C87_opened (E : Env) (A : Arrow) (S : Setting) (M : MergeEnv A) (hmono : MonotoneTz E.ltz)
    (hsec : WholeSecondsTz E.ltz) (s0 : Work) (hs0 : Works S nothingYet s0) (world : World) (uri : Str) (calls : List Call)
    (hw : TableOf E S s0 world uri calls) (filters : List (Str × Str × Str)) (fs : List Filter) (hive url : Bool)
    (ha : Askable A S filters fs hive url) (depth : Nat) (hdepth : S.depth < depth) (R : Runtime)
    (hR : ∀ x, R.shard x < R.shards) :
    ∃ tb, (builderOf uri calls).build E world = .ok tb ∧ ∀ asks w s failed, RunsWhile E A S tb depth R s0 asks w s failed →
      ∀ i r, Returned s i r →
      (∀ c ∈ s0.history, asks[i]? = some (.asOf c.ts filters) →
        (i ∈ failed → ∃ e, r = .err e) ∧
        (i ∉ failed → ∃ ss, r = .ok ss ∧ ∀ d : Str → Work, (∀ path, Works S w (d path)) →
          ∃ outs, tb.readSlicesR E A S.C M (readAt d) (.asOf c.ts filters) ss = .ok outs ∧
            ReadsEvolving A (columnsBy s0.done) S.pre (tableAt s0.history c.ts) (Kept A S.pcols hive url fs)
              (fun k r => r ∈ recordsAt (rowsOf s0.done) s0.history c.ts k) outs)) ∧
      (asks[i]? = some (.latest filters) →
        (i ∈ failed → ∃ e, r = .err e) ∧
        (i ∉ failed → ∃ ss, r = .ok ss ∧ ∀ d : Str → Work, (∀ path, Works S w (d path)) →
          ∃ outs, tb.readSlicesR E A S.C M (readAt d) (.latest filters) ss = .ok outs ∧
            ReadsEvolving A (columnsBy s0.done) S.pre (versionAfter s0.history) (Kept A S.pcols hive url fs)
              (fun k r => r ∈ recordsAfter (rowsOf s0.done) s0.history k) outs)) := by
  obtain ⟨tb, hb, ho, hh⟩ := tableOf_opens hw
  have hp := partitionPath_same ho
  have hf := agree_same ho
  have hask := askable_with ho ha hh
  refine ⟨tb, hb, fun asks w s failed hrun i r hr => ⟨fun c hc hi => ?_, fun hi => ?_⟩⟩
  · obtain ⟨h1, h2⟩ := C87_as_of E A { S with o := tb.opts } M hmono hsec s0 (works_with hp hf hs0) tb filters fs hive url
      hask depth hdepth R hR asks w s failed (runsWhile_with hp hf hrun) c hc i hi r hr
    refine ⟨h1, fun hn => ?_⟩
    obtain ⟨ss, h3, h4⟩ := h2 hn
    exact ⟨ss, h3, fun d hd => h4 d (fun path => works_with hp hf (hd path))⟩
  · obtain ⟨h1, h2⟩ := C87_latest E A { S with o := tb.opts } M hmono hsec s0 (works_with hp hf hs0) tb filters fs hive url
      hask depth hdepth R hR asks w s failed (runsWhile_with hp hf hrun) i hi r hr
    refine ⟨h1, fun hn => ?_⟩
    obtain ⟨ss, h3, h4⟩ := h2 hn
    exact ⟨ss, h3, fun d hd => h4 d (fun path => works_with hp hf (hd path))⟩

end Hudi
