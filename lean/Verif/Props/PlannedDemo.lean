import Verif.Props.Planned
import Verif.Props.CleanerDemo
import Verif.Props.QueryDemo

/-! # Examples for C98, and a plan whose files are gone -/

namespace Hudi
open Spec

namespace Demo

/-- Writers do the same whatever the options of the readers say about things other than partitions. -/
theorem jobOk_options {S : Setting} {o : Opts} (hp : ∀ x, PartitionPath S.o x ↔ PartitionPath o x)
    (hn : partitionFieldNames o = partitionFieldNames S.o ∧ (OverwritesWithLatest o → OverwritesWithLatest S.o))
    {before : List Job} {j : Job} (h : JobOk S before j) :
    JobOk { S with o := o } before j :=
  ⟨h.later, h.time, h.parses, h.once, fun e he => ⟨(hp _).1 (h.sites e he).1, (h.sites e he).2⟩, h.replaces, h.gone,
    h.live, h.ids, h.tokens, h.logs,
    fun k token hk => ⟨(h.batches k token hk).1, fun ho => (h.batches k token hk).2 (hn.2 ho)⟩, h.blocks, h.rows, h.document, by
      obtain ⟨j', h1, k, token, path, h2, h3, h4, h5⟩ := h.firstFile
      exact ⟨j', h1, k, token, path, h2, h3, h4, by rw [hn.1]; exact h5⟩⟩

theorem step_options {S : Setting} {o : Opts} (hp : ∀ x, PartitionPath S.o x ↔ PartitionPath o x)
    (hn : partitionFieldNames o = partitionFieldNames S.o ∧ (OverwritesWithLatest o → OverwritesWithLatest S.o)) {a b : Work} (h : WorkStep S a b) :
    WorkStep { S with o := o } a b := by
  cases h with
  | aside q h =>
    refine .aside a q (h.imp id ?_)
    rintro ⟨x, name, h1, h2, h3⟩
    exact ⟨x, name, h1, ⟨(hp x).1 h2.1, h2.2⟩, h3⟩
  | begin j hc hf hj => exact .begin a j hc hf (jobOk_options hp hn hj)
  | request at' q hc hu hq => exact .request a at' q hc hu hq
  | complete at' hc hu hq ho => exact .complete a at' hc hu hq ho
  | rollback at' r hc hf ht hp ho => exact .rollback a at' r hc hf ht hp ho
  | delete at' r k token hc hu hk => exact .delete a at' r k token hc hu hk
  | block at' r k ls v l w hc hu hk hv hl hg hw hr => exact .block a at' r k ls v l w hc hu hk hv hl hg hw hr
  | recovered at' r hc hu hd hb => exact .recovered a at' r hc hu hd hb

theorem works_options {S : Setting} {o : Opts} (hp : ∀ x, PartitionPath S.o x ↔ PartitionPath o x)
    (hn : partitionFieldNames o = partitionFieldNames S.o ∧ (OverwritesWithLatest o → OverwritesWithLatest S.o)) {a b : Work} (h : Works S a b) :
    Works { S with o := o } a b := by
  induction h with
  | refl => exact .refl _
  | step _ h ih => exact .step ih (step_options hp hn h)

theorem cleans_options {S : Setting} {o : Opts} (hp : ∀ x, PartitionPath S.o x ↔ PartitionPath o x)
    (hn : partitionFieldNames o = partitionFieldNames S.o ∧ (OverwritesWithLatest o → OverwritesWithLatest S.o)) {r : Str} {a b : Work} (h : Cleans S r a b) :
    Cleans { S with o := o } r a b := by
  induction h with
  | refl => exact .refl _
  | step _ h ih =>
    refine .step ih ?_
    cases h with
    | work _ h => exact .work _ _ (step_options hp hn h)
    | log j k token l hj hk hs hl => exact .log _ j k token l hj hk hs hl
    | base j k token hj hk hs hl => exact .base _ j k token hj hk hs hl

/-- The writers of the examples, and readers whose options say where the table is. -/
def plSetting : Setting := { wkSetting with o := scanOpts }

theorem pl_paths (x : Str) : PartitionPath wkSetting.o x ↔ PartitionPath scanOpts x := by
  have h1 : ¬ Partitioned wkSetting.o := by decide
  have h2 : ¬ Partitioned scanOpts := by decide
  simp [PartitionPath, h1, h2]

theorem pl_works {a b : Work} (h : Works wkSetting a b) : Works plSetting a b := works_options pl_paths ⟨rfl, by decide⟩ h

theorem pl_cleans {r : Str} {a b : Work} (h : Cleans wkSetting r a b) : Cleans plSetting r a b :=
  cleans_options pl_paths ⟨rfl, by decide⟩ h

/-- Opened when the third write has completed. -/
def plTable : Table := ⟨scanOpts, [], clTable.timeline⟩

/-- Opened when the second write has. -/
def plTable' : Table := ⟨scanOpts, [], clTable'.timeline⟩

theorem pl_opened : OpenedAt env arrow plSetting clWE plTable [] [] false false where
  load := ⟨[], rfl⟩
  clock := rfl
  zone := rfl
  options := rfl
  merges := ⟨⟨by simp [HmNodup, plTable], by simp [plTable]⟩, ⟨by decide, rfl, by decide⟩, rfl, rfl⟩
  names := ⟨by decide, by decide⟩
  parsed := rfl
  applicable := by simp
  style := ⟨rfl, rfl⟩
  parallelism := by intro v hv; cases hv

theorem pl_opened' : OpenedAt env arrow plSetting clWD plTable' [] [] false false where
  load := ⟨[], rfl⟩
  clock := rfl
  zone := rfl
  options := rfl
  merges := ⟨⟨by simp [HmNodup, plTable'], by simp [plTable']⟩, ⟨by decide, rfl, by decide⟩, rfl, rfl⟩
  names := ⟨by decide, by decide⟩
  parsed := rfl
  applicable := by simp
  style := ⟨rfl, rfl⟩
  parallelism := by intro v hv; cases hv

theorem pl_plain (s : Work) (h : ∀ f ∈ filesOf s.tree [], PlainName f.1) : PlainTable plSetting.o s.tree := by
  intro x hx
  rcases hx with ⟨_, rfl⟩ | ⟨hx, _⟩
  · exact ⟨by decide, h⟩
  · exact absurd hx (by decide)

def plFile (n : Str) : ScanFile := ⟨c!"t/" ++ n, 1⟩

end Demo

open Demo in
/-- The hypotheses of C98 are met by a scan planned when three writes have completed and executed when a cleaner has
deleted the first version of a file group: the plan names the base files of the second version and of the other file
group. -/
example : MonotoneTz env.ltz ∧ Works plSetting nothingYet clWE ∧ Works plSetting clWE clWE ∧
    OpenedAt env arrow plSetting clWE plTable (exprsToFilters id []) [] false false ∧
    plTable.baseUrlPath urlPath = .ok c!"/t" ∧ PlainBase c!"/t" [c!"t"] ∧ PlainTable plSetting.o clWE.tree ∧
    (∀ c, clWE.history.getLast? = some c → (compare clTs c.ts).isLE) ∧ Cleans plSetting clTs clWE clB ∧
    CarryPartitions arrow plSetting.pcols false false clWE.done ∧
    (plTable.scan env arrow urlPath id clWE.tree [] []).2 = .ok [[plFile clBase], [plFile otherBase]] ∧
    clB.tree ≠ clWE.tree := by
  refine ⟨?_, pl_works cl_works_all, .refl _, pl_opened, by decide +kernel, scan_base, pl_plain _ (by decide +kernel),
    ?_, pl_cleans (.step (.step (.refl _) (.log clWE jobA f1 c!"0-0-0" (c!"1", c!"0-7-7") List.mem_cons_self
      List.mem_cons_self cl_superseded (by decide)))
      (.base clL jobA f1 c!"0-0-0" List.mem_cons_self List.mem_cons_self cl_superseded clL_logs)), ?_, by decide +kernel, ?_⟩
  · intro a b a' b' h1 h2 h; cases h1; cases h2; exact h
  · intro c hc; cases hc; decide
  · intro j hj k token hk vals hv r hr i f v h
    cases h
  · intro h
    have := congrArg (fun t => (t.fileAt (baseAt f1 c!"0-0-0" t0)).isSome) h
    revert this
    decide +kernel

open Demo in
/-- The hypotheses of C98 after a cleaner has worked are met by a handle opened when the log file of the first version
has been deleted, and a scan planned when its base file has been as well. -/
example : MonotoneTz env.ltz ∧ WholeSecondsTz env.ltz ∧ Cleans plSetting clTs nothingYet clL ∧
    Cleans plSetting clTs clL clB ∧ NamesCurrent clL ∧
    OpenedAt env arrow plSetting clL plTable (exprsToFilters id []) [] false false ∧
    plTable.baseUrlPath urlPath = .ok c!"/t" ∧ PlainBase c!"/t" [c!"t"] ∧ PlainTable plSetting.o clB.tree ∧
    CarryPartitions arrow plSetting.pcols false false clL.done ∧
    (∀ c, clL.history.getLast? = some c → (compare clTs c.ts).isLE) ∧
    (plTable.scan env arrow urlPath id clB.tree [] []).2 = .ok [[plFile clBase], [plFile otherBase]] := by
  refine ⟨?_, by intro n d h; cases h; rfl,
    pl_cleans (.step (cleans_of_works cl_works_all) (.log clWE jobA f1 c!"0-0-0" (c!"1", c!"0-7-7") List.mem_cons_self
      List.mem_cons_self cl_superseded (by decide))), pl_cleans cleans_B, cl_current,
    ⟨⟨⟨[], rfl⟩, pl_opened.clock, pl_opened.zone, pl_opened.options, pl_opened.merges⟩, pl_opened.names, pl_opened.parsed,
      pl_opened.applicable, pl_opened.style, pl_opened.parallelism⟩, by decide +kernel, scan_base,
    pl_plain _ (by decide +kernel), ?_, ?_, by decide +kernel⟩
  · intro a b a' b' h1 h2 h; cases h1; cases h2; exact h
  · intro j hj k token hk vals hv r hr i f v h
    cases h
  · intro c hc; cases hc; decide

open Demo in
/-- **C98 does not hold in general.**  A handle is opened and a scan planned through it; then a write gives a file
group a new base file, and the cleaner, which keeps what reads as of that write need, deletes the old one.  When the
engine executes the plan, a file of it is gone. -/
theorem C98_false : ∃ (E : Env) (A : Arrow) (U : Str → Option Str) (D : Str → Str) (S : Setting) (s0 s1 : Work)
    (tb : Table) (base : Str) (ds : List Str) (plan : List (List ScanFile)) (r : Str) (k : GroupKey) (v : Version),
    Works S nothingYet s0 ∧ OpenedAt E A S s0 tb (exprsToFilters D []) [] false false ∧
    tb.baseUrlPath U = .ok base ∧ PlainBase base ds ∧ PlainTable S.o s0.tree ∧
    (tb.scan E A U D s0.tree [] []).2 = .ok plan ∧ Cleans S r s0 s1 ∧ (∃ j ∈ s1.done, j.commit.ts = r) ∧
    versionAfter s0.history k = some v ∧
    (∃ f ∈ plan.flatten, storageKey base (basePathOf k v.token v.base) = .ok f.path) ∧
    s1.tree.fileAt (pathSegs (basePathOf k v.token v.base)) = none := by
  refine ⟨env, arrow, urlPath, id, plSetting, clWD, clB, plTable', c!"/t", [c!"t"],
    [[plFile otherBase], [plFile c!"f1_0-0-0_20231231000000000.parquet"]], clTs, f1, ⟨t0, c!"0-0-0", [(c!"1", c!"0-7-7")]⟩,
    pl_works cl_works_toD, pl_opened', by decide +kernel, scan_base, pl_plain _ (by decide +kernel), by decide +kernel,
    pl_cleans ?_, ⟨jobE, by simp [clB, clL, clWE], rfl⟩, by decide +kernel,
    ⟨plFile c!"f1_0-0-0_20231231000000000.parquet", by decide +kernel, by decide +kernel⟩, by decide +kernel⟩
  exact .step (.step (cleans_of_works cl_works_E) (.log clWE jobA f1 c!"0-0-0" (c!"1", c!"0-7-7") List.mem_cons_self
    List.mem_cons_self cl_superseded (by decide)))
    (.base clL jobA f1 c!"0-0-0" List.mem_cons_self List.mem_cons_self cl_superseded clL_logs)

end Hudi
