import Verif.Props.Writer
import Verif.Props.RemainsDemo
import Verif.Props.TravelDemo

/-! # C82: writers that meet the hypotheses -/

namespace Hudi
open Spec
namespace Demo

def wkSetting : Setting := ⟨codec, some, c!"utc", morOpts, c!"ts", [], 17, 0⟩

def wkTs : Str := c!"20240105000000000"

/-- An insert. -/
def jobA : Job where
  commit := ⟨t0, .commit, [(f1, .write c!"0-0-0")]⟩
  doc := [(c!"partitionToWriteStats", .obj [([], .arr [.obj [(c!"fileId", .str c!"f1"),
    (c!"path", .str morBase)]])])]
  base := fun _ => mor
  blocks := fun _ _ => []
  appended := fun _ => []

/-- The base file of the second write. -/
def otherBase : Str := c!"f2_0-4-1_20240101000000000.parquet"

/-- A write that appends to the first file group and begins another one. -/
def jobB : Job where
  commit := ⟨t1, .deltaCommit, [(f1, .append [(c!"1", c!"0-7-7")]), (f2, .write c!"0-4-1")]⟩
  doc := [(c!"partitionToWriteStats", .obj [([], .arr [.obj [(c!"fileId", .str c!"f2"),
    (c!"path", .str otherBase)]])])]
  base := fun _ => mor
  blocks := fun _ _ => [w1]
  appended := fun _ => w1Batch.rows

/-- The block of the third write. -/
def wkBlock : WBlock := ⟨.v1, [(.instantTime, wkTs)], .parquet [80, 52, 68, 122, 3, 69], [], 0, 0⟩

def wkBatch : Batch := ⟨mSchema, [rowOfBytes [52, 68, 122, 3]]⟩

/-- A write that appends to the log file that the second one appended to. -/
def jobC : Job where
  commit := ⟨wkTs, .deltaCommit, [(f1, .append [(c!"1", c!"0-7-7")])]⟩
  doc := [(c!"partitionToWriteStats", .obj [([], .arr [.obj [(c!"fileId", .str c!"f1"),
    (c!"path", .str strayLog), (c!"baseFile", .str morBase)]])])]
  base := fun _ => mor
  blocks := fun _ _ => [wkBlock]
  appended := fun _ => wkBatch.rows

def putA : Request := .put (baseAt f1 c!"0-0-0" t0) (.parquet 1 mor)
def appendB : Request := .append (logAt f1 t0 (c!"1", c!"0-7-7")) [w1]
def putB : Request := .put (baseAt f2 c!"0-4-1" t1) (.parquet 1 mor)
def appendC : Request := .append (logAt f1 t0 (c!"1", c!"0-7-7")) [wkBlock]
def inflightB : Request := .put [c!".hoodie", c!"20240101000000000.deltacommit.inflight"] .junk

/-- The insert has completed. -/
def wkA : Work := ⟨jobA.completion.run (putA.run []), [jobA], [], [t0]⟩

/-- The second write has made its requests, and stops. -/
def wkB : Work := ⟨putB.run (appendB.run (inflightB.run wkA.store)), [jobA],
  [⟨jobB, [putB, appendB], none, []⟩], [t1, t0]⟩

/-- It has been rolled back. -/
def wkR : Work := ⟨(Request.append (logAt f1 t0 (c!"1", c!"0-7-7")) [w3]).run
  ((Request.delete (baseAt f2 c!"0-4-1" t1)).run wkB.store), [jobA], [], [t3, t1, t0]⟩

/-- The third write has completed. -/
def wkC : Work := ⟨jobC.completion.run (appendC.run wkR.store), [jobA, jobC], [], [wkTs, t3, t1, t0]⟩

theorem root_site : Site wkSetting [] := ⟨.inl ⟨by decide, rfl⟩, rfl⟩

theorem and_when {a b p : Prop} (h : a ∧ b) : a ∧ (p → b) := ⟨h.1, fun _ => h.2⟩

theorem mor_batch : mor.WF ∧ (mor.rows.map (keyOf mor.schema)).Nodup ∧ MergeColumns mor.schema c!"ts" :=
  ⟨by unfold Batch.WF; decide, by decide, mor_columns⟩

theorem jobA_ok : JobOk wkSetting [] jobA where
  later := by intro _ h; cases h
  time := by decide
  parses := ⟨_, rfl⟩
  once := by decide
  sites := by intro e he; rw [List.mem_singleton.1 he]; exact root_site
  replaces := by intro k hk; simp [jobA] at hk
  gone := by intro _ h; cases h
  live := by intro k ls hk; simp [jobA] at hk
  ids := by decide
  tokens := by intro k tk hk; simp only [jobA, List.mem_singleton, Prod.mk.injEq, Change.write.injEq] at hk
               rw [hk.2]; decide
  logs := by intro k ls hk; simp [jobA] at hk
  batches := fun _ _ _ => and_when mor_batch
  blocks := by intro k ls v hk; simp [jobA] at hk
  rows := by intro k ls hk; simp [jobA] at hk
  document := by intro h; cases h
  firstFile := ⟨jobA, by simp, f1, c!"0-0-0", morBase, by simp [jobA],
    ⟨_, _, _, _, _, rfl, rfl, .inl ⟨⟨c!"f1_0-0-0_20231231000000000", rfl⟩, rfl⟩⟩, by decide, by decide⟩

theorem jobB_ok : JobOk wkSetting [jobA] jobB where
  later := by intro j h; rw [List.mem_singleton.1 h]; decide
  time := by decide
  parses := ⟨_, rfl⟩
  once := by decide
  sites := by
    intro e he
    have : ∀ e ∈ jobB.commit.changes, e.1.1 = [] := by decide
    rw [this e he]; exact root_site
  replaces := by intro k hk; simp [jobB] at hk
  gone := by intro j h k hk; rw [List.mem_singleton.1 h] at hk; simp [jobA] at hk
  live := by
    intro k ls hk
    simp only [jobB, List.mem_cons, Prod.mk.injEq, List.not_mem_nil, or_false, reduceCtorEq, and_false] at hk
    rw [hk.1]; decide
  ids := by decide
  tokens := by
    intro k tk hk
    simp only [jobB, List.mem_cons, Prod.mk.injEq, Change.write.injEq, List.not_mem_nil, or_false, reduceCtorEq,
      and_false, false_or] at hk
    rw [hk.2]; decide
  logs := by
    intro k ls hk
    simp only [jobB, List.mem_cons, Prod.mk.injEq, Change.append.injEq, List.not_mem_nil, or_false, reduceCtorEq,
      and_false] at hk
    rw [hk.2]; decide
  batches := fun _ _ _ => and_when mor_batch
  blocks := by
    intro k ls v hk hv l hl w hw
    simp only [jobB, List.mem_cons, Prod.mk.injEq, Change.append.injEq, List.not_mem_nil, or_false, reduceCtorEq,
      and_false] at hk
    rw [hk.1] at hv ⊢
    have hv' : v.base = t0 := by
      have : (versionAfter (commitsOf [jobA]) f1).map Version.base = some t0 := by decide
      rw [hv] at this
      exact Option.some.inj this
    have hw' : w = w1 := List.mem_singleton.1 hw
    subst hw'
    rw [hv']
    refine ⟨good_w _ (by simp), rfl, fun h => absurd h.1 (by decide), ?_⟩
    intro w hw
    rw [List.mem_singleton.1 hw]
    exact mor_fit _ (by simp)
  rows := by
    intro k ls hk r
    simp only [jobB, List.mem_cons, Prod.mk.injEq, Change.append.injEq, List.not_mem_nil, or_false, reduceCtorEq,
      and_false] at hk
    rw [hk.2]
    constructor
    · intro h
      exact ⟨_, List.mem_singleton_self _, w1, List.mem_singleton_self _, _, w1_decodes, by simpa [jobB] using h⟩
    · rintro ⟨l, _, w, hw, bs, hb, hr⟩
      have hw' : w = w1 := List.mem_singleton.1 hw
      subst hw'
      rw [decodes_det hb w1_decodes] at hr
      simpa [jobB] using hr
  document := by intro h; cases h
  firstFile := ⟨jobB, by simp, f2, c!"0-4-1", otherBase, by simp [jobB],
    ⟨_, _, _, _, _, rfl, rfl, .inl ⟨⟨c!"f2_0-4-1_20240101000000000", rfl⟩, rfl⟩⟩, by decide, by decide⟩

theorem wkBlock_decodes : Decodes codec wkBlock [wkBatch] := rfl

theorem wkBlock_good : GoodBlock codec some c!"utc" wkBlock :=
  ⟨⟨by decide, by unfold MetaFits; decide, by intro _; unfold MetaFits; decide, by decide,
    (by intro rs h; cases h), (by intro t b h; cases h)⟩, ⟨_, wkBlock_decodes⟩, ⟨wkTs, _, rfl, rfl⟩,
    fun h => absurd h.1 (by decide)⟩

theorem jobC_ok : JobOk wkSetting [jobA] jobC where
  later := by intro j h; rw [List.mem_singleton.1 h]; decide
  time := by decide
  parses := ⟨_, rfl⟩
  once := by decide
  sites := by intro e he; rw [List.mem_singleton.1 he]; exact root_site
  replaces := by intro k hk; simp [jobC] at hk
  gone := by intro j h k hk; rw [List.mem_singleton.1 h] at hk; simp [jobA] at hk
  live := by
    intro k ls hk
    simp only [jobC, List.mem_singleton, Prod.mk.injEq] at hk
    rw [hk.1]; decide
  ids := by decide
  tokens := by intro k tk hk; simp [jobC] at hk
  logs := by
    intro k ls hk
    simp only [jobC, List.mem_singleton, Prod.mk.injEq, Change.append.injEq] at hk
    rw [hk.2]; decide
  batches := fun _ _ _ => and_when mor_batch
  blocks := by
    intro k ls v hk hv l hl w hw
    simp only [jobC, List.mem_singleton, Prod.mk.injEq] at hk
    rw [hk.1] at hv ⊢
    have hv' : v.base = t0 := by
      have : (versionAfter (commitsOf [jobA]) f1).map Version.base = some t0 := by decide
      rw [hv] at this
      exact Option.some.inj this
    have hw' : w = wkBlock := List.mem_singleton.1 hw
    subst hw'
    rw [hv']
    refine ⟨wkBlock_good, rfl, fun h => absurd h.1 (by decide), ?_⟩
    intro w hw bs hbs b hb
    rw [List.mem_singleton.1 hw] at hbs
    rw [decodes_det hbs wkBlock_decodes] at hb
    rw [List.mem_singleton.1 hb]
    refine ⟨?_, rfl⟩
    intro r hr
    rw [List.mem_singleton.1 hr]
    exact mRow_fits _
  rows := by
    intro k ls hk r
    simp only [jobC, List.mem_singleton, Prod.mk.injEq, Change.append.injEq] at hk
    rw [hk.2]
    constructor
    · intro h
      exact ⟨_, List.mem_singleton_self _, wkBlock, List.mem_singleton_self _, _, wkBlock_decodes, by simpa [jobC] using h⟩
    · rintro ⟨l, _, w, hw, bs, hb, hr⟩
      have hw' : w = wkBlock := List.mem_singleton.1 hw
      subst hw'
      rw [decodes_det hb wkBlock_decodes] at hr
      simpa [jobC] using hr
  document := by intro h; cases h
  firstFile := ⟨jobA, by simp, f1, c!"0-0-0", morBase, by simp [jobA],
    ⟨_, _, _, _, _, rfl, rfl, .inr ⟨by
      rintro ⟨stem, h⟩
      have h' := congrArg (fun l : Str => l.getLast?) h
      simp [strayLog] at h', _, rfl, rfl⟩⟩, by decide, by decide⟩

theorem works_trans {S : Setting} {a b c : Work} (h1 : Works S a b) (h2 : Works S b c) : Works S a c := by
  induction h2 with
  | refl => exact h1
  | step _ hs ih => exact .step ih hs

theorem works_A : Works wkSetting nothingYet wkA := by
  have h1 := Works.step (.refl _) (alone_begin nothingYet jobA rfl (by intro u hu; cases hu) jobA_ok)
  have h2 := Works.step h1 (alone_request _ ⟨jobA, [], none, []⟩ putA rfl rfl (by simp [Job.requests, jobA, putA]))
  have h3 := Works.step h2 (alone_complete _ ⟨jobA, [putA], none, []⟩ rfl rfl (fun q hq => hq))
  exact h3

theorem inflight_unread : Unread wkSetting inflightB.path := by
  refine .inl ⟨_, rfl, by decide, ?_⟩
  have : ((loadSelector c!"utc" [.commit, .deltaCommit, .replaceCommit]).tryCreateInstant some
      c!"20240101000000000.deltacommit.inflight").toOption.isSome = false := by decide
  intro h
  have h' := completedFile_iff.1 h
  exact absurd (this.symm.trans h') (by decide)

theorem works_B : Works wkSetting wkA wkB := by
  have h1 := Works.step (.refl _) (alone_begin wkA jobB rfl
    (by intro u hu; rw [List.mem_singleton.1 hu]; decide) jobB_ok)
  have h2 := Works.step h1 (.aside _ inflightB inflight_unread)
  have h3 := Works.step h2 (alone_request _ ⟨jobB, [], none, []⟩ appendB rfl rfl List.mem_cons_self)
  have h4 := Works.step h3 (alone_request _ ⟨jobB, [appendB], none, []⟩ putB rfl rfl (.tail _ List.mem_cons_self))
  exact h4

theorem works_R : Works wkSetting wkB wkR := by
  have hu : ∀ u ∈ wkB.used, compare u t3 = .lt := by decide
  have h1 := Works.step (S := wkSetting) (.refl _) (alone_rollback wkB ⟨jobB, [putB, appendB], none, []⟩ t3 rfl hu (by decide) ⟨_, rfl⟩)
  have h2 := Works.step h1 (alone_delete _ ⟨jobB, [putB, appendB], some t3, []⟩ t3 f2 c!"0-4-1" rfl rfl
    (.tail _ List.mem_cons_self))
  have h3 := Works.step h2 (alone_block _ ⟨jobB, [putB, appendB], some t3, []⟩ t3 f1 [(c!"1", c!"0-7-7")]
    ⟨t0, c!"0-0-0", []⟩ (c!"1", c!"0-7-7") w3 rfl rfl List.mem_cons_self rfl (by decide) (good_w _ (by simp)) rfl
    ⟨⟨rfl, _, rfl, rfl⟩, rfl⟩)
  refine Works.step h3 (alone_recovered _ ⟨jobB, [putB, appendB], some t3, [f1]⟩ t3 rfl rfl ?_ ?_)
  · intro k token hk
    have hk' : k = f2 ∧ token = c!"0-4-1" := by simpa [jobB] using hk
    rw [hk'.1, hk'.2]
    rfl
  · intro k ls v l hk _ _ _
    have hk' : k = f1 ∧ ls = [(c!"1", c!"0-7-7")] := by simpa [jobB] using hk
    rw [hk'.1]
    exact List.mem_cons_self

theorem works_C : Works wkSetting wkR wkC := by
  have hu : ∀ u ∈ wkR.used, compare u wkTs = .lt := by decide
  have h1 := Works.step (.refl _) (alone_begin wkR jobC rfl hu jobC_ok)
  have h2 := Works.step h1 (alone_request _ ⟨jobC, [], none, []⟩ appendC rfl rfl List.mem_cons_self)
  have h3 := Works.step h2 (alone_complete _ ⟨jobC, [appendC], none, []⟩ rfl rfl (fun q hq => hq))
  exact h3

/-- Opened while the second write is under way. -/
def wkTable : Table := ⟨morOpts, [], ⟨[], [⟨t0, .commit, .completed, 1703980800000⟩]⟩⟩

/-- Opened when the third write has completed. -/
def wkTable' : Table := ⟨morOpts, [], ⟨[], [⟨t0, .commit, .completed, 1703980800000⟩,
  ⟨wkTs, .deltaCommit, .completed, 1704412800000⟩]⟩⟩

theorem wk_opened : OpenedAt env arrow wkSetting wkB wkTable [] [] false false where
  load := ⟨[], rfl⟩
  clock := rfl
  zone := rfl
  options := rfl
  merges := ⟨⟨by simp [HmNodup, wkTable], by simp [wkTable]⟩, ⟨by decide, rfl, by decide⟩, rfl, rfl⟩
  names := ⟨by decide, by decide⟩
  parsed := rfl
  applicable := by simp
  style := ⟨rfl, rfl⟩
  parallelism := by intro v hv; cases hv

theorem wk_opened' : OpenedAt env arrow wkSetting wkC wkTable' [] [] false false where
  load := ⟨[], rfl⟩
  clock := rfl
  zone := rfl
  options := rfl
  merges := ⟨⟨by simp [HmNodup, wkTable'], by simp [wkTable']⟩, ⟨by decide, rfl, by decide⟩, rfl, rfl⟩
  names := ⟨by decide, by decide⟩
  parsed := rfl
  applicable := by simp
  style := ⟨rfl, rfl⟩
  parallelism := by intro v hv; cases hv

end Demo

open Demo in
/-- The hypotheses of C82 are met by an insert, a write that appends a block and a base file and stops, the
rollback of that write, and a write to the same log file.  A handle opened when the second write had stopped reads
the insert, then and at the end; one opened at the end reads the insert and the third write. -/
example : MonotoneTz env.ltz ∧ WholeSecondsTz env.ltz ∧ Works wkSetting nothingYet wkA ∧
    Works wkSetting wkA wkB ∧ wkB.done = wkA.done ∧ Works wkSetting wkB wkC ∧ Works wkSetting nothingYet wkC ∧
    OpenedAt env arrow wkSetting wkB wkTable [] [] false false ∧
    OpenedAt env arrow wkSetting wkC wkTable' [] [] false false ∧
    (wkTable.readSnapshot env arrow codec (mergeEnv arrow) wkB.tree [] []).2 =
      .ok [⟨mSchema, [mRow c!"1" c!"C" c!"bob" 7, mRow c!"1" c!"A" c!"ann" 5]⟩] ∧
    (wkTable.readSnapshot env arrow codec (mergeEnv arrow) wkC.tree [] []).2 =
      .ok [⟨mSchema, [mRow c!"1" c!"C" c!"bob" 7, mRow c!"1" c!"A" c!"ann" 5]⟩] ∧
    (wkTable'.readSnapshot env arrow codec (mergeEnv arrow) wkC.tree [] []).2 =
      .ok [⟨mSchema, [mRow c!"1" c!"C" c!"bob" 7, mRow c!"1" c!"A" c!"ann" 5, mRow c!"4" c!"D" c!"z" 3]⟩] :=
  ⟨by intro a b a' b' h1 h2 h; cases h1; cases h2; exact h, by intro n d h; cases h; rfl, works_A, works_B, rfl,
    works_trans works_R works_C, works_trans works_A (works_trans works_B (works_trans works_R works_C)),
    wk_opened, wk_opened', by decide +kernel, by decide +kernel, by decide +kernel⟩

end Hudi
