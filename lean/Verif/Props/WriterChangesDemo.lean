import Verif.Props.WriterChanges
import Verif.Props.ChangesDemo
import Verif.Props.WriterDemo

/-! # C84: writers that meet the hypotheses, and a counterexample -/

namespace Hudi
open Spec
namespace Demo

def spSetting : Setting := ⟨codecDated, some, c!"utc", morOpts, c!"ts", [], 17, 0⟩

/-- An insert. -/
def jobI : Job where
  commit := ⟨t0, .commit, [(f1, .write c!"0-0-0")]⟩
  doc := chDoc0
  base := fun _ => base1
  blocks := fun _ _ => []
  appended := fun _ => []

/-- A write that appends a block to the log file of the first file group. -/
def spAppend (ts : Str) (w : WBlock) (b : Batch) : Job where
  commit := ⟨ts, .deltaCommit, [(f1, .append [(c!"1", c!"0-0-1")])]⟩
  doc := chDoc2
  base := fun _ => base1
  blocks := fun _ _ => [w]
  appended := fun _ => b.rows

/-- An insert into another file group. -/
def jobZ : Job where
  commit := ⟨t4, .commit, [(f2, .write c!"0-4-1")]⟩
  doc := chDoc4
  base := fun _ => base2
  blocks := fun _ _ => []
  appended := fun _ => []

/-- The write that completes, and the one that fails. -/
def jobY : Job := spAppend t1 x1 x1Batch
def jobX : Job := spAppend t2 x2 x2Batch

/-- The rollback of the failed write. -/
def undoX : WBlock := ⟨.v1, [(.instantTime, t3), (.targetInstantTime, t2), (.commandBlockType, c!"0")], .command, [], 0, 0⟩

def putI : Request := .put (baseAt f1 c!"0-0-0" t0) (.parquet 1 base1)
def appendY : Request := .append (logAt f1 t0 (c!"1", c!"0-0-1")) [x1]
def appendX : Request := .append (logAt f1 t0 (c!"1", c!"0-0-1")) [x2]
def putZ : Request := .put (baseAt f2 c!"0-4-1" t4) (.parquet 1 base2)

/-- Two writes have completed. -/
def spY : Work := ⟨jobY.completion.run (appendY.run (jobI.completion.run (putI.run []))), [jobI, jobY], [], [t1, t0]⟩

/-- The third write has appended its block, and stops. -/
def spX : Work := ⟨appendX.run spY.store, [jobI, jobY], [⟨jobX, [appendX], none, []⟩], [t2, t1, t0]⟩

/-- It has been rolled back, by a block in the log file `l`. -/
def spR (l : Str × Str) : Work :=
  ⟨(Request.append (logAt f1 t0 l) [undoX]).run spX.store, [jobI, jobY], [], [t3, t2, t1, t0]⟩

/-- A fourth write has completed. -/
def spZ (l : Str × Str) : Work :=
  ⟨jobZ.completion.run (putZ.run (spR l).store), [jobI, jobY, jobZ], [], [t4, t3, t2, t1, t0]⟩

/-- The log file of the failed write, and the one after it. -/
def here : Str × Str := (c!"1", c!"0-0-1")
def elsewhere : Str × Str := (c!"2", c!"0-0-1")

theorem dated_batch : ∀ b ∈ [base1, base2],
    b.WF ∧ (b.rows.map (keyOf b.schema)).Nodup ∧ MergeColumns b.schema c!"ts" := by
  intro b hb
  simp only [List.mem_cons, List.not_mem_nil, or_false] at hb
  rcases hb with rfl | rfl <;> exact ⟨by unfold Batch.WF; decide, by decide, by decide, by decide, _, rfl, rfl⟩

theorem jobI_ok : JobOk spSetting [] jobI where
  later := by intro _ h; cases h
  time := by decide
  parses := ⟨_, rfl⟩
  once := by decide
  sites := by intro e he; rw [List.mem_singleton.1 he]; exact root_site
  replaces := by intro k hk; simp [jobI] at hk
  gone := by intro _ h; cases h
  live := by intro k ls hk; simp [jobI] at hk
  ids := by decide
  tokens := by intro k tk hk; simp only [jobI, List.mem_singleton, Prod.mk.injEq, Change.write.injEq] at hk
               rw [hk.2]; decide
  logs := by intro k ls hk; simp [jobI] at hk
  batches := fun _ _ _ => and_when (dated_batch _ (by simp [jobI]))
  blocks := by intro k ls v hk; simp [jobI] at hk
  rows := by intro k ls hk; simp [jobI] at hk
  document := by intro h; cases h
  firstFile := ⟨jobI, by simp, f1, c!"0-0-0", morBase, by simp [jobI],
    ⟨_, _, _, _, _, rfl, rfl, .inl ⟨⟨c!"f1_0-0-0_20231231000000000", rfl⟩, rfl⟩⟩, by decide, by decide⟩

theorem spAppend_ok {before : List Job} {ts : Str} {w : WBlock} {b : Batch} (hI : jobI ∈ before)
    (later : ∀ j' ∈ before, compare j'.commit.ts ts = .lt)
    (time : WriterTimestamp ts ∧ ts.length = 17) (parses : ∃ d, parseDatetime some ts c!"utc" = .ok d)
    (gone : ∀ j' ∈ before, ∀ k, (k, Change.replace) ∉ j'.commit.changes)
    (hv : (versionAfter (commitsOf before) f1).map Version.base = some t0)
    (hcol : columnsBy before t0 f1 = incSchema) (hgood : GoodBlock codecDated some c!"utc" w)
    (hby : WrittenBy w ts) (hroll : ¬ IsRollback w) (hfit : BatchesFit codecDated incSchema [w])
    (hdec : Decodes codecDated w [b]) : JobOk spSetting before (spAppend ts w b) where
  later := later
  time := time
  parses := parses
  once := by simp [spAppend]
  sites := by intro e he; rw [List.mem_singleton.1 he]; exact root_site
  replaces := by intro k hk; simp [spAppend] at hk
  gone := by intro j h k hk; exact absurd hk (gone j h k)
  live := by
    intro k ls hk
    simp only [spAppend, List.mem_singleton, Prod.mk.injEq] at hk
    rw [hk.1]
    intro h
    rw [h] at hv
    cases hv
  ids := by
    intro e he
    rw [List.mem_singleton.1 he]
    show NamePart f1.2
    decide
  tokens := by intro k tk hk; simp [spAppend] at hk
  logs := by
    intro k ls hk
    simp only [spAppend, List.mem_singleton, Prod.mk.injEq, Change.append.injEq] at hk
    rw [hk.2]; decide
  batches := fun _ _ _ => and_when (dated_batch _ (by simp [spAppend]))
  blocks := by
    intro k ls v hk hv' l hl w' hw
    simp only [spAppend, List.mem_singleton, Prod.mk.injEq] at hk
    rw [hk.1] at hv' ⊢
    rw [hv'] at hv
    rw [Option.some.inj hv, hcol]
    have hw' : w' = w := List.mem_singleton.1 hw
    subst hw'
    exact ⟨hgood, hby, hroll, hfit⟩
  rows := by
    intro k ls hk r
    simp only [spAppend, List.mem_singleton, Prod.mk.injEq, Change.append.injEq] at hk
    rw [hk.2]
    constructor
    · intro h
      exact ⟨_, List.mem_singleton_self _, w, List.mem_singleton_self _, _, hdec, by simpa [spAppend] using h⟩
    · rintro ⟨l, _, w', hw, bs, hb, hr⟩
      have hw' : w' = w := List.mem_singleton.1 hw
      subst hw'
      rw [decodes_det hb hdec] at hr
      simpa [spAppend] using hr
  document := by intro h; cases h
  firstFile := ⟨jobI, by simp [hI], f1, c!"0-0-0", morBase, by simp [jobI],
    ⟨_, _, _, _, _, rfl, rfl, .inr ⟨by
      rintro ⟨stem, h⟩
      have h' := congrArg (fun l : Str => l.getLast?) h
      simp [morLog] at h', _, rfl, rfl⟩⟩, by decide, by decide⟩

theorem jobY_ok : JobOk spSetting [jobI] jobY :=
  spAppend_ok (by simp) (by intro j h; rw [List.mem_singleton.1 h]; decide) (by decide) ⟨_, rfl⟩
    (by intro j h; rw [List.mem_singleton.1 h]; simp [jobI]) (by decide) (by decide) x1_good rfl
    (fun h => absurd h.1 (by decide)) (dated_fit _ (by simp)) rfl

theorem jobX_ok : JobOk spSetting [jobI, jobY] jobX :=
  spAppend_ok (by simp) (by decide) (by decide) ⟨_, rfl⟩
    (by
      intro j h
      simp only [List.mem_cons, List.not_mem_nil, or_false] at h
      rcases h with rfl | rfl <;> simp [jobI, jobY, spAppend]) (by decide) (by decide) x2_good rfl
    (fun h => absurd h.1 (by decide)) (dated_fit _ (by simp)) rfl

theorem jobZ_ok : JobOk spSetting [jobI, jobY] jobZ where
  later := by decide
  time := by decide
  parses := ⟨_, rfl⟩
  once := by decide
  sites := by intro e he; rw [List.mem_singleton.1 he]; exact root_site
  replaces := by intro k hk; simp [jobZ] at hk
  gone := by
    intro j h k hk
    simp only [List.mem_cons, List.not_mem_nil, or_false] at h
    rcases h with rfl | rfl <;> simp [jobI, jobY, spAppend] at hk
  live := by intro k ls hk; simp [jobZ] at hk
  ids := by decide
  tokens := by intro k tk hk; simp only [jobZ, List.mem_singleton, Prod.mk.injEq, Change.write.injEq] at hk
               rw [hk.2]; decide
  logs := by intro k ls hk; simp [jobZ] at hk
  batches := fun _ _ _ => and_when (dated_batch _ (by simp [jobZ]))
  blocks := by intro k ls v hk; simp [jobZ] at hk
  rows := by intro k ls hk; simp [jobZ] at hk
  document := by intro h; cases h
  firstFile := ⟨jobZ, by simp, f2, c!"0-4-1", recBase, by simp [jobZ],
    ⟨_, _, _, _, _, rfl, rfl, .inl ⟨⟨c!"f2_0-4-1_20240104000000000", rfl⟩, rfl⟩⟩, by decide, by decide⟩

theorem undoX_good : GoodBlock codecDated some c!"utc" undoX where
  wf := ⟨by decide, by unfold MetaFits; decide, by intro _; unfold MetaFits; decide, by decide,
    (by intro rs h; cases h), (by intro t b h; cases h)⟩
  decodes := ⟨[], rfl⟩
  time := ⟨t3, _, rfl, rfl⟩
  target := fun h => ⟨t2, h, rfl⟩

theorem works_Y : Works spSetting nothingYet spY := by
  have h1 := Works.step (.refl _) (alone_begin nothingYet jobI rfl (by intro u hu; cases hu) jobI_ok)
  have h2 := Works.step h1 (alone_request _ ⟨jobI, [], none, []⟩ putI rfl rfl (by simp [Job.requests, jobI, putI]))
  have h3 := Works.step h2 (alone_complete _ ⟨jobI, [putI], none, []⟩ rfl rfl (fun q hq => hq))
  have h4 := Works.step h3 (alone_begin _ jobY rfl (by intro u hu; rw [List.mem_singleton.1 hu]; decide) jobY_ok)
  have h5 := Works.step h4 (alone_request _ ⟨jobY, [], none, []⟩ appendY rfl rfl List.mem_cons_self)
  have h6 := Works.step h5 (alone_complete _ ⟨jobY, [appendY], none, []⟩ rfl rfl (fun q hq => hq))
  exact h6

theorem works_X : Works spSetting spY spX := by
  have hu : ∀ u ∈ spY.used, compare u t2 = .lt := by decide
  have h1 := Works.step (.refl _) (alone_begin spY jobX rfl hu jobX_ok)
  have h2 := Works.step h1 (alone_request _ ⟨jobX, [], none, []⟩ appendX rfl rfl List.mem_cons_self)
  exact h2

theorem works_spR (l : Str × Str) (hl : NamePart l.1 ∧ NamePart l.2) : Works spSetting spX (spR l) := by
  have hu : ∀ u ∈ spX.used, compare u t3 = .lt := by decide
  have h1 := Works.step (S := spSetting) (.refl _) (alone_rollback spX ⟨jobX, [appendX], none, []⟩ t3 rfl hu (by decide) ⟨_, rfl⟩)
  have h2 := Works.step h1 (alone_block _ ⟨jobX, [appendX], some t3, []⟩ t3 f1 [(c!"1", c!"0-0-1")]
    ⟨t0, c!"0-0-0", [(c!"1", c!"0-0-1")]⟩ l undoX rfl rfl List.mem_cons_self rfl hl undoX_good rfl
    ⟨⟨rfl, _, rfl, rfl⟩, rfl⟩)
  refine Works.step h2 (alone_recovered _ ⟨jobX, [appendX], some t3, [f1]⟩ t3 rfl rfl ?_ ?_)
  · intro k token hk
    simp [jobX, spAppend] at hk
  · intro k ls v l hk _ _ _
    have hk' : k = f1 ∧ ls = [(c!"1", c!"0-0-1")] := by simpa [jobX, spAppend] using hk
    rw [hk'.1]
    exact List.mem_cons_self

theorem works_Z (l : Str × Str) : Works spSetting (spR l) (spZ l) := by
  have hu : ∀ u ∈ (spR l).used, compare u t4 = .lt := by
    show ∀ u ∈ [t3, t2, t1, t0], compare u t4 = .lt
    decide
  have h1 := Works.step (.refl _) (alone_begin (spR l) jobZ rfl hu jobZ_ok)
  have h2 := Works.step h1 (alone_request _ ⟨jobZ, [], none, []⟩ putZ rfl rfl List.mem_cons_self)
  have h3 := Works.step h2 (alone_complete _ ⟨jobZ, [putZ], none, []⟩ rfl rfl (fun q hq => hq))
  exact h3

theorem jobI_documented : Documented [] jobI where
  document := by
    refine ⟨_, chDocs_record t0 (by simp), by decide, ?_⟩
    intro w
    constructor
    · intro h
      rw [show w = _ from List.mem_singleton.1 h]
      exact ⟨f1, .write c!"0-0-0", by simp [jobI], rfl⟩
    · rintro ⟨k, ch, h1, h2⟩
      simp only [jobI, List.mem_singleton, Prod.mk.injEq] at h1
      rw [h1.1, h1.2] at h2
      rw [← Option.some.inj h2]
      exact List.mem_cons_self
  commitTime := fun _ _ _ => ⟨_, rfl, rfl⟩
  dated := by intro k ls v hk; simp [jobI] at hk

theorem jobY_documented : Documented [jobI] jobY where
  document := by
    refine ⟨_, chDocs_record t2 (by simp), by decide, ?_⟩
    intro w
    constructor
    · intro h
      rw [show w = _ from List.mem_singleton.1 h]
      exact ⟨f1, .append [(c!"1", c!"0-0-1")], by simp [jobY, spAppend], rfl⟩
    · rintro ⟨k, ch, h1, h2⟩
      simp only [jobY, spAppend, List.mem_singleton, Prod.mk.injEq] at h1
      rw [h1.1, h1.2] at h2
      rw [← Option.some.inj h2]
      exact List.mem_cons_self
  commitTime := fun _ _ h => by simp [jobY, spAppend] at h
  dated := by
    intro k ls v hk hv r hr
    simp only [jobY, spAppend, List.mem_singleton, Prod.mk.injEq] at hk
    rw [hk.1] at hv ⊢
    have hv' : (versionAfter (commitsOf [jobI]) f1).map Version.base = some t0 := by decide
    rw [hv] at hv'
    rw [Option.some.inj hv', show r = _ from List.mem_singleton.1 hr]
    decide

theorem jobZ_documented : Documented [jobI, jobY] jobZ where
  document := by
    refine ⟨_, chDocs_record t4 (by simp), by decide, ?_⟩
    intro w
    constructor
    · intro h
      rw [show w = _ from List.mem_singleton.1 h]
      exact ⟨f2, .write c!"0-4-1", by simp [jobZ], rfl⟩
    · rintro ⟨k, ch, h1, h2⟩
      simp only [jobZ, List.mem_singleton, Prod.mk.injEq] at h1
      rw [h1.1, h1.2] at h2
      rw [← Option.some.inj h2]
      exact List.mem_cons_self
  commitTime := fun _ _ _ => ⟨_, rfl, rfl⟩
  dated := by intro k ls v hk; simp [jobZ] at hk

theorem spZ_documented : AllDocumented [jobI, jobY, jobZ] := by
  intro d1 j d2 h
  match d1, h with
  | [], h => cases h; exact jobI_documented
  | [_], h => cases h; exact jobY_documented
  | [_, _], h => cases h; exact jobZ_documented
  | _ :: _ :: _ :: _, h => simp at h

theorem spY_documented : AllDocumented [jobI, jobY] :=
  fun d1 j d2 h => spZ_documented d1 j (d2 ++ [jobZ]) (by
    have := congrArg (· ++ [jobZ]) h
    simpa using this)

/-- Checking by computation where the rollbacks are. -/
theorem inPlace_of {s : Work} (ok : List WBlock → Prop) (h : ∀ e ∈ s.store, ∀ ws, e.2 = .log ws → ok ws)
    (hok : ∀ ws, ok ws → ∀ w ∈ ws, ∀ i, ¬ IsRollback w → WrittenBy w i →
      (∃ j ∈ s.done, j.commit.ts = i) ∨ (∃ a ∈ s.current, a.job.commit.ts = i) ∨ ∃ w' ∈ ws, RollsBack w' i) :
    RollbacksInPlace s := by
  intro p ws w i hg hw hr hb
  unfold Objects.get at hg
  obtain ⟨e, he, hs⟩ := Option.map_eq_some_iff.1 hg
  exact hok ws (h e (List.mem_of_find?_eq_some he) ws hs) w hw i hr hb

theorem spX_inPlace : RollbacksInPlace spX := by
  refine inPlace_of (fun ws => ws = [x1, x2]) ?_ ?_
  · intro e he ws hws
    have hs : spX.store = [(baseAt f1 c!"0-0-0" t0, .file (.parquet 1 base1)),
        (instantAt jobI.commit, .file (.json (.obj chDoc0))), (instantAt jobY.commit, .file (.json (.obj chDoc2))),
        (logAt f1 t0 here, .log [x1, x2])] := rfl
    rw [hs] at he
    simp only [List.mem_cons, List.not_mem_nil, or_false] at he
    rcases he with rfl | rfl | rfl | rfl
    · cases hws
    · cases hws
    · cases hws
    · cases hws; rfl
  · rintro ws rfl w hw i hr hb
    simp only [List.mem_cons, List.not_mem_nil, or_false] at hw
    rcases hw with rfl | rfl
    · cases (show some t1 = some i from hb)
      exact .inl ⟨jobY, by simp [spX], rfl⟩
    · cases (show some t2 = some i from hb)
      exact .inr (.inl ⟨_, List.mem_cons_self, rfl⟩)

theorem spZ_inPlace : RollbacksInPlace (spZ here) := by
  refine inPlace_of (fun ws => ws = [x1, x2, undoX]) ?_ ?_
  · intro e he ws hws
    have hs : (spZ here).store = [(baseAt f1 c!"0-0-0" t0, .file (.parquet 1 base1)),
        (instantAt jobI.commit, .file (.json (.obj chDoc0))), (instantAt jobY.commit, .file (.json (.obj chDoc2))),
        (logAt f1 t0 here, .log [x1, x2, undoX]), (baseAt f2 c!"0-4-1" t4, .file (.parquet 1 base2)),
        (instantAt jobZ.commit, .file (.json (.obj chDoc4)))] := rfl
    rw [hs] at he
    simp only [List.mem_cons, List.not_mem_nil, or_false] at he
    rcases he with rfl | rfl | rfl | rfl | rfl | rfl
    · cases hws
    · cases hws
    · cases hws
    · cases hws; rfl
    · cases hws
    · cases hws
  · rintro ws rfl w hw i hr hb
    simp only [List.mem_cons, List.not_mem_nil, or_false] at hw
    rcases hw with rfl | rfl | rfl
    · cases (show some t1 = some i from hb)
      exact .inl ⟨jobY, by simp [spZ], rfl⟩
    · cases (show some t2 = some i from hb)
      exact .inr (.inr ⟨undoX, by simp, ⟨rfl, _, rfl, rfl⟩, rfl⟩)
    · exact absurd ⟨rfl, _, rfl, rfl⟩ hr

/-- Opened while the third write is under way. -/
def spTable : Table := ⟨morOpts, [], ⟨[], [⟨t0, .commit, .completed, 1703980800000⟩,
  ⟨t1, .deltaCommit, .completed, 1704067200000⟩]⟩⟩

/-- Opened when the fourth write has completed. -/
def spTable' : Table := ⟨morOpts, [], ⟨[], [⟨t0, .commit, .completed, 1703980800000⟩,
  ⟨t1, .deltaCommit, .completed, 1704067200000⟩, ⟨t4, .commit, .completed, 1704326400000⟩]⟩⟩

theorem sp_handle : HandleAt env spSetting spX spTable where
  load := ⟨[], rfl⟩
  clock := rfl
  zone := rfl
  options := rfl
  merges := ⟨⟨by simp [HmNodup, spTable], by simp [spTable]⟩, ⟨by decide, rfl, by decide⟩, rfl, rfl⟩

theorem sp_handle' (l : Str × Str) (hl : l = here ∨ l = elsewhere) : HandleAt env spSetting (spZ l) spTable' where
  load := ⟨[], by rcases hl with rfl | rfl <;> rfl⟩
  clock := rfl
  zone := rfl
  options := rfl
  merges := ⟨⟨by simp [HmNodup, spTable'], by simp [spTable']⟩, ⟨by decide, rfl, by decide⟩, rfl, rfl⟩

/-- The commits are read when the third write has been rolled back, the files when the fourth one has completed. -/
def spMoments : Moments := ⟨fun _ => spX, spR here, spR here, fun _ => spZ here, fun _ => spX, fun _ => spR here,
  fun _ => spZ here⟩

theorem sp_since : Since spSetting spX spMoments :=
  ⟨fun _ => .refl _, works_spR _ (by decide), works_spR _ (by decide),
    fun _ => works_trans (works_spR _ (by decide)) (works_Z _), fun _ => .refl _, fun _ => works_spR _ (by decide),
    fun _ _ => works_trans (works_spR _ (by decide)) (works_Z _)⟩

theorem works_spZ (l : Str × Str) (hl : NamePart l.1 ∧ NamePart l.2) : Works spSetting nothingYet (spZ l) :=
  works_trans works_Y (works_trans works_X (works_trans (works_spR l hl) (works_Z l)))

end Demo

open Demo in
/-- The hypotheses of C84 are met by an insert, a write that appends a block, another one that appends to the same
log file and stops, its rollback, and an insert into another file group.  A handle opened when the third write had
stopped reads what changed up to the second one, while the third one is rolled back and the fourth one works; one
opened at the end reads what the second one and the fourth one have written. -/
example : MonotoneTz env.ltz ∧ WholeSecondsTz env.ltz ∧ Works spSetting nothingYet spX ∧
    AllDocumented spX.done ∧ RollbacksInPlace spX ∧ Since spSetting spX spMoments ∧
    HandleAt env spSetting spX spTable ∧ jobY.commit ∈ spX.history ∧
    Works spSetting nothingYet (spZ here) ∧ AllDocumented (spZ here).done ∧ RollbacksInPlace (spZ here) ∧
    HandleAt env spSetting (spZ here) spTable' ∧ jobZ.commit ∈ (spZ here).history ∧
    MetaFields spSetting.o ∧ (WriterTimestamp t0 ∧ t0.length = spSetting.width) ∧
    (∃ d, parseDatetime spSetting.ltz t0 spSetting.tz = .ok d) ∧
    spTable.readIncrementalR env arrow codecDated (mergeEnv arrow) spMoments.race t0 (some t1) = .ok [x1Batch] ∧
    spTable'.readIncremental env arrow codecDated (mergeEnv arrow) (spZ here).tree t0 (some t4) =
      .ok [x1Batch, base2] :=
  ⟨by intro a b a' b' h1 h2 h; cases h1; cases h2; exact h, by intro n d h; cases h; rfl,
    works_trans works_Y works_X, spY_documented, spX_inPlace, sp_since, sp_handle, by simp [spX, Work.history, commitsOf],
    works_spZ _ (by decide), spZ_documented, spZ_inPlace, sp_handle' _ (.inl rfl),
    by simp [spZ, Work.history, commitsOf], by decide, by decide, ⟨_, rfl⟩, by decide +kernel, by decide +kernel⟩

open Demo in
/-- **C84 as stated is false.**  A write appends to a log file and fails.  Its rollback leaves its block in the next
log file, which no commit of the span names.  All writers behave as required, and the rollback has ended; yet the read
of the changes returns a record of the failed write, which no completed write has written. -/
theorem C84_false : ∃ (E : Env) (A : Arrow) (S : Setting) (M : MergeEnv A) (s : Work) (tb : Table) (start : Str)
    (c : HCommit) (outs : List Batch),
    MonotoneTz E.ltz ∧ WholeSecondsTz E.ltz ∧ Works S nothingYet s ∧ s.current = [] ∧ AllDocumented s.done ∧
    HandleAt E S s tb ∧ MetaFields S.o ∧ (WriterTimestamp start ∧ start.length = S.width) ∧
    (∃ d, parseDatetime S.ltz start S.tz = .ok d) ∧ c ∈ s.history ∧
    tb.readIncremental E A S.C M s.tree start (some c.ts) = .ok outs ∧
    ∃ r ∈ outs.flatMap Batch.rows, ∀ k, r ∉ recordsAt (rowsOf s.done) s.history c.ts k := by
  refine ⟨env, arrow, spSetting, mergeEnv arrow, spZ elsewhere, spTable', t0, jobZ.commit,
    [⟨incSchema, x2Batch.rows ++ x1Batch.rows⟩, base2],
    by intro a b a' b' h1 h2 h; cases h1; cases h2; exact h, by intro n d h; cases h; rfl, works_spZ _ (by decide), rfl,
    spZ_documented, sp_handle' _ (.inr rfl), by decide, by decide, ⟨_, rfl⟩, by simp [spZ, Work.history, commitsOf],
    by decide +kernel, datedRow c!"4" c!"C" c!"z" 9 t2, by decide, ?_⟩
  intro k hk
  obtain ⟨ts, h⟩ := recordsAfter_sub hk
  have hj : ∀ j ∈ [jobI, jobY, jobZ], ∀ k, datedRow c!"4" c!"C" c!"z" 9 t2 ∉ (j.base k).rows ∧
      datedRow c!"4" c!"C" c!"z" 9 t2 ∉ j.appended k := by
    intro j hj k
    simp only [List.mem_cons, List.not_mem_nil, or_false] at hj
    rcases hj with rfl | rfl | rfl
    · exact ⟨show _ ∉ base1.rows by decide, show _ ∉ [] by decide⟩
    · exact ⟨show _ ∉ base1.rows by decide, show _ ∉ x1Batch.rows by decide⟩
    · exact ⟨show _ ∉ base2.rows by decide, show _ ∉ [] by decide⟩
  replace h : _ ∈ (jobAt [jobI, jobY, jobZ] ts).elim [] (fun j => (j.base k).rows) ∨
    _ ∈ (jobAt [jobI, jobY, jobZ] ts).elim [] (fun j => j.appended k) := h
  rcases hf : jobAt [jobI, jobY, jobZ] ts with _ | j
  · rw [hf] at h
    simp at h
  · rw [hf] at h
    have := hj j (List.mem_of_find?_eq_some hf) k
    exact h.elim this.1 this.2

end Hudi
