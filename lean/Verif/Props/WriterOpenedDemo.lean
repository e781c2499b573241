import Verif.Props.WriterOpened
import Verif.Props.OpenedDemo
import Verif.Props.RacingWriterDemo
import Verif.Props.WriterChangesDemo

/-! # C82–C84 for tables opened by their path: tables that meet the hypotheses -/

namespace Hudi
open Spec
namespace Demo

/-- The properties file is put. -/
def putProps : Request := .put [c!".hoodie", c!"hoodie.properties"] (.bytes (utf8Encode tripsText))

def withProps (s : Work) : Work := { s with store := putProps.run s.store }

/-- The writers agree on the options that are in that file. -/
def pathSetting : Setting := { wkSetting with o := openOpts }
def pathSpSetting : Setting := { spSetting with o := openOpts }

theorem path_sites (x : Str) : PartitionPath morOpts x ↔ PartitionPath openOpts x := by
  unfold PartitionPath
  rw [show Partitioned morOpts ↔ Partitioned openOpts by decide]

theorem path_works {s s' : Work} (h : Works wkSetting s s') : Works pathSetting s s' :=
  works_with (S := wkSetting) path_sites (by decide) h

theorem path_spWorks {s s' : Work} (h : Works spSetting s s') : Works pathSpSetting s s' :=
  works_with (S := spSetting) path_sites (by decide) h

theorem props_unread (S : Setting) (h1 : S.ltz = some) (h2 : S.tz = c!"utc") : Unread S putProps.path := by
  refine .inl ⟨_, rfl, by decide, ?_⟩
  rw [h1, h2]
  have : ((loadSelector c!"utc" [.commit, .deltaCommit, .replaceCommit]).tryCreateInstant some
      c!"hoodie.properties").toOption.isSome = false := by decide
  intro h
  have h' := completedFile_iff.1 h
  exact absurd (this.symm.trans h') (by decide)

theorem props_works (S : Setting) (h1 : S.ltz = some) (h2 : S.tz = c!"utc") (s : Work) : Works S s (withProps s) :=
  .step (.refl _) (.aside _ putProps (props_unread S h1 h2))

/-- What the path gives when the second write of C82 has stopped. -/
def pathTable : Table := ⟨openOpts, [(c!"timeout", c!"10s"), (c!"aws_region", c!"env")],
  ⟨openOpts, [⟨t0, .commit, .completed, 1703980800000⟩]⟩⟩

theorem path_build : (builderOf c!"s3://b/trips" openCalls).build env (openWorld (withProps wkB).tree) =
    .ok pathTable := by decide +kernel

/-- What the path gives when the third write of C84 has stopped. -/
def pathSpTable : Table := ⟨openOpts, [(c!"timeout", c!"10s"), (c!"aws_region", c!"env")],
  ⟨openOpts, [⟨t0, .commit, .completed, 1703980800000⟩, ⟨t1, .deltaCommit, .completed, 1704067200000⟩]⟩⟩

theorem path_spBuild : (builderOf c!"s3://b/trips" openCalls).build env (openWorld (withProps spX).tree) =
    .ok pathSpTable := by decide +kernel

theorem tableOf_build {S : Setting} {s : Work} {tb : Table} (ho : S.o = openOpts) (hp : S.pre = c!"ts")
    (hc : S.ltz = some) (hz : S.tz = c!"utc") (htb : tb.opts = openOpts)
    (hb : (builderOf c!"s3://b/trips" openCalls).build env (openWorld s.tree) = .ok tb) :
    TableOf env S s (openWorld s.tree) c!"s3://b/trips" openCalls := by
  have hat : TableAt (openWorld s.tree) c!"s3://b/trips" openCalls ⟨s.tree, fun _ => none⟩ openOpts :=
    htb ▸ tableAt_of_build (fun _ => rfl) hb (by rw [htb]; rfl)
  obtain ⟨h1, h2⟩ := (C71_opens_exactly env _ _ _ _ _ hat).1.1 ⟨_, hb⟩
  have h3 := h1.resolve_left (by unfold SkipsValidation; decide)
  refine ⟨⟨_, ho ▸ hat, rfl⟩, by decide, ho ▸ h3.1, ho ▸ h3.2, h2, hc.symm, ?_, ?_, ?_⟩
  · rw [ho, hz]; rfl
  · rw [ho, hp]; exact ⟨by decide, rfl, by decide⟩
  · rw [ho]; rfl

theorem path_askable : Askable arrow pathSetting [] [] false false :=
  ⟨⟨by decide, by decide⟩, rfl, by simp, ⟨rfl, rfl⟩, by intro v hv; cases hv; decide⟩

/-- The rollback of that write has deleted the base file. -/
def pathR : Work := ⟨(Request.delete (baseAt f2 c!"0-4-1" jobB.commit.ts)).run (withProps wkB).store, wkB.done,
  [⟨jobB, [putB, appendB], some t3, []⟩], t3 :: wkB.used⟩

theorem path_undone : Works pathSetting (withProps wkB) pathR := by
  have hu : ∀ u ∈ wkB.used, compare u t3 = .lt := by decide
  have h1 := Works.step (S := pathSetting) (.refl _)
    (alone_rollback (withProps wkB) ⟨jobB, [putB, appendB], none, []⟩ t3 rfl hu (by decide) ⟨_, rfl⟩)
  exact Works.step h1 (alone_delete _ ⟨jobB, [putB, appendB], some t3, []⟩ t3 f2 c!"0-4-1" rfl rfl
    (.tail _ List.mem_cons_self))

/-- The partition is listed when the base file is there, the files are read when it is gone. -/
def pathMoments : Moments := ⟨fun _ => withProps wkB, pathR, withProps wkB, fun _ => withProps wkB,
  fun _ => withProps wkB, fun _ => pathR, fun _ => pathR⟩

/-- The commits are read when another file has been put aside. -/
def pathSpMoments : Moments := ⟨fun _ => withProps spX, withProps spX, withProps spX, fun _ => withProps spX,
  fun _ => withProps spX, fun _ => withProps spX, fun _ => withProps (withProps spX)⟩

theorem pathSp_inPlace : RollbacksInPlace (withProps spX) := by
  intro p ws w i hg hw hr hb
  refine spX_inPlace p ws w i ?_ hw hr hb
  by_cases hp : p = putProps.path
  · subst hp
    have : (withProps spX).store.get putProps.path = some (.file (.bytes (utf8Encode tripsText))) := rfl
    rw [this] at hg
    cases hg
  · rw [← hg]
    exact ((get_run putProps p).trans (if_neg hp)).symm

end Demo

open Demo in
/-- The hypotheses of the theorems for C82 and C83 are met by a table whose second write has stopped, which is opened
by its path; what is read from it, before and during the rollback, is the insert. -/
example : MonotoneTz env.ltz ∧ WholeSecondsTz env.ltz ∧ Works pathSetting nothingYet (withProps wkB) ∧
    TableOf env pathSetting (withProps wkB) (openWorld (withProps wkB).tree) c!"s3://b/trips" openCalls ∧
    Askable arrow pathSetting [] [] false false ∧ pathSetting.depth < 1 ∧
    Since pathSetting (withProps wkB) pathMoments ∧ jobA.commit ∈ (withProps wkB).history ∧
    (builderOf c!"s3://b/trips" openCalls).build env (openWorld (withProps wkB).tree) = .ok pathTable ∧
    (pathTable.readSnapshot env arrow codec (mergeEnv arrow) (withProps wkB).tree [] []).2 =
      .ok [⟨mSchema, [mRow c!"1" c!"C" c!"bob" 7, mRow c!"1" c!"A" c!"ann" 5]⟩] ∧
    pathTable.readSnapshotR env arrow codec (mergeEnv arrow) 1 pathMoments.race [] =
      .ok [⟨mSchema, [mRow c!"1" c!"C" c!"bob" 7, mRow c!"1" c!"A" c!"ann" 5]⟩] :=
  ⟨by intro a b a' b' h1 h2 h; cases h1; cases h2; exact h, by intro n d h; cases h; rfl,
    works_trans (path_works (works_trans works_A works_B)) (props_works _ rfl rfl _),
    tableOf_build rfl rfl rfl rfl rfl path_build, path_askable, by decide,
    ⟨fun _ => .refl _, path_undone, .refl _, fun _ => .refl _, fun _ => .refl _, fun _ => path_undone,
      fun _ _ => path_undone⟩, List.mem_singleton.2 rfl, path_build, by decide +kernel, by decide +kernel⟩

open Demo in
/-- The hypotheses of the theorems for C84 are met by a table whose third write has stopped, which is opened by its
path; what is read from it is the change of the second write. -/
example : Works pathSpSetting nothingYet (withProps spX) ∧ AllDocumented (withProps spX).done ∧
    RollbacksInPlace (withProps spX) ∧
    TableOf env pathSpSetting (withProps spX) (openWorld (withProps spX).tree) c!"s3://b/trips" openCalls ∧
    MetaFields pathSpSetting.o ∧ Since pathSpSetting (withProps spX) pathSpMoments ∧
    WriterTimestamp t0 ∧ t0.length = pathSpSetting.width ∧
    (∃ d, parseDatetime pathSpSetting.ltz t0 pathSpSetting.tz = .ok d) ∧ jobY.commit ∈ (withProps spX).history ∧
    (builderOf c!"s3://b/trips" openCalls).build env (openWorld (withProps spX).tree) = .ok pathSpTable ∧
    pathSpTable.readIncrementalR env arrow codecDated (mergeEnv arrow) pathSpMoments.race t0 (some t1) =
      .ok [x1Batch] :=
  ⟨works_trans (path_spWorks (works_trans works_Y works_X)) (props_works _ rfl rfl _), spY_documented, pathSp_inPlace,
    tableOf_build rfl rfl rfl rfl rfl path_spBuild, by decide,
    ⟨fun _ => .refl _, .refl _, .refl _, fun _ => .refl _, fun _ => .refl _, fun _ => .refl _,
      fun _ _ => props_works _ rfl rfl _⟩, by decide, by decide, ⟨_, rfl⟩,
    by simp [withProps, spX, Work.history, commitsOf], path_spBuild, by decide +kernel⟩

end Hudi
