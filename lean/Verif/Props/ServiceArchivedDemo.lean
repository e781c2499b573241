import Verif.Props.ServiceArchived
import Verif.Props.ArchiverOpenedDemo

/-! # C99 beside an archiver: concrete cases -/

namespace Hudi
open Spec
namespace Demo

/-- The services have worked, and the archiver has deleted the timeline file of the first commit. -/
def sxA : Work := { svW with store := (Request.delete (instantAt jobI.commit)).run svW.store }

/-- Then the cleaner deletes the log file of the version that was compacted. -/
def sxC : Work := { sxA with store := (Request.delete (logAt f1 t0 here)).run sxA.store }

theorem sx_toA : Archives spSetting clTs t1 nothingYet sxA :=
  .step (archives_of_works (works_then works_Y (works_then sv_works_V sv_works_W)))
    (.archive svW jobI (by simp [svW]) (by decide) (by decide))

theorem sx_toC : Archives spSetting clTs t1 sxA sxC :=
  .step (.refl _) (.clean _ _ (.log sxA jobI f1 c!"0-0-0" here List.mem_cons_self List.mem_cons_self
    ⟨svCompact, by simp [sxA, svW], by decide, by decide, .inl ⟨c!"0-9-9", List.mem_cons_self⟩⟩ (by decide)))

theorem sx_inPlace : RollbacksInPlace sxA := by
  intro p ws w i hg hw hr hb
  refine svW_inPlace p ws w i ?_ hw hr hb
  by_cases hp : p = instantAt jobI.commit
  · subst hp
    have : sxA.store.get (instantAt jobI.commit) = none := rfl
    rw [this] at hg
    cases hg
  · rw [← hg]
    exact ((get_run (Request.delete (instantAt jobI.commit)) p).trans (if_neg hp)).symm

def sxTable : Table := ⟨morOpts, [], ⟨[], [⟨t1, .deltaCommit, .completed, 1704067200000⟩,
  ⟨clTs, .commit, .completed, 1704499200000⟩, ⟨svTs, .replaceCommit, .completed, 1704585600000⟩]⟩⟩

def sxMoments : Moments := ⟨fun _ => sxA, sxC, sxA, fun _ => sxA, fun _ => sxA, fun _ => sxC, fun _ => sxC⟩

theorem sx_since : SinceArchived spSetting clTs t1 sxA sxMoments :=
  ⟨fun _ => .refl _, sx_toC, .refl _, fun _ => .refl _, fun _ => .refl _, fun _ => sx_toC, fun _ _ => sx_toC⟩

theorem sx_since' : SinceArchived spSetting t0 t0 spY svMoments :=
  ⟨fun _ => .refl _, .refl _, archives_of_works sv_works_V, fun _ => archives_of_works sv_works_V,
    fun _ => archives_of_works sv_works_V, fun _ => .refl _, fun _ _ => archives_of_works sv_works_W⟩

/-- Both tables with a properties file. -/
theorem sx_worksP {s : Work} {r q : Str} (h : Archives spSetting r q nothingYet s) :
    Archives pathSpSetting r q nothingYet (withProps s) :=
  archives_more (archives_with (S := spSetting) path_sites (by decide) h) (archives_of_works (props_works _ rfl rfl _))

theorem sx_inPlaceP : RollbacksInPlace (withProps sxA) := by
  intro p ws w i hg hw hr hb
  refine sx_inPlace p ws w i ?_ hw hr hb
  by_cases hp : p = putProps.path
  · subst hp
    have : (withProps sxA).store.get putProps.path = some (.file (.bytes (utf8Encode tripsText))) := rfl
    rw [this] at hg
    cases hg
  · rw [← hg]
    exact ((get_run putProps p).trans (if_neg hp)).symm

end Demo

open Demo in
/-- The hypotheses of C99 with an archiver are met by an insert, a write that appends, the compaction of the file group,
and its clustering into two others.  The archiver has deleted the timeline file of the insert when the second handle is
opened, and the cleaner deletes the log file that was compacted while it reads.  It reads the same three rows as the handle
opened before the services worked; there are no changes since the second write. -/
example : MonotoneTz env.ltz ∧ WholeSecondsTz env.ltz ∧ Archives spSetting t0 t0 nothingYet spY ∧
    Archives spSetting clTs t1 nothingYet sxA ∧ NamesCurrent spY ∧ NamesCurrent sxA ∧
    sxA.done = spY.done ++ [svCompact, svCluster] ∧ AllRewrite arrow spSetting.pre spY.done [svCompact, svCluster] ∧
    NoTies arrow spSetting.pre spY.done ∧ SinceArchived spSetting t0 t0 spY svMoments ∧
    SinceArchived spSetting clTs t1 sxA sxMoments ∧
    OpenedAt env arrow spSetting spY spTable [] [] false false ∧
    OpenedAt env arrow spSetting sxA sxTable [] [] false false ∧ spSetting.depth < 1 ∧
    (∀ c, spY.history.getLast? = some c → (compare t0 c.ts).isLE ∧ (compare t0 c.ts).isLE) ∧
    (∀ c, sxA.history.getLast? = some c → (compare clTs c.ts).isLE ∧ (compare t1 c.ts).isLE) ∧
    AllDocumented sxA.done ∧ RollbacksInPlace sxA ∧ MetaFields spSetting.o ∧
    (WriterTimestamp t1 ∧ t1.length = spSetting.width) ∧
    (∃ d, parseDatetime spSetting.ltz t1 spSetting.tz = .ok d) ∧ (compare t1 t1).isLE ∧ CommittedBy spY.done t1 ∧
    spTable.readSnapshotR env arrow codecDated (mergeEnv arrow) 1 svMoments.race [] =
      .ok [⟨incSchema, [datedRow c!"1" c!"C" c!"bob" 7 t0, datedRow c!"1" c!"A" c!"ann" 5 t0,
        datedRow c!"3" c!"B" c!"y" 1 t1]⟩] ∧
    sxTable.readSnapshotR env arrow codecDated (mergeEnv arrow) 1 sxMoments.race [] = .ok [svSecond, svFirst] ∧
    sxTable.readIncrementalR env arrow codecDated (mergeEnv arrow) sxMoments.race t1 none =
      .ok [⟨incSchema, []⟩, ⟨incSchema, []⟩] :=
  ⟨by intro a b a' b' h1 h2 h; cases h1; cases h2; exact h, by intro n d h; cases h; rfl, archives_of_works works_Y,
    sx_toA, sv_current', sv_current, rfl, sv_rewrite, sv_noTies, sx_since', sx_since, sv_opened',
    ar_opened sxA _ rfl (by rfl), by decide, by intro c hc; cases hc; decide, by intro c hc; cases hc; decide,
    svW_documented, sx_inPlace, by decide, by decide, ⟨_, rfl⟩, by decide, sv_committed, by decide +kernel,
    by decide +kernel, by decide +kernel⟩

open Demo in
/-- The hypotheses of C99 from the path are met by the same tables, in which a properties file has been put. -/
example : Archives pathSpSetting t0 t0 nothingYet (withProps spY) ∧
    Archives pathSpSetting clTs t1 nothingYet (withProps sxA) ∧ NamesCurrent (withProps spY) ∧ NamesCurrent (withProps sxA) ∧
    (withProps sxA).done = (withProps spY).done ++ [svCompact, svCluster] ∧
    AllRewrite arrow pathSpSetting.pre (withProps spY).done [svCompact, svCluster] ∧
    NoTies arrow pathSpSetting.pre (withProps spY).done ∧
    TableOf env pathSpSetting (withProps spY) (openWorld (withProps spY).tree) c!"s3://b/trips" openCalls ∧
    TableOf env pathSpSetting (withProps sxA) (openWorld (withProps sxA).tree) c!"s3://b/trips" openCalls ∧
    Askable arrow pathSpSetting [] [] false false ∧ pathSpSetting.depth < 1 ∧
    (∀ c, (withProps spY).history.getLast? = some c → (compare t0 c.ts).isLE ∧ (compare t0 c.ts).isLE) ∧
    (∀ c, (withProps sxA).history.getLast? = some c → (compare clTs c.ts).isLE ∧ (compare t1 c.ts).isLE) ∧
    AllDocumented (withProps sxA).done ∧ RollbacksInPlace (withProps sxA) ∧ MetaFields pathSpSetting.o ∧
    WriterTimestamp t1 ∧ t1.length = pathSpSetting.width ∧
    (∃ d, parseDatetime pathSpSetting.ltz t1 pathSpSetting.tz = .ok d) ∧ (compare t1 t1).isLE ∧
    CommittedBy (withProps spY).done t1 :=
  ⟨sx_worksP (archives_of_works works_Y), sx_worksP sx_toA, sv_current', sv_current, rfl, sv_rewrite,
    sv_noTies,
    tableOf_build rfl rfl rfl rfl rfl (show (builderOf c!"s3://b/trips" openCalls).build env
      (openWorld (withProps spY).tree) = .ok ⟨openOpts, [(c!"timeout", c!"10s"), (c!"aws_region", c!"env")],
        ⟨openOpts, spTable.timeline.completed⟩⟩ by decide +kernel),
    tableOf_build rfl rfl rfl rfl rfl (show (builderOf c!"s3://b/trips" openCalls).build env
      (openWorld (withProps sxA).tree) = .ok ⟨openOpts, [(c!"timeout", c!"10s"), (c!"aws_region", c!"env")],
        ⟨openOpts, sxTable.timeline.completed⟩⟩ by decide +kernel),
    ⟨⟨by decide, by decide⟩, rfl, by simp, ⟨rfl, rfl⟩, by intro v hv; cases hv; decide⟩, by decide,
    by intro c hc; cases hc; decide, by intro c hc; cases hc; decide, svW_documented, sx_inPlaceP, by decide, by decide,
    by decide, ⟨_, rfl⟩, by decide, sv_committed⟩

end Hudi
