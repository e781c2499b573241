import Verif.Spec.Cleaner
import Verif.Spec.Mirror

/-!
# Specification: consumers of changes, while writers and a cleaner work

The cleaner deletes what was superseded by a time that moves on.  When a consumer visits the table, that time is no
later than the latest commit then, and stays so during the visit.
-/

namespace Hudi.Spec

/-- The cleaner keeps, at `s`, what the latest commit of the table needs: it deletes what was superseded by `r`, which
is not later. -/
def KeepsLatest (r : Str) (s : Work) : Prop := ∀ c, s.history.getLast? = some c → (compare r c.ts).isLE = true

/-- As `Follows`, while a cleaner works too, which has come to delete what was superseded by the time `r`. -/
inductive FollowsCleaned (E : Env) (A : Arrow) (S : Setting) (M : MergeEnv A) (pos0 : Str) :
    Str → List Poll → Work → Str → Prop
  | begins (r : Str) (s : Work) (c : HCommit) (hs : Cleans S r nothingYet s) (hl : s.history.getLast? = some c)
    (hp : pos0 = c.ts) : FollowsCleaned E A S M pos0 r [] s c.ts
  | polls {r : Str} {ps : List Poll} {s : Work} {pos : Str} (h : FollowsCleaned E A S M pos0 r ps s pos) (r' : Str)
    (hle : (compare r r').isLE = true) (s' : Work) (hs : Cleans S r' s s') (hk : KeepsLatest r' s') (tb : Table)
    (ho : HandleAt E S s' tb) (m : Moments) (hm : SinceCleaned S r' s' m) (stop : Str)
    (hl : tb.timeline.latestTimestampR = .ok stop) (outs : List Batch)
    (hr : tb.readIncrementalR E A S.C M m.race pos none = .ok outs) :
    FollowsCleaned E A S M pos0 r' (ps ++ [⟨s', pos, stop, outs⟩]) s' stop

/-- As `Mirrors`, while a cleaner works too. -/
inductive MirrorsCleaned (E : Env) (A : Arrow) (S : Setting) (M : MergeEnv A) (schema : Schema) :
    Str → List Work → List (List Cell) → Work → Str → Prop
  | begins (r : Str) (s : Work) (c : HCommit) (hs : Cleans S r nothingYet s) (hk : KeepsLatest r s) (hn : NamesCurrent s)
    (hl : s.history.getLast? = some c) (tb : Table) (hive url : Bool) (ho : OpenedAt E A S s tb [] [] hive url)
    (m : Moments) (hm : SinceCleaned S r s m) (depth : Nat) (hd : S.depth < depth) (outs : List Batch)
    (hr : tb.readSnapshotR E A S.C M depth m.race [] = .ok outs) (copy : List (List Cell))
    (hc : LatestVersions A schema S.pre (outs.flatMap Batch.rows) copy) : MirrorsCleaned E A S M schema r [] copy s c.ts
  | polls {r : Str} {visited : List Work} {copy : List (List Cell)} {s : Work} {pos : Str}
    (h : MirrorsCleaned E A S M schema r visited copy s pos) (r' : Str) (hle : (compare r r').isLE = true) (s' : Work)
    (hs : Cleans S r' s s') (hk : KeepsLatest r' s') (tb : Table) (ho : HandleAt E S s' tb)
    (m : Moments) (hm : SinceCleaned S r' s' m) (stop : Str) (hl : tb.timeline.latestTimestampR = .ok stop)
    (outs : List Batch) (hr : tb.readIncrementalR E A S.C M m.race pos none = .ok outs) (copy' : List (List Cell))
    (hc : LatestVersions A schema S.pre (copy ++ outs.flatMap Batch.rows) copy') :
    MirrorsCleaned E A S M schema r' (visited ++ [s']) copy' s' stop

end Hudi.Spec
