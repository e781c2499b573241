import Verif.Spec.Archiver
import Verif.Spec.CleanerTail

/-!
# Specification: consumers of changes, while writers, a cleaner and an archiver work

The times of the cleaner and of the archiver move on.  When a consumer visits the table, the archiver has not come beyond
the consumer's last visit: it keeps what is in the timeline from that visit on.
-/

namespace Hudi.Spec

/-- As `FollowsCleaned`, while an archiver works too, which has come to delete what is in the timeline before `q`. -/
inductive FollowsArchived (E : Env) (A : Arrow) (S : Setting) (M : MergeEnv A) (pos0 : Str) :
    Str → Str → List Poll → Work → Str → Prop
  | begins (r q : Str) (s : Work) (c : HCommit) (hs : Archives S r q nothingYet s) (hl : s.history.getLast? = some c)
    (hp : pos0 = c.ts) : FollowsArchived E A S M pos0 r q [] s c.ts
  | polls {r q : Str} {ps : List Poll} {s : Work} {pos : Str} (h : FollowsArchived E A S M pos0 r q ps s pos)
    (r' q' : Str) (hr' : (compare r r').isLE = true) (hq' : (compare q q').isLE = true) (s' : Work)
    (hs : Archives S r' q' s s') (hk : KeepsLatest r' s') (hq : (compare q' pos).isLE = true) (tb : Table)
    (ho : HandleAt E S s' tb) (m : Moments) (hm : SinceArchived S r' q' s' m) (stop : Str)
    (hl : tb.timeline.latestTimestampR = .ok stop) (outs : List Batch)
    (hr : tb.readIncrementalR E A S.C M m.race pos none = .ok outs) :
    FollowsArchived E A S M pos0 r' q' (ps ++ [⟨s', pos, stop, outs⟩]) s' stop

/-- As `MirrorsCleaned`, while an archiver works too. -/
inductive MirrorsArchived (E : Env) (A : Arrow) (S : Setting) (M : MergeEnv A) (schema : Schema) :
    Str → Str → List Work → List (List Cell) → Work → Str → Prop
  | begins (r q : Str) (s : Work) (c : HCommit) (hs : Archives S r q nothingYet s) (hk : KeepsLatest r s)
    (hq : KeepsLatest q s) (hn : NamesCurrent s) (hl : s.history.getLast? = some c) (tb : Table) (hive url : Bool)
    (ho : OpenedAt E A S s tb [] [] hive url) (m : Moments) (hm : SinceArchived S r q s m) (depth : Nat)
    (hd : S.depth < depth) (outs : List Batch) (hr : tb.readSnapshotR E A S.C M depth m.race [] = .ok outs)
    (copy : List (List Cell)) (hc : LatestVersions A schema S.pre (outs.flatMap Batch.rows) copy) :
    MirrorsArchived E A S M schema r q [] copy s c.ts
  | polls {r q : Str} {visited : List Work} {copy : List (List Cell)} {s : Work} {pos : Str}
    (h : MirrorsArchived E A S M schema r q visited copy s pos) (r' q' : Str) (hr' : (compare r r').isLE = true)
    (hq' : (compare q q').isLE = true) (s' : Work) (hs : Archives S r' q' s s') (hk : KeepsLatest r' s')
    (hq : (compare q' pos).isLE = true) (tb : Table) (ho : HandleAt E S s' tb)
    (m : Moments) (hm : SinceArchived S r' q' s' m) (stop : Str) (hl : tb.timeline.latestTimestampR = .ok stop)
    (outs : List Batch) (hr : tb.readIncrementalR E A S.C M m.race pos none = .ok outs) (copy' : List (List Cell))
    (hc : LatestVersions A schema S.pre (copy ++ outs.flatMap Batch.rows) copy') :
    MirrorsArchived E A S M schema r' q' (visited ++ [s']) copy' s' stop

end Hudi.Spec
