import Verif.Spec.ArchiverTail
import Verif.Spec.WriterOpened
import Verif.Spec.RacingFaults

/-!
# Specification: consumers that open the table at each visit, and whose visits may fail

As `FollowsArchived` and `MirrorsArchived`; but the consumer opens the table by its path whenever it visits it, and any
requests of a visit may fail.  When a visit fails, the consumer stays where it was and comes again.
-/

namespace Hudi.Spec

/-- The consumer has begun after the commit of the time `pos0`; `ps` are the visits that have succeeded. -/
inductive VisitsByPath (E : Env) (A : Arrow) (S : Setting) (M : MergeEnv A) (pos0 : Str) :
    Str → Str → List Poll → Work → Str → Prop
  | begins (r q : Str) (s : Work) (c : HCommit) (hs : Archives S r q nothingYet s) (hl : s.history.getLast? = some c)
    (hp : pos0 = c.ts) : VisitsByPath E A S M pos0 r q [] s c.ts
  /-- The table is opened when writers, cleaner and archiver have come to `s'`; the requests that `F` says fail, the others
  are answered at the moments `m`; the visit succeeds. -/
  | visits {r q : Str} {ps : List Poll} {s : Work} {pos : Str} (h : VisitsByPath E A S M pos0 r q ps s pos)
    (r' q' : Str) (hr' : (compare r r').isLE = true) (hq' : (compare q q').isLE = true) (s' : Work)
    (hs : Archives S r' q' s s') (hk : KeepsLatest r' s') (hq : (compare q' pos).isLE = true)
    (w : World) (uri : Str) (calls : List Call) (hw : TableOf E S s' w uri calls) (tb : Table)
    (hb : (builderOf uri calls).build E w = .ok tb) (m : Moments) (hm : SinceArchived S r' q' s' m) (depth : Nat)
    (F : Faults) (stop : Str) (hl : tb.timeline.latestTimestampR = .ok stop) (outs : List Batch)
    (hr : ((TableCall.incremental pos none).race E A S.C M tb depth m.race F []).2.2 = .ok (.batches outs)) :
    VisitsByPath E A S M pos0 r' q' (ps ++ [⟨s', pos, stop, outs⟩]) s' stop
  /-- The visit fails. -/
  | fails {r q : Str} {ps : List Poll} {s : Work} {pos : Str} (h : VisitsByPath E A S M pos0 r q ps s pos) (tb : Table)
    (m : Moments) (depth : Nat) (F : Faults) (e : ErrKind)
    (hr : ((TableCall.incremental pos none).race E A S.C M tb depth m.race F []).2.2 = .err e) :
    VisitsByPath E A S M pos0 r q ps s pos

/-- The consumer has read the whole table once, and keeps `copy` up to date from the visits that succeed. -/
inductive CopiesByPath (E : Env) (A : Arrow) (S : Setting) (M : MergeEnv A) (schema : Schema) :
    Str → Str → List Work → List (List Cell) → Work → Str → Prop
  | begins (r q : Str) (s : Work) (c : HCommit) (hs : Archives S r q nothingYet s) (hk : KeepsLatest r s)
    (hq : KeepsLatest q s) (hn : NamesCurrent s) (hl : s.history.getLast? = some c) (w : World) (uri : Str)
    (calls : List Call) (hw : TableOf E S s w uri calls) (tb : Table) (hb : (builderOf uri calls).build E w = .ok tb)
    (hive url : Bool) (ha : Askable A S [] [] hive url) (m : Moments) (hm : SinceArchived S r q s m) (depth : Nat)
    (hd : S.depth < depth) (F : Faults) (outs : List Batch)
    (hr : ((TableCall.snapshot []).race E A S.C M tb depth m.race F []).2.2 = .ok (.batches outs))
    (copy : List (List Cell)) (hc : LatestVersions A schema S.pre (outs.flatMap Batch.rows) copy) :
    CopiesByPath E A S M schema r q [] copy s c.ts
  | visits {r q : Str} {visited : List Work} {copy : List (List Cell)} {s : Work} {pos : Str}
    (h : CopiesByPath E A S M schema r q visited copy s pos) (r' q' : Str) (hr' : (compare r r').isLE = true)
    (hq' : (compare q q').isLE = true) (s' : Work) (hs : Archives S r' q' s s') (hk : KeepsLatest r' s')
    (hq : (compare q' pos).isLE = true) (w : World) (uri : Str) (calls : List Call) (hw : TableOf E S s' w uri calls)
    (tb : Table) (hb : (builderOf uri calls).build E w = .ok tb) (m : Moments) (hm : SinceArchived S r' q' s' m)
    (depth : Nat) (F : Faults) (stop : Str) (hl : tb.timeline.latestTimestampR = .ok stop) (outs : List Batch)
    (hr : ((TableCall.incremental pos none).race E A S.C M tb depth m.race F []).2.2 = .ok (.batches outs))
    (copy' : List (List Cell)) (hc : LatestVersions A schema S.pre (copy ++ outs.flatMap Batch.rows) copy') :
    CopiesByPath E A S M schema r' q' (visited ++ [s']) copy' s' stop
  /-- The visit fails. -/
  | fails {r q : Str} {visited : List Work} {copy : List (List Cell)} {s : Work} {pos : Str}
    (h : CopiesByPath E A S M schema r q visited copy s pos) (tb : Table) (m : Moments) (depth : Nat) (F : Faults)
    (e : ErrKind) (hr : ((TableCall.incremental pos none).race E A S.C M tb depth m.race F []).2.2 = .err e) :
    CopiesByPath E A S M schema r q visited copy s pos

end Hudi.Spec
