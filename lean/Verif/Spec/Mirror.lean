import Verif.Spec.Tail

/-!
# Specification: a copy kept up to date from changes

A consumer reads a table once, keeps what it has received as its copy, and from then on only reads what has changed.
It keeps, of each record, the latest version it has received.
-/

namespace Hudi.Spec

/-- The version `r` of a record is in the table that the writes `js` have made. -/
def InTable (js : List Job) (r : List Cell) : Prop := ∃ k, r ∈ recordsAfter (rowsOf js) (commitsOf js) k

/-- The rows `result` are the latest versions of the records whose versions are the rows `V`. -/
structure LatestOf (A : Arrow) (schema : Schema) (pre : Str) (V : List Cell → Prop) (result : List (List Cell)) : Prop where
  sound : ∀ r ∈ result, V r
  one : (result.map (keyOf schema)).Nodup
  all : ∀ r, V r → ∃ r' ∈ result, keyOf schema r' = keyOf schema r
  latest : ∀ r ∈ result, ∀ r', V r' → keyOf schema r' = keyOf schema r → VersionLE A schema pre r' r

/-- The write that follows `before` inserts and updates records, or rewrites files, possibly into other file groups; it
deletes no records.  All files have the columns `schema`; of each record that was in the table there is still a version,
which is not an older one; and what is new in the table carries the write's timestamp as its commit time. -/
structure Upserts (A : Arrow) (schema : Schema) (pre : Str) (before : List Job) (j : Job) : Prop where
  columns : ∀ k token, (k, Change.write token) ∈ j.commit.changes → (j.base k).schema = schema
  kept : ∀ r, InTable before r → ∃ r', InTable (before ++ [j]) r' ∧ keyOf schema r' = keyOf schema r ∧
    VersionLE A schema pre r r'
  dated : ∀ r, InTable (before ++ [j]) r → InTable before r ∨ commitTimeOf schema r = some j.commit.ts

/-- All writes are such. -/
def AllUpserts (A : Arrow) (schema : Schema) (pre : Str) (js : List Job) : Prop :=
  ∀ d1 j d2, js = d1 ++ j :: d2 → Upserts A schema pre d1 j

/-- Of two versions of a record that were in the table at some time, one is later than the other. -/
def Untied (A : Arrow) (schema : Schema) (pre : Str) (js : List Job) : Prop :=
  ∀ d1 d2 r r', d1 <+: js → d2 <+: js → InTable d1 r → InTable d2 r' → keyOf schema r = keyOf schema r' →
    VersionLE A schema pre r r' → VersionLE A schema pre r' r → r = r'

/-- The consumer has read the whole table once, when the latest commit was one of those completed, and visited it since
at the moments `visited`; its copy is `copy`.  The last visit was at `s`, and the latest commit was that of `pos`. -/
inductive Mirrors (E : Env) (A : Arrow) (S : Setting) (M : MergeEnv A) (schema : Schema) :
    List Work → List (List Cell) → Work → Str → Prop
  | begins (s : Work) (c : HCommit) (hs : Works S nothingYet s) (hl : s.history.getLast? = some c) (tb : Table)
    (hive url : Bool) (ho : OpenedAt E A S s tb [] [] hive url) (m : Moments) (hm : Since S s m) (depth : Nat)
    (hd : S.depth < depth) (outs : List Batch) (hr : tb.readSnapshotR E A S.C M depth m.race [] = .ok outs)
    (copy : List (List Cell)) (hc : LatestVersions A schema S.pre (outs.flatMap Batch.rows) copy) :
    Mirrors E A S M schema [] copy s c.ts
  | polls {visited : List Work} {copy : List (List Cell)} {s : Work} {pos : Str}
    (h : Mirrors E A S M schema visited copy s pos) (s' : Work) (hs : Works S s s') (tb : Table) (ho : HandleAt E S s' tb)
    (m : Moments) (hm : Since S s' m) (stop : Str) (hl : tb.timeline.latestTimestampR = .ok stop) (outs : List Batch)
    (hr : tb.readIncrementalR E A S.C M m.race pos none = .ok outs) (copy' : List (List Cell))
    (hc : LatestVersions A schema S.pre (copy ++ outs.flatMap Batch.rows) copy') :
    Mirrors E A S M schema (visited ++ [s']) copy' s' stop

end Hudi.Spec
