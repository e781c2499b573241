import Verif.Spec.Service

/-!
# Specification: the same writes one after the other

Several writers work on a table at the same time, and some fail.  The same table could have been made by one writer
that never fails: it makes the writes that have completed one after the other, each with all its requests, once and in
order.
-/

namespace Hudi.Spec

/-- A write from its beginning to its end: its requests, and then its file in the timeline. -/
def Work.make (s : Work) (j : Job) : Work :=
  ⟨j.completion.run ((j.requests s.history).foldl (fun st q => q.run st) s.store), s.done ++ [j], s.current,
    j.commit.ts :: s.used⟩

/-- A table that one writer has made, write by write. -/
def oneByOne (js : List Job) : Work := js.foldl Work.make nothingYet

/-- As of `ts`, of two versions of a record in a file group, one is later than the other. -/
def NoTiesAt (A : Arrow) (pre : Str) (js : List Job) (ts : Str) : Prop :=
  ∀ k v, tableAt (commitsOf js) ts k = some v → ∀ r ∈ recordsAt (rowsOf js) (commitsOf js) ts k,
    ∀ r' ∈ recordsAt (rowsOf js) (commitsOf js) ts k,
    keyOf (columnsBy js v.base k) r = keyOf (columnsBy js v.base k) r' →
    VersionLE A (columnsBy js v.base k) pre r r' → VersionLE A (columnsBy js v.base k) pre r' r → r = r'

end Hudi.Spec
