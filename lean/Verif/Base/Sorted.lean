/-!
# Ordered containers

`BTreeSet<T>` and `BTreeMap<K, V>` (std) as strictly increasing lists.  As in Rust, whether two
elements are "the same" is decided by the ordering alone.
-/

namespace Hudi

section Set

variable {α : Type} (cmp : α → α → Ordering)

/-- Rust's `BTreeSet::insert` (std): an element that compares equal to a present one is dropped. -/
def setInsert (x : α) : List α → List α
  | [] => [x]
  | y :: ys =>
    match cmp x y with
    | .lt => x :: y :: ys
    | .eq => y :: ys
    | .gt => y :: setInsert x ys

/-- Rust's `BTreeSet::extend` (std). -/
def setExtend (l : List α) (xs : List α) : List α := xs.foldl (fun acc x => setInsert cmp x acc) l

/-- Strictly increasing: the representation invariant of `BTreeSet`. -/
def SetSorted (l : List α) : Prop := l.Pairwise (fun a b => cmp a b = .lt)

end Set

section Map

variable {κ ν : Type} [Ord κ]

/-- Rust's `BTreeMap::get` (std). -/
def mapGet (k : κ) : List (κ × ν) → Option ν
  | [] => none
  | (k', v) :: rest => if compare k k' = .eq then some v else mapGet k rest

/-- Rust's `BTreeMap::insert` (std): a present key gets the new value. -/
def mapInsert (k : κ) (v : ν) : List (κ × ν) → List (κ × ν)
  | [] => [(k, v)]
  | (k', v') :: rest =>
    match compare k k' with
    | .lt => (k, v) :: (k', v') :: rest
    | .eq => (k', v) :: rest
    | .gt => (k', v') :: mapInsert k v rest

/-- Rust's `BTreeMap::range(..=k).next_back()` (std): the last entry whose key is at most `k`. -/
def mapLastLe (k : κ) (l : List (κ × ν)) : Option (κ × ν) :=
  (l.filter (fun e => (compare e.1 k).isLE)).getLast?

/-- Strictly increasing keys: the representation invariant of `BTreeMap`. -/
def MapSorted (l : List (κ × ν)) : Prop := l.Pairwise (fun a b => compare a.1 b.1 = .lt)

end Map

end Hudi
