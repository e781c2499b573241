/-!
# Hash maps

`HashMap<K, V>` / `DashMap<K, V>` (std, dashmap) as association lists without duplicate keys.  The
iteration order of the Rust containers is unspecified; theorems about iteration are stated up to
permutation or per key.
-/

namespace Hudi

variable {κ ν : Type} [DecidableEq κ]

/-- `HashMap::get` (std). -/
def hmGet (k : κ) : List (κ × ν) → Option ν
  | [] => none
  | (k', v) :: rest => if k = k' then some v else hmGet k rest

/-- `HashMap::insert` (std): a present key gets the new value. -/
def hmInsert (k : κ) (v : ν) : List (κ × ν) → List (κ × ν)
  | [] => [(k, v)]
  | (k', v') :: rest => if k = k' then (k', v) :: rest else (k', v') :: hmInsert k v rest

/-- `HashMap::contains_key` (std). -/
def hmContains (k : κ) (m : List (κ × ν)) : Bool := (hmGet k m).isSome

/-- `entry(k).or_insert(v)` (std): a present key keeps its value. -/
def hmInsertIfAbsent (k : κ) (v : ν) (m : List (κ × ν)) : List (κ × ν) :=
  if hmContains k m then m else hmInsert k v m

/-- `HashMap::extend` (std): later entries win. -/
def hmExtend (m : List (κ × ν)) (src : List (κ × ν)) : List (κ × ν) :=
  src.foldl (fun m e => hmInsert e.1 e.2 m) m

/-- `HashMap::from_iter` (std). -/
def hmOfList (src : List (κ × ν)) : List (κ × ν) := hmExtend [] src

/-- `entry(k).or_default().push(v)` (std) on a map of vectors. -/
def hmPush (k : κ) (v : ν) (m : List (κ × List ν)) : List (κ × List ν) :=
  hmInsert k ((hmGet k m).getD [] ++ [v]) m

/-- No key occurs twice: the representation invariant. -/
def HmNodup (m : List (κ × ν)) : Prop := (m.map Prod.fst).Nodup

end Hudi
