/-!
# Results

Rust's `Result<T, CoreError>` with panics made explicit.
-/

namespace Hudi

/-- The kinds of errors of `CoreError` (crates/core/src/error.rs:25-80), without their messages.
`config` and `storage` collapse the nested `ConfigError` and `StorageError`. -/
inductive ErrKind
  | arrow | avro | config | commitMetadata | mergeRecord | schema | fileGroup | readFileSlice
  | logFormat | logBlock | invalidPartitionPath | invalidValue | parquet | readLogFile
  | storage | timeline | unsupported | utf8
  deriving DecidableEq, Repr

/-- The outcome of a Rust function returning `Result<T, CoreError>`: a value, an error, or a
panic (which unwinds through every caller). -/
inductive Res (α : Type) where
  | ok (a : α)
  | err (e : ErrKind)
  | panic
  deriving DecidableEq, Repr

namespace Res

variable {α β γ : Type}

/-- The `?` operator; a panic propagates like an error. -/
def bind (x : Res α) (f : α → Res β) : Res β :=
  match x with
  | ok a => f a
  | err e => err e
  | panic => panic

instance : Monad Res where
  pure := ok
  bind := bind

@[simp] theorem pure_eq (a : α) : (pure a : Res α) = ok a := rfl
@[simp] theorem ok_bind (a : α) (f : α → Res β) : (ok a >>= f) = f a := rfl
@[simp] theorem err_bind (e : ErrKind) (f : α → Res β) : (err e >>= f) = err e := rfl
@[simp] theorem panic_bind (f : α → Res β) : (panic >>= f) = panic := rfl
@[simp] theorem map_ok (a : α) (f : α → β) : (f <$> (ok a : Res α)) = ok (f a) := rfl
@[simp] theorem map_err (e : ErrKind) (f : α → β) : (f <$> (err e : Res α)) = err e := rfl
@[simp] theorem map_panic (f : α → β) : (f <$> (panic : Res α)) = panic := rfl

theorem bind_eq_ok {x : Res α} {f : α → Res β} {b : β} :
    (x >>= f) = ok b ↔ ∃ a, x = ok a ∧ f a = ok b := by
  cases x <;> simp

/-- Rust's `Option::ok_or_else` followed by `?`. -/
def ofOption (e : ErrKind) : Option α → Res α
  | some a => ok a
  | none => err e

@[simp] theorem ofOption_some (e : ErrKind) (a : α) : ofOption e (some a) = ok a := rfl
@[simp] theorem ofOption_none (e : ErrKind) : (ofOption e none : Res α) = err e := rfl

theorem ofOption_eq_ok {e : ErrKind} {o : Option α} {a : α} : ofOption e o = ok a ↔ o = some a := by
  cases o <;> simp

/-- Is the outcome a value? -/
def isOk : Res α → Bool
  | ok _ => true
  | _ => false

/-- Rust's `Result::ok()`; a panic is kept apart by the caller. -/
def toOption : Res α → Option α
  | ok a => some a
  | _ => none

/-- `iter().map(f).collect::<Result<Vec<_>>>()` and loops of the form
`for x in xs { out.push(f(x)?) }`: left to right, stopping at the first failure. -/
def mapL (f : α → Res β) : List α → Res (List β)
  | [] => ok []
  | x :: xs => do
    let y ← f x
    let ys ← mapL f xs
    return y :: ys

/-- `for x in xs { state = f(state, x)? }`. -/
def foldL (f : β → α → Res β) : β → List α → Res β
  | b, [] => ok b
  | b, x :: xs => do
    let b' ← f b x
    foldL f b' xs

@[simp] theorem mapL_nil (f : α → Res β) : mapL f [] = ok [] := rfl
@[simp] theorem foldL_nil (f : β → α → Res β) (b : β) : foldL f b [] = ok b := rfl

theorem mapL_cons_ok {f : α → Res β} {x : α} {xs : List α} {ys : List β} :
    mapL f (x :: xs) = ok ys ↔ ∃ y ys', f x = ok y ∧ mapL f xs = ok ys' ∧ ys = y :: ys' := by
  simp only [mapL, bind_eq_ok, pure_eq]
  constructor
  · rintro ⟨y, h1, ys', h2, h3⟩
    cases h3
    exact ⟨y, ys', h1, h2, rfl⟩
  · rintro ⟨y, ys', h1, h2, rfl⟩
    exact ⟨y, h1, ys', h2, rfl⟩

theorem foldL_cons {f : β → α → Res β} {b : β} {x : α} {xs : List α} :
    foldL f b (x :: xs) = (f b x >>= fun b' => foldL f b' xs) := rfl

theorem foldL_append {f : β → α → Res β} {b : β} {xs ys : List α} :
    foldL f b (xs ++ ys) = (foldL f b xs >>= fun b' => foldL f b' ys) := by
  induction xs generalizing b with
  | nil => simp
  | cons x xs ih =>
    simp only [List.cons_append, foldL_cons]
    cases f b x <;> simp [ih]

theorem mapL_append_ok {f : α → Res β} {xs ys : List α} {zs : List β} :
    mapL f (xs ++ ys) = ok zs ↔
      ∃ a b, mapL f xs = ok a ∧ mapL f ys = ok b ∧ zs = a ++ b := by
  induction xs generalizing zs with
  | nil => simp
  | cons x xs ih =>
    simp only [List.cons_append, mapL_cons_ok, ih]
    constructor
    · rintro ⟨y, _, h1, ⟨a, b, h2, h3, rfl⟩, rfl⟩
      exact ⟨y :: a, b, ⟨y, a, h1, h2, rfl⟩, h3, rfl⟩
    · rintro ⟨_, b, ⟨y, a, h1, h2, rfl⟩, h3, rfl⟩
      exact ⟨y, a ++ b, h1, ⟨a, b, h2, h3, rfl⟩, rfl⟩

/-- A loop that succeeded, pointwise. -/
theorem mapL_ok_iff {f : α → Res β} {xs : List α} {ys : List β} :
    mapL f xs = ok ys ↔ xs.map f = ys.map ok := by
  induction xs generalizing ys with
  | nil => cases ys <;> simp
  | cons x xs ih =>
    rw [mapL_cons_ok]
    cases ys with
    | nil => simp
    | cons z zs =>
      simp only [List.map_cons, List.cons.injEq, ← ih]
      constructor
      · rintro ⟨y, ys', h1, h2, ⟨rfl, rfl⟩⟩; exact ⟨h1, h2⟩
      · rintro ⟨h1, h2⟩; exact ⟨z, zs, h1, h2, rfl, rfl⟩

theorem mapL_length {f : α → Res β} {xs : List α} {ys : List β} (h : mapL f xs = ok ys) :
    ys.length = xs.length := by
  have := congrArg List.length (mapL_ok_iff.1 h)
  simpa using this.symm

theorem mapL_mem {f : α → Res β} {xs : List α} {ys : List β} (h : mapL f xs = ok ys) (y : β) :
    y ∈ ys ↔ ∃ x ∈ xs, f x = ok y := by
  have h := mapL_ok_iff.1 h
  have : (ok y) ∈ ys.map ok ↔ y ∈ ys := by simp
  rw [← this, ← h]
  simp

theorem mapL_ok_mem {f : α → Res β} {xs : List α} {ys : List β} (h : mapL f xs = ok ys) (x : α)
    (hx : x ∈ xs) : ∃ y, f x = ok y ∧ y ∈ ys := by
  have h := mapL_ok_iff.1 h
  have : f x ∈ ys.map ok := by rw [← h]; exact List.mem_map.2 ⟨x, hx, rfl⟩
  rw [List.mem_map] at this
  obtain ⟨y, hy, e⟩ := this
  exact ⟨y, e.symm, hy⟩

/-- A loop succeeds exactly when every step does. -/
theorem mapL_ok_iff_all {f : α → Res β} {xs : List α} :
    (∃ ys, mapL f xs = ok ys) ↔ ∀ x ∈ xs, ∃ y, f x = ok y := by
  constructor
  · rintro ⟨ys, h⟩ x hx
    obtain ⟨y, hy, _⟩ := mapL_ok_mem h x hx
    exact ⟨y, hy⟩
  · intro h
    induction xs with
    | nil => exact ⟨[], rfl⟩
    | cons x xs ih =>
      obtain ⟨y, hy⟩ := h x List.mem_cons_self
      obtain ⟨ys, hys⟩ := ih (fun x hx => h x (List.mem_cons_of_mem _ hx))
      exact ⟨y :: ys, mapL_cons_ok.2 ⟨y, ys, hy, hys, rfl⟩⟩

end Res

end Hudi
