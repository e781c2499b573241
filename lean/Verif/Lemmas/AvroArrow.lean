import Verif.Lemmas.AvroDecode

/-! # Avro values become Arrow values -/

namespace Hudi
namespace Avro
open Spec

/-- Is it a union? -/
def isUnion : AvroSchema → Bool
  | .union _ => true
  | _ => false

/-- The items of a list, through a union. -/
def items (v : AvroValue) : List AvroValue :=
  match unUnion v with
  | .array vs => vs
  | _ => []

theorem cellsOf_eq (vs : List AvroValue) : cellsOf vs = vs.map arrowCell := by
  induction vs with
  | nil => rfl
  | cons v vs ih => simp [cellsOf, ih]

theorem fieldCells_eq (vs : List (Str × AvroValue)) : fieldCells vs = vs.map (fun e => arrowCell e.2) := by
  induction vs with
  | nil => rfl
  | cons v vs ih => simp [fieldCells, ih]

theorem arrowCell_unUnion (v : AvroValue) : arrowCell (unUnion v) = arrowCell v := by
  cases v <;> simp [unUnion, arrowCell]

theorem unUnion_of_hasType {s : AvroSchema} {v : AvroValue} (hs : isUnion s = false)
    (h : HasType s v) : unUnion v = v := by
  obtain ⟨b, h⟩ := h
  cases s with
  | union vs => cases hs
  | decimal f p sc =>
    cases f with
    | none => obtain ⟨x, rfl, _⟩ := h; rfl
    | some n => obtain ⟨rfl, _⟩ := h; rfl
  | null => obtain ⟨rfl, _⟩ := h; rfl
  | fixed n => obtain ⟨rfl, _⟩ := h; rfl
  | duration => obtain ⟨rfl, _⟩ := h; rfl
  | ref n => exact h.elim
  | enum syms => obtain ⟨k, x, rfl, _⟩ := h; rfl
  | _ => obtain ⟨x, rfl, _⟩ := h; rfl

/-- A value of a schema that is not a union, possibly in a union with null, possibly missing. -/
def FVal (w m : Bool) (s : AvroSchema) (v : AvroValue) : Prop :=
  ((unUnion v = .null ∧ m = true) ∨ HasType s (unUnion v)) ∧ (w = false → unUnion v = v)

/-- A value of a schema, possibly in a union with null, possibly missing. -/
def At (w m : Bool) (s : AvroSchema) (v : AvroValue) : Prop :=
  if isUnion s = true then (v = .null ∧ m = true) ∨ HasType s v else FVal w m s v

theorem at_of_hasType {m : Bool} {s : AvroSchema} {v : AvroValue} (h : HasType s v) :
    At false m s v := by
  unfold At
  by_cases hs : isUnion s = true
  · rw [if_pos hs]; exact .inr h
  · rw [if_neg hs]
    have := unUnion_of_hasType (by simpa using hs) h
    exact ⟨.inr (by rw [this]; exact h), fun _ => this⟩

theorem at_null {w : Bool} {s : AvroSchema} : At w true s .null := by
  unfold At
  by_cases hs : isUnion s = true
  · rw [if_pos hs]; exact .inl ⟨rfl, rfl⟩
  · rw [if_neg hs]; exact ⟨.inl ⟨rfl, rfl⟩, fun _ => rfl⟩

/-- A value of a union with null. -/
theorem hasType_opt {a b : AvroSchema} {v : AvroValue} (h : HasType (.union [a, b]) v) :
    ∃ k x, v = .union k x ∧ (HasType a x ∨ HasType b x) := by
  obtain ⟨c, k, x, d, rfl, _, h, _⟩ := h
  refine ⟨k, x, rfl, ?_⟩
  match k with
  | 0 => exact .inl ⟨d, h⟩
  | 1 => exact .inr ⟨d, h⟩
  | k + 2 => exact h.elim

theorem hasType_null {s : AvroSchema} {v : AvroValue} (hs : isNullSchema s = true) (h : HasType s v) :
    v = .null := by
  cases s <;> simp [isNullSchema] at hs
  obtain ⟨_, rfl, _⟩ := h; rfl

theorem readable_not_union {q : Place} {s : AvroSchema} (hq : q.opt = none) (h : Faithful q s) :
    isUnion s = false := by
  cases s with
  | union vs => simp [Faithful, hq] at h
  | _ => rfl

/-- Behind a union with null there is the other type. -/
theorem at_opt {m : Bool} {vs : List AvroSchema} {x : AvroSchema} {v : AvroValue}
    (hvs : ∃ a b, vs = [a, b] ∧ ((isNullSchema a = true ∧ x = b) ∨ (isNullSchema b = true ∧ x = a)))
    (hx : isUnion x = false) (h : At false m (.union vs) v) : At true true x v := by
  obtain ⟨a, b, rfl, hab⟩ := hvs
  unfold At at h ⊢
  rw [if_pos (show isUnion (.union [a, b]) = true from rfl)] at h
  rw [if_neg (by simp [hx])]
  refine ⟨?_, fun h => by cases h⟩
  rcases h with ⟨rfl, _⟩ | h
  · exact .inl ⟨rfl, rfl⟩
  · obtain ⟨k, y, rfl, hy⟩ := hasType_opt h
    simp only [unUnion]
    rcases hab with ⟨ha, rfl⟩ | ⟨hb, rfl⟩
    · rcases hy with hy | hy
      · exact .inl ⟨hasType_null ha hy, trivial⟩
      · exact .inr hy
    · rcases hy with hy | hy
      · exact .inr hy
      · exact .inl ⟨hasType_null hb hy, trivial⟩

/-! ## Fields -/

theorem schemaToField_type {n n' : Option Str} {b b' : Bool} {s : AvroSchema} {f : AField}
    (h : schemaToField n b s = .ok f) : ∃ f', schemaToField n' b' s = .ok f' ∧ f'.type = f.type := by
  cases s with
  | array s =>
    simp only [schemaToField] at h ⊢
    obtain ⟨g, hg, h⟩ := Res.bind_eq_ok.1 h
    cases h
    rw [hg]
    exact ⟨_, rfl, rfl⟩
  | map s =>
    simp only [schemaToField] at h ⊢
    obtain ⟨g, hg, h⟩ := Res.bind_eq_ok.1 h
    cases h
    rw [hg]
    exact ⟨_, rfl, rfl⟩
  | union vs =>
    simp only [schemaToField] at h ⊢
    split at h
    · next hc =>
      rw [if_pos hc]
      obtain ⟨g, hg, h⟩ := Res.bind_eq_ok.1 h
      cases h
      rw [hg]
      exact ⟨_, rfl, rfl⟩
    · next hc =>
      rw [if_neg hc]
      obtain ⟨g, hg, h⟩ := Res.bind_eq_ok.1 h
      cases h
      rw [hg]
      exact ⟨_, rfl, rfl⟩
  | record fs =>
    simp only [schemaToField] at h ⊢
    obtain ⟨g, hg, h⟩ := Res.bind_eq_ok.1 h
    cases h
    rw [hg]
    exact ⟨_, rfl, rfl⟩
  | ref n => cases h
  | localTimestampMillis => cases h
  | localTimestampMicros => cases h
  | localTimestampNanos => cases h
  | _ => cases h; exact ⟨_, rfl, rfl⟩

/-- The type of a union with null is the other type; the field is nullable. -/
theorem schemaToField_opt {n : Option Str} {nul : Bool} {vs : List AvroSchema} {x : AvroSchema}
    {f : AField} (hvs : ∃ a b, vs = [a, b] ∧
      ((isNullSchema a = true ∧ x = b) ∨ (isNullSchema b = true ∧ x = a)))
    (hx : isNullSchema x = false) (h : schemaToField n nul (.union vs) = .ok f) :
    f.nullable = true ∧ ∃ g, schemaToField none true x = .ok g ∧ g.type = f.type := by
  obtain ⟨a, b, rfl, hab⟩ := hvs
  simp only [schemaToField] at h
  have hc : hasNull [a, b] = true ∧ [a, b].length = 2 := by
    refine ⟨?_, rfl⟩
    unfold hasNull
    rcases hab with ⟨ha, _⟩ | ⟨hb, _⟩
    · simp [ha]
    · simp [hb]
  rw [if_pos hc] at h
  obtain ⟨t, ht, h⟩ := Res.bind_eq_ok.1 h
  cases h
  refine ⟨rfl, ?_⟩
  have key : ∀ y, isNullSchema y = false → ∀ l, firstNonNull (y :: l) =
      (schemaToField none true y >>= fun f => .ok f.type) := by
    intro y hy l
    cases y <;> first | rfl | simp [isNullSchema] at hy
  have hfst : firstNonNull [a, b] = (schemaToField none true x >>= fun f => .ok f.type) := by
    by_cases ha : isNullSchema a = true
    · have : x = b := by
        rcases hab with ⟨_, e⟩ | ⟨_, e⟩
        · exact e
        · subst e; rw [ha] at hx; cases hx
      subst this
      cases a <;> simp [isNullSchema] at ha
      rw [firstNonNull]
      exact key _ hx []
    · have : x = a := by
        rcases hab with ⟨e, _⟩ | ⟨_, e⟩
        · exact absurd e ha
        · exact e
      subst this
      exact key _ hx _
  rw [hfst] at ht
  obtain ⟨g, hg, ht⟩ := Res.bind_eq_ok.1 ht
  cases ht
  exact ⟨g, hg, rfl⟩

/-- An Arrow field for a field of an Avro record. -/
def FieldOf (p : Str × AvroSchema) (f : AField) : Prop :=
  f.name = p.1 ∧ (∃ n b g, schemaToField n b p.2 = .ok g ∧ g.type = f.type) ∧
    (isUnion p.2 = true → f.nullable = true)

theorem readable_opt {p : Place} {vs : List AvroSchema} (h : Faithful p (.union vs)) :
    ∃ q, p.opt = some q ∧ FaithfulOpt q vs := by
  simp only [Faithful] at h
  cases hq : p.opt with
  | none => rw [hq] at h; exact h.elim
  | some q => rw [hq] at h; exact ⟨q, rfl, h⟩

theorem readableOpt_cases {q : Place} {vs : List AvroSchema} (h : FaithfulOpt q vs) :
    ∃ a b, vs = [a, b] ∧
      ((isNullSchema a = true ∧ isNullSchema b = false ∧ Faithful q b) ∨
       (isNullSchema b = true ∧ isNullSchema a = false ∧ Faithful q a)) := by
  match vs with
  | [a, b] => exact ⟨a, b, rfl, h⟩
  | [] => exact h.elim
  | [_] => exact h.elim
  | _ :: _ :: _ :: _ => exact h.elim

theorem opt_opt {p q : Place} (h : p.opt = some q) : q.opt = none := by
  cases p with
  | field w m =>
    cases w with
    | false => cases h; rfl
    | true => cases h
  | item d lu lm u =>
    cases u with
    | false => cases h; rfl
    | true => cases h

theorem readable_union_nullable {p : Place} {n : Option Str} {nul : Bool} {s : AvroSchema}
    {f : AField} (hr : Faithful p s) (h : schemaToField n nul s = .ok f) (hu : isUnion s = true) :
    f.nullable = true := by
  cases s with
  | union vs =>
    obtain ⟨q, _, hq⟩ := readable_opt hr
    obtain ⟨a, b, rfl, hab⟩ := readableOpt_cases hq
    rcases hab with ⟨ha, hb, _⟩ | ⟨hb, ha, _⟩
    · exact (schemaToField_opt (x := b) ⟨a, b, rfl, .inl ⟨ha, rfl⟩⟩ hb h).1
    · exact (schemaToField_opt (x := a) ⟨a, b, rfl, .inr ⟨hb, rfl⟩⟩ ha h).1
  | _ => cases hu

/-- A value that is not in a union with null is null only in a column of nulls. -/
theorem cell_isSome {p : Place} {s : AvroSchema} {v : AvroValue} {n : Option Str} {b : Bool}
    {f : AField} (hu : isUnion s = false) (hr : Faithful p s) (h : HasType s v)
    (hf : schemaToField n b s = .ok f) : f.type = .null ∨ (arrowCell v).isSome = true := by
  obtain ⟨c, h⟩ := h
  cases s with
  | union vs => cases hu
  | null => cases hf; exact .inl rfl
  | decimal o p sc => cases p <;> simp [Faithful] at hr
  | fixed n => obtain ⟨rfl, _⟩ := h; exact .inr (by simp [arrowCell])
  | duration => obtain ⟨rfl, _⟩ := h; exact .inr (by simp [arrowCell])
  | ref n => exact h.elim
  | enum syms => obtain ⟨k, x, rfl, _⟩ := h; exact .inr (by simp [arrowCell])
  | _ => obtain ⟨x, rfl, _⟩ := h; exact .inr (by simp [arrowCell])

theorem mapL_map {α β : Type} {f : α → Res β} {g : α → β} {xs : List α}
    (h : ∀ x ∈ xs, f x = .ok (g x)) : Res.mapL f xs = .ok (xs.map g) := by
  induction xs with
  | nil => rfl
  | cons x xs ih =>
    simp [Res.mapL, h x (by simp), ih (fun y hy => h y (by simp [hy]))]

/-! ## Scalars -/

theorem resolveNum_ok {s : AvroSchema} {t : Native}
    (hst : (s, t) ∈ [(AvroSchema.int, Native.i32), (.date, .i32), (.timeMillis, .i32), (.long, .i64),
      (.timeMicros, .i64), (.timestampMillis, .i64), (.timestampMicros, .i64), (.float, .f32),
      (.double, .f64)]) {w m : Bool} {v : AvroValue} (h : FVal w m s v) :
    resolveNum t v = .ok (arrowCell v) := by
  rw [← arrowCell_unUnion]
  unfold resolveNum
  rcases h.1 with ⟨h, _⟩ | ⟨b, h⟩
  · rw [h]; simp [arrowCell]
  · simp only [List.mem_cons, Prod.mk.injEq, List.not_mem_nil, or_false] at hst
    rcases hst with ⟨rfl, rfl⟩ | ⟨rfl, rfl⟩ | ⟨rfl, rfl⟩ | ⟨rfl, rfl⟩ | ⟨rfl, rfl⟩ | ⟨rfl, rfl⟩ |
      ⟨rfl, rfl⟩ | ⟨rfl, rfl⟩ | ⟨rfl, rfl⟩
    all_goals first
      | (obtain ⟨i, e, hi, _⟩ := h
         rw [e]
         simp only [castInt, arrowCell]
         first
           | rfl
           | exact congrArg Res.ok (if_pos hi))

theorem resolveString_ok {s : AvroSchema} (hs : s = .string ∨ ∃ y, s = .enum y) {w m : Bool}
    {v : AvroValue} (h : FVal w m s v) : resolveString v = .ok (arrowCell v) := by
  rw [← arrowCell_unUnion]
  unfold resolveString
  rcases h.1 with ⟨h, _⟩ | ⟨b, h⟩
  · rw [h]; simp [arrowCell]
  · rcases hs with rfl | ⟨y, rfl⟩
    · obtain ⟨x, e, _⟩ := h; rw [e]; simp [arrowCell]
    · obtain ⟨k, x, e, _⟩ := h; rw [e]; simp [arrowCell]

theorem resolveBytes_ok {w m : Bool} {v : AvroValue} (h : FVal w m .bytes v) :
    resolveBytes v = arrowCell v := by
  rw [← arrowCell_unUnion]
  unfold resolveBytes
  rcases h.1 with ⟨h, _⟩ | ⟨b, h⟩
  · rw [h]; simp [arrowCell]
  · obtain ⟨x, e, _⟩ := h; rw [e]; simp [arrowCell]

theorem resolveBoolean_ok {w m : Bool} {v : AvroValue} (h : FVal w m .boolean v) :
    resolveBoolean v = arrowCell v := by
  rw [← arrowCell_unUnion]
  unfold resolveBoolean
  rcases h.1 with ⟨h, _⟩ | ⟨b, h⟩
  · rw [h]; simp [arrowCell]
  · obtain ⟨x, e, _⟩ := h; rw [e]; simp [arrowCell]

theorem resolveFixed_ok {w m : Bool} {n : Nat} {v : AvroValue} (h : FVal w m (.fixed n) v) :
    (resolveFixed n v = none ∧ arrowCell v = none) ∨
      ∃ b, resolveFixed n v = some b ∧ b.length = n ∧ arrowCell v = some (.bytes b) := by
  rw [← arrowCell_unUnion]
  unfold resolveFixed
  rcases h.1 with ⟨h, _⟩ | ⟨b, h⟩
  · rw [h]; exact .inl ⟨rfl, by simp [arrowCell]⟩
  · obtain ⟨e, hb⟩ := h
    rw [e]
    exact .inr ⟨b, by simp, hb, by simp [arrowCell]⟩

theorem cell_null {w m : Bool} {v : AvroValue} (h : FVal w m .null v) : arrowCell v = none := by
  rw [← arrowCell_unUnion]
  rcases h.1 with ⟨h, _⟩ | h
  · rw [h]; simp [arrowCell]
  · rw [hasType_null rfl h]; simp [arrowCell]

/-! ## Lists -/

/-- A row of a list column: a list of values of the item schema, possibly in a union with null,
possibly missing. -/
def LVal (lw lm u : Bool) (s : AvroSchema) (v : AvroValue) : Prop :=
  ((unUnion v = .null ∧ lm = true) ∨ ∃ vs, unUnion v = .array vs ∧ ∀ x ∈ vs, At u u s x) ∧
    (lw = false → unUnion v = v)

theorem items_length (v : AvroValue) (h : unUnion v = .null ∨ ∃ vs, unUnion v = .array vs) :
    listLen v = (items v).length := by
  unfold listLen items
  rcases h with h | ⟨vs, h⟩
  · rw [h]; rfl
  · rw [h]

theorem slices_flatMap (rows : List AvroValue) (f : AvroValue → List ACell) (n : AvroValue → Nat)
    (h : ∀ v ∈ rows, n v = (f v).length) : slices (rows.map n) (rows.flatMap f) = rows.map f := by
  induction rows with
  | nil => rfl
  | cons v rows ih =>
    simp only [List.map_cons, List.flatMap_cons, slices]
    rw [h v (by simp), List.take_left, List.drop_left, ih (fun w hw => h w (by simp [hw]))]

theorem sum_length (rows : List AvroValue) (f : AvroValue → List ACell) (n : AvroValue → Nat)
    (h : ∀ v ∈ rows, n v = (f v).length) : (rows.map n).sum = (rows.flatMap f).length := by
  induction rows with
  | nil => rfl
  | cons v rows ih =>
    simp only [List.map_cons, List.sum_cons, List.flatMap_cons, List.length_append]
    rw [h v (by simp), ih (fun w hw => h w (by simp [hw]))]

theorem zipWith_map_self {α β γ : Type} (l : List α) (f : α → β) (g : α → β → γ) :
    List.zipWith g l (l.map f) = l.map (fun x => g x (f x)) := by
  induction l with
  | nil => rfl
  | cons x l ih => simp [ih]

theorem listColumn_ok {f : AField} {rows : List AvroValue}
    (hr : ∀ v ∈ rows, unUnion v = .null ∨ ∃ vs, unUnion v = .array vs)
    (hn : f.nullable = false →
      countsNull f.type (rows.flatMap fun v => (items v).map arrowCell) = false) :
    listColumn f rows (rows.flatMap fun v => (items v).map arrowCell) = .ok (rows.map arrowCell) := by
  have hl : ∀ v ∈ rows, listLen v = ((items v).map arrowCell).length := by
    intro v hv; rw [items_length v (hr v hv), List.length_map]
  unfold listColumn
  rw [if_neg (by rw [sum_length rows _ _ hl]; omega)]
  rw [if_neg (by
    rintro ⟨h1, h2⟩
    rw [hn h1] at h2; cases h2)]
  rw [slices_flatMap rows _ _ hl, zipWith_map_self]
  congr 1
  apply List.map_congr_left
  intro v hv
  rw [← arrowCell_unUnion v]
  unfold listValid items
  rcases hr v hv with h | ⟨vs, h⟩
  · rw [h]; simp [arrowCell]
  · rw [h]; simp [arrowCell, cellsOf_eq]

theorem LVal.shape {lw lm u : Bool} {s : AvroSchema} {v : AvroValue} (h : LVal lw lm u s v) :
    unUnion v = .null ∨ ∃ vs, unUnion v = .array vs := by
  rcases h.1 with ⟨h, _⟩ | ⟨vs, h, _⟩
  · exact .inl h
  · exact .inr ⟨vs, h⟩

theorem LVal.items_at {lw lm u : Bool} {s : AvroSchema} {v : AvroValue} (h : LVal lw lm u s v) :
    ∀ x ∈ items v, At u u s x := by
  intro x hx
  unfold items at hx
  rcases h.1 with ⟨h, _⟩ | ⟨vs, h, hvs⟩
  · rw [h] at hx; simp at hx
  · rw [h] at hx; exact hvs x hx

theorem items_null (s : AvroSchema) {d lw lm : Bool} {f : AField} {rows : List AvroValue}
    {n : Option Str} {b : Bool} (hrd : Faithful (.item d lw lm false) s)
    (hf : schemaToField n b s = .ok f) (hr : ∀ v ∈ rows, LVal lw lm false s v)
    (hfn : f.nullable = false) :
    countsNull f.type (rows.flatMap fun v => (items v).map arrowCell) = false := by
  have hu : isUnion s = false := by
    by_contra hc
    rw [readable_union_nullable hrd hf (by simpa using hc)] at hfn
    cases hfn
  by_cases ht : f.type = .null
  · rw [ht]; rfl
  · have : (rows.flatMap fun v => (items v).map arrowCell).any Option.isNone = false := by
      rw [List.any_eq_false]
      intro c hc
      obtain ⟨v, hv, hc⟩ := List.mem_flatMap.1 hc
      obtain ⟨x, hx, rfl⟩ := List.mem_map.1 hc
      have hx := (hr v hv).items_at x hx
      unfold At at hx
      rw [if_neg (by simp [hu])] at hx
      have e := hx.2 rfl
      rcases hx.1 with ⟨_, h⟩ | h
      · cases h
      · rw [e] at h
        rcases cell_isSome hu hrd h hf with h | h
        · exact absurd h ht
        · simp [Option.isNone_iff_eq_none]
          intro hn; rw [hn] at h; cases h
    unfold countsNull
    split
    · rfl
    · exact this

theorem flatMap_congr' {α β : Type} {l : List α} {f g : α → List β} (h : ∀ x ∈ l, f x = g x) :
    l.flatMap f = l.flatMap g := by
  induction l with
  | nil => rfl
  | cons x l ih =>
    rw [List.flatMap_cons, List.flatMap_cons, h x (by simp), ih (fun y hy => h y (by simp [hy]))]

theorem numChild_ok {t : Native} {rows : List AvroValue}
    (h : ∀ v ∈ rows, (unUnion v = .null ∨ ∃ vs, unUnion v = .array vs) ∧
      ∀ x ∈ items v, resolveNum t x = .ok (arrowCell x)) :
    numChild t rows = .ok (rows.flatMap fun v => (items v).map arrowCell) := by
  unfold numChild
  rw [mapL_map (g := fun v => (items v).map arrowCell)]
  · simp [List.flatMap_def]
  · intro v hv
    obtain ⟨h1, h2⟩ := h v hv
    unfold numItems
    unfold items at h2 ⊢
    rcases h1 with h1 | ⟨vs, h1⟩
    · rw [h1]; simp [resolveNum, unUnion]
    · rw [h1] at h2 ⊢; exact mapL_map h2

theorem stringChild_ok {rows : List AvroValue}
    (h : ∀ v ∈ rows, (unUnion v = .null ∨ ∃ vs, unUnion v = .array vs) ∧
      ∀ x ∈ items v, resolveString x = .ok (arrowCell x)) :
    rows.flatMap stringItems = rows.flatMap fun v => (items v).map arrowCell := by
  apply flatMap_congr'
  intro v hv
  obtain ⟨h1, h2⟩ := h v hv
  unfold stringItems
  unfold items at h2 ⊢
  rcases h1 with h1 | ⟨vs, h1⟩
  · rw [h1]; simp
  · rw [h1] at h2 ⊢
    apply List.map_congr_left
    intro x hx
    rw [h2 x hx]
    simp [Res.toOption]

theorem boolChild_ok {rows : List AvroValue}
    (h : ∀ v ∈ rows, v = .null ∨ ∃ vs, v = .array vs ∧ ∀ x ∈ vs, ∃ b, x = .boolean b) :
    boolChild (rows.map listLen).sum rows = rows.flatMap fun v => (items v).map arrowCell := by
  have h1 : ∀ v ∈ rows, boolItems v = (items v).map arrowCell := by
    intro v hv
    rcases h v hv with rfl | ⟨vs, rfl, hx⟩
    · rfl
    · simp only [boolItems, items, unUnion]
      apply List.map_congr_left
      intro x hx'
      obtain ⟨b, rfl⟩ := hx x hx'
      simp [arrowCell]
  have h2 : ∀ v ∈ rows, listLen v = ((items v).map arrowCell).length := by
    intro v hv
    rw [items_length, List.length_map]
    rcases h v hv with rfl | ⟨vs, rfl, hx⟩
    · exact .inl rfl
    · exact .inr ⟨vs, rfl⟩
  unfold boolChild
  rw [flatMap_congr' h1, sum_length rows _ _ h2]
  simp

/-! ## Structs -/

/-- The slot of a field by position. -/
def cellAt (j : Nat) (r : Row) : ACell := ((r[j]?).map Prod.snd).bind arrowCell

theorem transpose_cols (rows : List Row) (js : List Nat) :
    transpose rows.length (js.map fun j => rows.map (cellAt j)) =
      rows.map fun r => js.map fun j => cellAt j r := by
  induction rows with
  | nil => rfl
  | cons r rows ih =>
    simp only [List.length_cons, transpose, List.map_cons, List.map_map]
    congr 1

theorem range_cells (fs : List (Str × AvroSchema)) (i : Nat) (r : Row) (b : Bytes)
    (h : EncFields fs (r.drop i) b) :
    (List.range' i fs.length).map (fun j => cellAt j r) = fieldCells (r.drop i) := by
  induction fs generalizing i b with
  | nil => obtain ⟨h, _⟩ := h; rw [h]; rfl
  | cons p fs ih =>
    obtain ⟨n, s⟩ := p
    obtain ⟨v, ws, c, d, e, _, h2, _⟩ := h
    rw [e]
    have e2 : r.drop (i + 1) = ws := by
      rw [← List.drop_drop, e]; rfl
    have e1 : r[i]? = some (n, v) := by
      rw [← List.head?_drop, e]; rfl
    simp only [List.length_cons, List.range'_succ, List.map_cons, fieldCells]
    rw [ih (i + 1) d (by rw [e2]; exact h2), e2]
    congr 1
    unfold cellAt
    rw [e1]; rfl

/-- A row of a struct column: the fields of a record, or nothing. -/
def RowOf (m : Bool) (fs : List (Str × AvroSchema)) (i : Nat) (r : Row) : Prop :=
  (m = true ∧ (r = [] ∨ r = [(c!"null", .null)])) ∨ ∃ b, EncFields fs (r.drop i) b

theorem RowOf.next {m : Bool} {n : Str} {s : AvroSchema} {fs : List (Str × AvroSchema)} {i : Nat}
    {r : Row} (h : RowOf m ((n, s) :: fs) i r) : RowOf m fs (i + 1) r := by
  rcases h with h | ⟨b, v, ws, c, d, e, _, h2, _⟩
  · exact .inl h
  · refine .inr ⟨d, ?_⟩
    rw [← List.drop_drop, e]
    exact h2

theorem RowOf.at {m : Bool} {n : Str} {s : AvroSchema} {fs : List (Str × AvroSchema)} {i : Nat}
    {r : Row} (h : RowOf m ((n, s) :: fs) i r) :
    ((r[i]?).map Prod.snd = none ∧ m = true) ∨
      ∃ v, (r[i]?).map Prod.snd = some v ∧ At false m s v := by
  rcases h with ⟨rfl, rfl | rfl⟩ | ⟨b, v, ws, c, d, e, h1, _⟩
  · exact .inl ⟨by simp, rfl⟩
  · cases i with
    | zero => exact .inr ⟨.null, rfl, at_null⟩
    | succ i => exact .inl ⟨by simp, rfl⟩
  · refine .inr ⟨v, ?_, at_of_hasType ⟨c, h1⟩⟩
    rw [← List.head?_drop, e]; rfl

theorem structValid_ok (m : Bool) (fs : List (Str × AvroSchema)) (i : Nat) (fields : List AField)
    (hf : List.Forall₂ FieldOf fs fields) (hrd : FaithfulFields m fs) (rows : List Row)
    (valid : List Bool)
    (hv : ∀ q ∈ valid.zip rows, q.1 = true → ∃ b, EncFields fs (q.2.drop i) b) :
    structValid fields valid ((List.range' i fs.length).map fun j => rows.map (cellAt j)) = true := by
  induction hf generalizing i with
  | nil => rfl
  | @cons p f fs fields h1 h2 ih =>
    obtain ⟨n, s⟩ := p
    obtain ⟨_, ⟨nm, nl, g, hg, hgt⟩, hnul⟩ := h1
    have hih := ih (i + 1) hrd.2 (by
      intro q hq hq1
      obtain ⟨b, v, ws, c, d, e, _, h3, _⟩ := hv q hq hq1
      exact ⟨d, by rw [← List.drop_drop, e]; exact h3⟩)
    unfold structValid at hih ⊢
    simp only [List.length_cons, List.range'_succ, List.map_cons, List.zip_cons_cons, List.all_cons,
      Bool.and_eq_true]
    refine ⟨⟨?_, ?_⟩, hih⟩
    · rw [← hgt]
      have hrd1 := hrd.1
      cases s with
      | union vs =>
        obtain ⟨q, _, hq⟩ := readable_opt hrd1
        obtain ⟨a, b, rfl, hab⟩ := readableOpt_cases hq
        have : ∀ x, isNullSchema x = false → Faithful q x → (∃ g', schemaToField none true x = .ok g' ∧
            g'.type = g.type) → builtAs g.type = true := by
          intro x _ hx ⟨g', h1, h2⟩
          rw [← h2]
          cases x with
          | union vs => simp [Faithful, opt_opt ‹_›] at hx
          | bigDecimal => cases q <;> simp [Faithful] at hx
          | array s =>
            simp only [schemaToField] at h1
            obtain ⟨_, _, h1⟩ := Res.bind_eq_ok.1 h1
            cases h1; rfl
          | map s =>
            simp only [schemaToField] at h1
            obtain ⟨_, _, h1⟩ := Res.bind_eq_ok.1 h1
            cases h1; rfl
          | record s =>
            simp only [schemaToField] at h1
            obtain ⟨_, _, h1⟩ := Res.bind_eq_ok.1 h1
            cases h1; rfl
          | ref n => cases h1
          | localTimestampMillis => cases h1
          | localTimestampMicros => cases h1
          | localTimestampNanos => cases h1
          | _ => cases h1; rfl
        rcases hab with ⟨ha, hb, hr⟩ | ⟨hb, ha, hr⟩
        · exact this b hb hr (schemaToField_opt (x := b) ⟨a, b, rfl, .inl ⟨ha, rfl⟩⟩ hb hg).2
        · exact this a ha hr (schemaToField_opt (x := a) ⟨a, b, rfl, .inr ⟨hb, rfl⟩⟩ ha hg).2
      | bigDecimal => simp [Faithful] at hrd1
      | array s =>
        simp only [schemaToField] at hg
        obtain ⟨_, _, hg⟩ := Res.bind_eq_ok.1 hg
        cases hg; rfl
      | map s =>
        simp only [schemaToField] at hg
        obtain ⟨_, _, hg⟩ := Res.bind_eq_ok.1 hg
        cases hg; rfl
      | record s =>
        simp only [schemaToField] at hg
        obtain ⟨_, _, hg⟩ := Res.bind_eq_ok.1 hg
        cases hg; rfl
      | ref n => cases hg
      | localTimestampMillis => cases hg
      | localTimestampMicros => cases hg
      | localTimestampNanos => cases hg
      | _ => cases hg; rfl
    · by_cases hfn : f.nullable = true
      · simp [hfn]
      · have hu : isUnion s = false := by
          by_contra hc
          exact hfn (hnul (by simpa using hc))
        rw [Bool.or_eq_true]
        right
        rw [Bool.not_eq_true']
        by_cases ht : f.type = .null
        · rw [ht]; rfl
        · have : ((valid.zip (rows.map (cellAt i))).filterMap
              fun q => if q.1 then some q.2 else none).any Option.isNone = false := by
            rw [List.any_eq_false]
            intro c hc
            obtain ⟨q, hq, hc⟩ := List.mem_filterMap.1 hc
            by_cases hq1 : q.1 = true
            · rw [if_pos hq1] at hc
              cases hc
              rw [List.zip_map_right] at hq
              obtain ⟨q', hq', rfl⟩ := List.mem_map.1 hq
              obtain ⟨b, v, ws, c, d, e, h3, _⟩ := hv q' hq' hq1
              have : cellAt i q'.2 = arrowCell v := by
                unfold cellAt
                rw [← List.head?_drop, e]; rfl
              simp only [Prod.map_snd, this]
              rcases cell_isSome hu hrd.1 ⟨c, h3⟩ hg with h | h
              · rw [hgt] at h; exact absurd h ht
              · intro hn
                rw [Option.isNone_iff_eq_none] at hn
                rw [hn] at h; cases h
            · rw [if_neg hq1] at hc; cases hc
          unfold countsNull
          split
          · rfl
          · exact this


/-! ## Arrays -/

mutual
/-- The paths of all record fields that are looked up lead to their positions. -/
def Good (lk : List (Str × Nat)) (path : Str) : AvroSchema → Prop
  | .record fs _ => GoodFields lk path 0 fs
  | .array s => Good lk (dotted path c!"element") s
  | .union vs => GoodAll lk path vs
  | _ => True
/-- The same for all variants. -/
def GoodAll (lk : List (Str × Nat)) (path : Str) : List AvroSchema → Prop
  | [] => True
  | s :: ss => Good lk path s ∧ GoodAll lk path ss
/-- The same for fields from a position on. -/
def GoodFields (lk : List (Str × Nat)) (path : Str) : Nat → List (Str × AvroSchema) → Prop
  | _, [] => True
  | i, (n, s) :: fs => lookupGet lk (fieldPath path n) = some i ∧ Good lk (fieldPath path n) s ∧
      GoodFields lk path (i + 1) fs
end

theorem items_mem {α : Type} {P : α → Bytes → Prop} {vs : List α} {b : Bytes} (h : Items P vs b) :
    ∀ x ∈ vs, ∃ c, P x c := by
  induction h with
  | nil => intro x hx; cases hx
  | @cons v vs c bs h1 _ ih =>
    intro x hx
    rcases List.mem_cons.1 hx with rfl | hx
    · exact ⟨c, h1⟩
    · exact ih x hx

theorem blocks_mem {α : Type} {P : α → Bytes → Prop} {vs : List α} {b : Bytes} (h : Blocks P vs b) :
    ∀ x ∈ vs, ∃ c, P x c := by
  induction h with
  | done => intro x hx; cases hx
  | block _ _ hi _ ih =>
    intro x hx
    rcases List.mem_append.1 hx with hx | hx
    · exact items_mem hi x hx
    · exact ih x hx
  | sized _ _ hi _ _ ih =>
    intro x hx
    rcases List.mem_append.1 hx with hx | hx
    · exact items_mem hi x hx
    · exact ih x hx

theorem lval_of_fval {w m : Bool} {s : AvroSchema} {v : AvroValue} (h : FVal w m (.array s) v) :
    LVal w m false s v := by
  refine ⟨?_, h.2⟩
  rcases h.1 with h | ⟨b, vs, e, h⟩
  · exact .inl h
  · exact .inr ⟨vs, e, fun x hx => at_of_hasType (blocks_mem h x hx)⟩

theorem fval_of_at {w m : Bool} {s : AvroSchema} {v : AvroValue} (hs : isUnion s = false)
    (h : At w m s v) : FVal w m s v := by
  unfold At at h
  rwa [if_neg (by simp [hs])] at h

theorem schemaToField_name {n : Str} {b : Bool} {s : AvroSchema} {f : AField}
    (h : schemaToField (some n) b s = .ok f) : f.name = n := by
  cases s with
  | array s =>
    simp only [schemaToField] at h
    obtain ⟨g, hg, h⟩ := Res.bind_eq_ok.1 h
    cases h; rfl
  | map s =>
    simp only [schemaToField] at h
    obtain ⟨g, hg, h⟩ := Res.bind_eq_ok.1 h
    cases h; rfl
  | union vs =>
    simp only [schemaToField] at h
    split at h
    · obtain ⟨g, hg, h⟩ := Res.bind_eq_ok.1 h
      cases h; rfl
    · obtain ⟨g, hg, h⟩ := Res.bind_eq_ok.1 h
      cases h; rfl
  | record fs =>
    simp only [schemaToField] at h
    obtain ⟨g, hg, h⟩ := Res.bind_eq_ok.1 h
    cases h; rfl
  | ref n => cases h
  | localTimestampMillis => cases h
  | localTimestampMicros => cases h
  | localTimestampNanos => cases h
  | _ => cases h; rfl

theorem structFields_of {m : Bool} {docs : List (Option Str)} {fs : List (Str × AvroSchema)}
    {fields : List AField} (hrd : FaithfulFields m fs) (h : structFields docs fs = .ok fields) :
    List.Forall₂ FieldOf fs fields := by
  induction fs generalizing docs fields with
  | nil => cases h; exact .nil
  | cons p fs ih =>
    obtain ⟨n, s⟩ := p
    simp only [structFields] at h
    obtain ⟨f, hf, h⟩ := Res.bind_eq_ok.1 h
    obtain ⟨rest, hr, h⟩ := Res.bind_eq_ok.1 h
    cases h
    have hu : isUnion s = true → f.nullable = true := readable_union_nullable hrd.1 hf
    exact .cons ⟨(schemaToField_name hf : f.name = n), ⟨_, _, f, hf, rfl⟩, hu⟩
      (ih hrd.2 hr)

theorem topFields_of {m : Bool} {fs : List (Str × AvroSchema)} {fields : List AField}
    (hrd : FaithfulFields m fs) (h : topFields fs = .ok fields) :
    List.Forall₂ FieldOf fs fields := by
  induction fs generalizing fields with
  | nil => cases h; exact .nil
  | cons p fs ih =>
    obtain ⟨n, s⟩ := p
    simp only [topFields] at h
    obtain ⟨f, hf, h⟩ := Res.bind_eq_ok.1 h
    obtain ⟨rest, hr, h⟩ := Res.bind_eq_ok.1 h
    cases h
    exact .cons ⟨schemaToField_name hf, ⟨_, _, f, hf, rfl⟩, readable_union_nullable hrd.1 hf⟩
      (ih hrd.2 hr)

/-- A struct column. -/
theorem struct_ok {m : Bool} {fs : List (Str × AvroSchema)} {fields : List AField}
    (hrd : FaithfulFields m fs) (hf : List.Forall₂ FieldOf fs fields) (ps : List (Bool × Row))
    (hp : ∀ p ∈ ps, p.1 = true → ∃ b, EncFields fs p.2 b) :
    structValid fields (ps.map Prod.fst)
        ((List.range' 0 fs.length).map fun j => (ps.map Prod.snd).map (cellAt j)) = true ∧
      structColumn (ps.map Prod.fst)
        ((List.range' 0 fs.length).map fun j => (ps.map Prod.snd).map (cellAt j)) =
        ps.map fun p => if p.1 = true then some (.struct (fieldCells p.2)) else none := by
  constructor
  · apply structValid_ok m fs 0 fields hf hrd
    intro q hq h1
    have : (ps.map Prod.fst).zip (ps.map Prod.snd) = ps := by
      rw [List.zip_map', List.map_id'']
      intro p; rfl
    rw [this] at hq
    exact hp q hq h1
  · unfold structColumn
    have hl : (ps.map Prod.fst).length = (ps.map Prod.snd).length := by simp
    rw [hl, transpose_cols, List.map_map, List.zipWith_map, List.zipWith_self]
    apply List.map_congr_left
    intro p hp'
    by_cases h1 : p.1 = true
    · rw [if_pos h1, if_pos h1]
      obtain ⟨b, h⟩ := hp p hp' h1
      simp only [Function.comp_apply]
      rw [range_cells fs 0 p.2 b (by simpa using h)]
      rfl
    · rw [if_neg h1, if_neg h1]

/-- The record in a slot, or nothing. -/
def recordRow (d : Row) (v : Option AvroValue) : Bool × Row :=
  match v.map unUnion with
  | some (.record r) => (true, r)
  | _ => (false, d)

theorem listField_ok {lk : List (Str × Nat)} {path : Str} {rows : List AvroValue} {g : AField}
    (hc : listChild lk path rows g.name g.type = .ok (rows.flatMap fun v => (items v).map arrowCell))
    (hr : ∀ v ∈ rows, unUnion v = .null ∨ ∃ vs, unUnion v = .array vs)
    (hn : g.nullable = false →
      countsNull g.type (rows.flatMap fun v => (items v).map arrowCell) = false) :
    buildListField lk path rows g = .ok (rows.map arrowCell) := by
  obtain ⟨n, t, b⟩ := g
  simp only [buildListField]
  simp only at hc
  rw [hc]
  exact listColumn_ok hr hn

/-- The rows of a field. -/
def RowsAt (lk : List (Str × Nat)) (path : Str) (w m : Bool) (s : AvroSchema) (rows : List Row) :
    Prop :=
  ∀ r ∈ rows, (fieldLookup lk path r = none ∧ m = true) ∨
    ∃ v, fieldLookup lk path r = some v ∧ At w m s v

theorem cellsOfNum {lk : List (Str × Nat)} {path : Str} {rows : List Row} {t : Native}
    {w m : Bool} {s : AvroSchema} (hs : isUnion s = false) (hr : RowsAt lk path w m s rows)
    (h : ∀ v, FVal w m s v → resolveNum t v = .ok (arrowCell v)) :
    numColumn lk path t rows = .ok (rows.map fun r => (fieldLookup lk path r).bind arrowCell) := by
  apply mapL_map
  intro r hr'
  unfold numCell
  rcases hr r hr' with ⟨e, _⟩ | ⟨v, e, hv⟩
  · rw [e]; rfl
  · rw [e]; exact h v (fval_of_at hs hv)

theorem cellsOfString {lk : List (Str × Nat)} {path : Str} {rows : List Row}
    {w m : Bool} {s : AvroSchema} (hs : isUnion s = false) (hr : RowsAt lk path w m s rows)
    (h : ∀ v, FVal w m s v → resolveString v = .ok (arrowCell v)) :
    Res.mapL (stringCell lk path) rows =
      .ok (rows.map fun r => (fieldLookup lk path r).bind arrowCell) := by
  apply mapL_map
  intro r hr'
  unfold stringCell
  rcases hr r hr' with ⟨e, _⟩ | ⟨v, e, hv⟩
  · rw [e]; rfl
  · rw [e]; exact h v (fval_of_at hs hv)

theorem cellsOfPlain {lk : List (Str × Nat)} {path : Str} {rows : List Row} {g : AvroValue → ACell}
    {w m : Bool} {s : AvroSchema} (hs : isUnion s = false) (hr : RowsAt lk path w m s rows)
    (h : ∀ v, FVal w m s v → g v = arrowCell v) :
    (rows.map fun r => (fieldLookup lk path r).bind g) =
      rows.map fun r => (fieldLookup lk path r).bind arrowCell := by
  apply List.map_congr_left
  intro r hr'
  rcases hr r hr' with ⟨e, _⟩ | ⟨v, e, hv⟩
  · rw [e]; rfl
  · rw [e]; exact h v (fval_of_at hs hv)

theorem wrapInt32_small {n : Nat} (h : n < 2 ^ 31) : wrapInt 32 n = (n : Int) := by
  unfold wrapInt
  rw [Nat.mod_eq_of_lt (by omega), if_pos (by omega)]

mutual
theorem array_ok (s : AvroSchema) (w m : Bool) (lk : List (Str × Nat)) (path : Str) (rows : List Row)
    (n : Option Str) (nul : Bool) (f : AField) (hrd : Faithful (.field w m) s)
    (hg : Good lk path s) (hr : RowsAt lk path w m s rows) (hf : schemaToField n nul s = .ok f) :
    buildArray lk path rows f.type =
      .ok (rows.map fun r => (fieldLookup lk path r).bind arrowCell) := by
  match s with
  | .null =>
    cases hf
    simp only [finishField, buildArray]
    congr 1
    apply List.map_congr_left
    intro r hr'
    rcases hr r hr' with ⟨e, _⟩ | ⟨v, e, hv⟩
    · rw [e]; rfl
    · rw [e]; exact (cell_null (fval_of_at rfl hv)).symm
  | .boolean =>
    cases hf
    simp only [finishField, buildArray, booleanColumn]
    rw [cellsOfPlain rfl hr fun v => resolveBoolean_ok]
  | .int => cases hf; exact cellsOfNum rfl hr fun v => resolveNum_ok (by simp)
  | .long => cases hf; exact cellsOfNum rfl hr fun v => resolveNum_ok (by simp)
  | .float => cases hf; exact cellsOfNum rfl hr fun v => resolveNum_ok (by simp)
  | .double => cases hf; exact cellsOfNum rfl hr fun v => resolveNum_ok (by simp)
  | .date => cases hf; exact cellsOfNum rfl hr fun v => resolveNum_ok (by simp)
  | .timeMillis => cases hf; exact cellsOfNum rfl hr fun v => resolveNum_ok (by simp)
  | .timeMicros => cases hf; exact cellsOfNum rfl hr fun v => resolveNum_ok (by simp)
  | .timestampMillis => cases hf; exact cellsOfNum rfl hr fun v => resolveNum_ok (by simp)
  | .timestampMicros => cases hf; exact cellsOfNum rfl hr fun v => resolveNum_ok (by simp)
  | .bytes =>
    cases hf
    simp only [finishField, buildArray]
    rw [cellsOfPlain rfl hr fun v => resolveBytes_ok]
  | .string => cases hf; exact cellsOfString rfl hr fun v => resolveString_ok (.inl rfl)
  | .enum y => cases hf; exact cellsOfString rfl hr fun v => resolveString_ok (.inr ⟨y, rfl⟩)
  | .fixed k =>
    cases hf
    have hk : k < 2 ^ 31 := hrd
    simp only [finishField, buildArray]
    rw [wrapInt32_small hk, if_neg (by omega), Int.toNat_natCast]
    apply mapL_map
    intro r hr'
    unfold fixedCell
    rcases hr r hr' with ⟨e, _⟩ | ⟨v, e, hv⟩
    · rw [e]; rfl
    · rw [e]
      simp only [Option.bind_some]
      rcases resolveFixed_ok (fval_of_at rfl hv) with ⟨h1, h2⟩ | ⟨b, h1, h2, h3⟩
      · rw [h1, h2]
      · rw [h1, h3]; simp only [h2, if_true]
  | .array s =>
    simp only [schemaToField] at hf
    obtain ⟨g, hg', hf⟩ := Res.bind_eq_ok.1 hf
    cases hf
    simp only [finishField, buildArray]
    have hL : ∀ v ∈ rows.map (extractRow lk path), LVal w m false s v := by
      intro v hv
      obtain ⟨r, hr', rfl⟩ := List.mem_map.1 hv
      unfold extractRow
      rcases hr r hr' with ⟨e, hm⟩ | ⟨v, e, hv⟩
      · rw [e]; exact ⟨.inl ⟨rfl, hm⟩, fun _ => rfl⟩
      · rw [e]; exact lval_of_fval (fval_of_at rfl hv)
    have hc := list_ok s false w m false lk path _ c!"element" g hrd (fun _ => hg) hL hg'
    rw [listField_ok (by rw [schemaToField_name hg']; exact hc) (fun v hv => (hL v hv).shape)
      (items_null s hrd hg' hL)]
    rw [List.map_map]
    congr 1
    apply List.map_congr_left
    intro r _
    simp only [Function.comp_apply, extractRow]
    cases fieldLookup lk path r <;> simp [arrowCell]
  | .record fs _ =>
    simp only [schemaToField] at hf
    obtain ⟨fields, hfs, hf⟩ := Res.bind_eq_ok.1 hf
    cases hf
    simp only [finishField, buildArray]
    have hof := structFields_of (m := m) hrd hfs
    have h1 : Res.mapL (structRow lk path) rows =
        .ok (rows.map fun r => recordRow [] (fieldLookup lk path r)) := by
      apply mapL_map
      intro r hr'
      unfold structRow recordRow
      rcases hr r hr' with ⟨e, hm⟩ | ⟨v, e, hv⟩
      · rw [e]; rfl
      · rw [e]
        simp only [Option.map_some]
        rcases (fval_of_at rfl hv).1 with ⟨h, _⟩ | ⟨b, vs, h, _⟩
        · rw [h]
        · rw [h]
    have h2 : ∀ p ∈ rows.map (fun r => recordRow [] (fieldLookup lk path r)),
        (p.1 = true ∧ ∃ b, EncFields fs p.2 b) ∨ (p.1 = false ∧ m = true ∧ p.2 = []) := by
      intro p hp
      obtain ⟨r, hr', rfl⟩ := List.mem_map.1 hp
      unfold recordRow
      rcases hr r hr' with ⟨e, hm⟩ | ⟨v, e, hv⟩
      · rw [e]; exact .inr ⟨rfl, hm, rfl⟩
      · rw [e]
        simp only [Option.map_some]
        rcases (fval_of_at rfl hv).1 with ⟨h, hm⟩ | ⟨b, vs, h, h3⟩
        · rw [h]; exact .inr ⟨rfl, hm, rfl⟩
        · rw [h]; exact .inl ⟨rfl, b, h3⟩
    have h3 := fields_ok fs 0 m lk path
      ((rows.map fun r => recordRow [] (fieldLookup lk path r)).map Prod.snd) fields hrd hg hof (by
        intro r hr'
        obtain ⟨p, hp, rfl⟩ := List.mem_map.1 hr'
        rcases h2 p hp with ⟨_, b, h⟩ | ⟨_, hm, h⟩
        · exact .inr ⟨b, by simpa using h⟩
        · exact .inl ⟨hm, .inl h⟩)
    obtain ⟨h4, h5⟩ := struct_ok (m := m) hrd hof
      (rows.map fun r => recordRow [] (fieldLookup lk path r)) (by
        intro p hp hp1
        rcases h2 p hp with ⟨_, b, h⟩ | ⟨h, _⟩
        · exact ⟨b, h⟩
        · rw [hp1] at h; cases h)
    rw [h1]
    simp only [Res.ok_bind]
    rw [h3]
    simp only [Res.ok_bind]
    rw [if_pos h4, h5]
    simp only [Res.pure_eq, List.map_map]
    congr 1
    apply List.map_congr_left
    intro r hr'
    simp only [Function.comp_apply]
    unfold recordRow
    rcases hr r hr' with ⟨e, hm⟩ | ⟨v, e, hv⟩
    · rw [e]; rfl
    · rw [e]
      simp only [Option.map_some, Option.bind_some]
      rw [← arrowCell_unUnion v]
      rcases (fval_of_at rfl hv).1 with ⟨h, _⟩ | ⟨b, vs, h, _⟩
      · rw [h]; simp [arrowCell]
      · rw [h]; simp [arrowCell]
  | .union vs =>
    obtain ⟨q, hq, hv⟩ := readable_opt hrd
    have hw : w = false := by
      cases w with
      | false => rfl
      | true => cases hq
    subst hw
    cases hq
    exact opt_ok vs m lk path rows n nul f hv hg hr hf
  | .map _ => simp [Faithful] at hrd
  | .decimal _ _ _ => simp [Faithful] at hrd
  | .bigDecimal => simp [Faithful] at hrd
  | .uuid => simp [Faithful] at hrd
  | .timestampNanos => simp [Faithful] at hrd
  | .localTimestampMillis => simp [Faithful] at hrd
  | .localTimestampMicros => simp [Faithful] at hrd
  | .localTimestampNanos => simp [Faithful] at hrd
  | .duration => simp [Faithful] at hrd
  | .ref _ => simp [Faithful] at hrd
termination_by structural s
theorem opt_ok (vs : List AvroSchema) (m : Bool) (lk : List (Str × Nat)) (path : Str)
    (rows : List Row) (n : Option Str) (nul : Bool) (f : AField)
    (hrd : FaithfulOpt (.field true true) vs) (hg : GoodAll lk path vs)
    (hr : RowsAt lk path false m (.union vs) rows) (hf : schemaToField n nul (.union vs) = .ok f) :
    buildArray lk path rows f.type =
      .ok (rows.map fun r => (fieldLookup lk path r).bind arrowCell) := by
  match vs with
  | [] => exact hrd.elim
  | [_] => exact hrd.elim
  | _ :: _ :: _ :: _ => exact hrd.elim
  | [a, b] =>
    rcases hrd with ⟨ha, hb, hrb⟩ | ⟨hb, ha, hra⟩
    · have hv : ∃ a' b', [a, b] = [a', b'] ∧ ((isNullSchema a' = true ∧ b = b') ∨
          (isNullSchema b' = true ∧ b = a')) := ⟨a, b, rfl, .inl ⟨ha, rfl⟩⟩
      obtain ⟨_, g, hg1, hg2⟩ := schemaToField_opt hv hb hf
      rw [← hg2]
      refine array_ok b true true lk path rows none true g hrb hg.2.1 ?_ hg1
      intro r hr'
      rcases hr r hr' with ⟨e, _⟩ | ⟨v, e, h⟩
      · exact .inl ⟨e, rfl⟩
      · exact .inr ⟨v, e, at_opt hv (readable_not_union rfl hrb) h⟩
    · have hv : ∃ a' b', [a, b] = [a', b'] ∧ ((isNullSchema a' = true ∧ a = b') ∨
          (isNullSchema b' = true ∧ a = a')) := ⟨a, b, rfl, .inr ⟨hb, rfl⟩⟩
      obtain ⟨_, g, hg1, hg2⟩ := schemaToField_opt hv ha hf
      rw [← hg2]
      refine array_ok a true true lk path rows none true g hra hg.1 ?_ hg1
      intro r hr'
      rcases hr r hr' with ⟨e, _⟩ | ⟨v, e, h⟩
      · exact .inl ⟨e, rfl⟩
      · exact .inr ⟨v, e, at_opt hv (readable_not_union rfl hra) h⟩
termination_by structural vs
theorem fields_ok (fs : List (Str × AvroSchema)) (i : Nat) (m : Bool) (lk : List (Str × Nat))
    (path : Str) (rows : List Row) (fields : List AField) (hrd : FaithfulFields m fs)
    (hg : GoodFields lk path i fs) (hf : List.Forall₂ FieldOf fs fields)
    (hr : ∀ r ∈ rows, RowOf m fs i r) :
    buildStruct lk path rows fields =
      .ok ((List.range' i fs.length).map fun j => rows.map (cellAt j)) := by
  match fs with
  | [] => cases hf; rfl
  | (n, s) :: fs =>
    cases hf with
    | @cons _ f _ fields h1 h2 =>
      obtain ⟨hn, ⟨nm, nl, g, hg1, hg2⟩, _⟩ := h1
      have hl : ∀ r, fieldLookup lk (fieldPath path n) r = (r[i]?).map Prod.snd := by
        intro r; unfold fieldLookup; rw [hg.1]; rfl
      have ha := array_ok s false m lk (fieldPath path n) rows nm nl g hrd.1 hg.2.1 (by
        intro r hr'
        rw [hl]
        exact (hr r hr').at) hg1
      have hb := fields_ok fs (i + 1) m lk path rows fields hrd.2 hg.2.2 h2
        (fun r hr' => (hr r hr').next)
      obtain ⟨fn, ft, fb⟩ := f
      simp only at hn hg2
      subst hn
      simp only [buildStruct]
      rw [← hg2, ha]
      simp only [Res.ok_bind]
      rw [hb]
      simp only [Res.ok_bind, Res.pure_eq, List.length_cons, List.range'_succ, List.map_cons]
      congr 2
      apply List.map_congr_left
      intro r _
      rw [hl]; rfl
termination_by structural fs
theorem list_ok (s : AvroSchema) (d lw lm u : Bool) (lk : List (Str × Nat)) (path : Str)
    (rows : List AvroValue) (n : Str) (f : AField)
    (hrd : Faithful (.item d lw lm u) s)
    (hg : d = false → Good lk (dotted path n) s) (hr : ∀ v ∈ rows, LVal lw lm u s v)
    {on : Option Str} {nul : Bool} (hf : schemaToField on nul s = .ok f) :
    listChild lk path rows n f.type = .ok (rows.flatMap fun v => (items v).map arrowCell) := by
  have hnum : isUnion s = false → ∀ t, (∀ x, FVal u u s x → resolveNum t x = .ok (arrowCell x)) →
      numChild t rows = .ok (rows.flatMap fun v => (items v).map arrowCell) := by
    intro hs t h
    apply numChild_ok
    intro v hv
    exact ⟨(hr v hv).shape, fun x hx => h x (fval_of_at hs ((hr v hv).items_at x hx))⟩
  have hstr : isUnion s = false → (∀ x, FVal u u s x → resolveString x = .ok (arrowCell x)) →
      Res.ok (rows.flatMap stringItems) = .ok (rows.flatMap fun v => (items v).map arrowCell) := by
    intro hs h
    congr 1
    apply stringChild_ok
    intro v hv
    exact ⟨(hr v hv).shape, fun x hx => h x (fval_of_at hs ((hr v hv).items_at x hx))⟩
  match s with
  | .null =>
    cases hf
    simp only [finishField, listChild]
    congr 1
    have hl : ∀ v ∈ rows, listLen v = ((items v).map arrowCell).length := by
      intro v hv; rw [items_length v (hr v hv).shape, List.length_map]
    rw [sum_length rows _ _ hl]
    symm
    rw [List.eq_replicate_iff]
    refine ⟨rfl, ?_⟩
    intro c hc
    obtain ⟨v, hv, hc⟩ := List.mem_flatMap.1 hc
    obtain ⟨x, hx, rfl⟩ := List.mem_map.1 hc
    exact cell_null (fval_of_at rfl ((hr v hv).items_at x hx))
  | .boolean =>
    obtain ⟨rfl, rfl⟩ : lw = false ∧ u = false := hrd
    cases hf
    simp only [finishField, listChild]
    congr 1
    apply boolChild_ok
    intro v hv
    have h := hr v hv
    rcases h.1 with ⟨h1, _⟩ | ⟨vs, h1, h2⟩
    · rw [h.2 rfl] at h1; exact .inl h1
    · rw [h.2 rfl] at h1
      refine .inr ⟨vs, h1, ?_⟩
      intro x hx
      have h3 := fval_of_at rfl (h2 x hx)
      rcases h3.1 with ⟨_, h⟩ | ⟨b, y, h, _⟩
      · cases h
      · rw [h3.2 rfl] at h; exact ⟨y, h⟩
  | .int => cases hf; exact hnum rfl _ fun v => resolveNum_ok (by simp)
  | .long => cases hf; exact hnum rfl _ fun v => resolveNum_ok (by simp)
  | .float => cases hf; exact hnum rfl _ fun v => resolveNum_ok (by simp)
  | .double => cases hf; exact hnum rfl _ fun v => resolveNum_ok (by simp)
  | .string => cases hf; exact hstr rfl fun v => resolveString_ok (.inl rfl)
  | .enum y => cases hf; exact hstr rfl fun v => resolveString_ok (.inr ⟨y, rfl⟩)
  | .array s =>
    obtain ⟨rfl, hrd⟩ : lm = false ∧ Faithful (.item true u u false) s := hrd
    simp only [schemaToField] at hf
    obtain ⟨g, hg', hf⟩ := Res.bind_eq_ok.1 hf
    cases hf
    simp only [finishField, listChild]
    have hfl : rows.flatMap flattenRow = rows.flatMap items := by
      apply flatMap_congr'
      intro v hv
      unfold flattenRow items
      rcases (hr v hv).1 with ⟨_, h⟩ | ⟨vs, h, _⟩
      · cases h
      · rw [h]
    rw [hfl]
    have hL : ∀ v ∈ rows.flatMap items, LVal u u false s v := by
      intro v hv
      obtain ⟨w, hw, hv⟩ := List.mem_flatMap.1 hv
      exact lval_of_fval (fval_of_at rfl ((hr w hw).items_at v hv))
    have hc := list_ok s true u u false lk path _ g.name g hrd (fun h => by cases h) hL hg'
    rw [listField_ok hc (fun v hv => (hL v hv).shape) (items_null s hrd hg' hL)]
    rw [List.map_flatMap]
  | .record fs _ =>
    obtain ⟨rfl, rfl, hrd⟩ : lm = false ∧ d = false ∧ FaithfulFields u fs := hrd
    simp only [schemaToField] at hf
    obtain ⟨fields, hfs, hf⟩ := Res.bind_eq_ok.1 hf
    cases hf
    simp only [finishField, listChild]
    have hof := structFields_of (m := u) hrd hfs
    have h1 : Res.mapL structItems rows =
        .ok (rows.map fun v => (items v).map fun x => recordRow [(c!"null", .null)] (some x)) := by
      apply mapL_map
      intro v hv
      have hx := (hr v hv).items_at
      unfold structItems
      unfold items at hx ⊢
      rcases (hr v hv).1 with ⟨_, h⟩ | ⟨vs, h, _⟩
      · cases h
      · rw [h] at hx ⊢
        apply mapL_map
        intro x hx'
        unfold structItem recordRow
        simp only [Option.map_some]
        rcases (fval_of_at rfl (hx x hx')).1 with ⟨h, _⟩ | ⟨b, vs, h, _⟩
        · rw [h]
        · rw [h]
    have h2 : ∀ p ∈ (rows.map fun v => (items v).map fun x =>
          recordRow [(c!"null", .null)] (some x)).flatten,
        (p.1 = true ∧ ∃ b, EncFields fs p.2 b) ∨
          (p.1 = false ∧ u = true ∧ p.2 = [(c!"null", .null)]) := by
      intro p hp
      rw [← List.flatMap_def] at hp
      obtain ⟨v, hv, hp⟩ := List.mem_flatMap.1 hp
      obtain ⟨x, hx, rfl⟩ := List.mem_map.1 hp
      unfold recordRow
      simp only [Option.map_some]
      rcases (fval_of_at rfl ((hr v hv).items_at x hx)).1 with ⟨h, hm⟩ | ⟨b, vs, h, h3⟩
      · rw [h]; exact .inr ⟨rfl, hm, rfl⟩
      · rw [h]; exact .inl ⟨rfl, b, h3⟩
    generalize hps : (rows.map fun v => (items v).map fun x =>
          recordRow [(c!"null", .null)] (some x)) = parts at h1 h2
    have h3 := fields_ok fs 0 u lk (dotted path n) (parts.flatten.map Prod.snd) fields hrd
      (hg rfl) hof (by
        intro r hr'
        obtain ⟨p, hp, rfl⟩ := List.mem_map.1 hr'
        rcases h2 p hp with ⟨_, b, h⟩ | ⟨_, hm, h⟩
        · exact .inr ⟨b, by simpa using h⟩
        · exact .inl ⟨hm, .inr h⟩)
    obtain ⟨h4, h5⟩ := struct_ok (m := u) hrd hof parts.flatten (by
        intro p hp hp1
        rcases h2 p hp with ⟨_, b, h⟩ | ⟨h, _⟩
        · exact ⟨b, h⟩
        · rw [hp1] at h; cases h)
    rw [h1]
    simp only [Res.ok_bind]
    rw [h3]
    simp only [Res.ok_bind]
    rw [if_pos h4, h5, ← hps]
    simp only [Res.pure_eq]
    rw [← List.flatMap_def, List.map_flatMap]
    congr 1
    apply flatMap_congr'
    intro v hv
    rw [List.map_map]
    apply List.map_congr_left
    intro x hx
    simp only [Function.comp_apply]
    unfold recordRow
    simp only [Option.map_some]
    rw [← arrowCell_unUnion x]
    rcases (fval_of_at rfl ((hr v hv).items_at x hx)).1 with ⟨h, _⟩ | ⟨b, vs, h, _⟩
    · rw [h]; simp [arrowCell]
    · rw [h]; simp [arrowCell]
  | .union vs =>
    obtain ⟨q, hq, hv⟩ := readable_opt hrd
    have hw : u = false := by
      cases u with
      | false => rfl
      | true => cases hq
    subst hw
    cases hq
    exact listOpt_ok vs d lw lm lk path rows n f hv hg hr hf
  | .map _ => simp [Faithful] at hrd
  | .bytes => simp [Faithful] at hrd
  | .fixed _ => simp [Faithful] at hrd
  | .date => simp [Faithful] at hrd
  | .timeMillis => simp [Faithful] at hrd
  | .timeMicros => simp [Faithful] at hrd
  | .timestampMillis => simp [Faithful] at hrd
  | .timestampMicros => simp [Faithful] at hrd
  | .decimal _ _ _ => simp [Faithful] at hrd
  | .bigDecimal => simp [Faithful] at hrd
  | .uuid => simp [Faithful] at hrd
  | .timestampNanos => simp [Faithful] at hrd
  | .localTimestampMillis => simp [Faithful] at hrd
  | .localTimestampMicros => simp [Faithful] at hrd
  | .localTimestampNanos => simp [Faithful] at hrd
  | .duration => simp [Faithful] at hrd
  | .ref _ => simp [Faithful] at hrd
termination_by structural s
theorem listOpt_ok (vs : List AvroSchema) (d lw lm : Bool) (lk : List (Str × Nat)) (path : Str)
    (rows : List AvroValue) (n : Str) (f : AField)
    (hrd : FaithfulOpt (.item d lw lm true) vs)
    (hg : d = false → GoodAll lk (dotted path n) vs)
    (hr : ∀ v ∈ rows, LVal lw lm false (.union vs) v)
    {on : Option Str} {nul : Bool} (hf : schemaToField on nul (.union vs) = .ok f) :
    listChild lk path rows n f.type = .ok (rows.flatMap fun v => (items v).map arrowCell) := by
  have key : ∀ x, isUnion x = false → (∃ a b, vs = [a, b] ∧
      ((isNullSchema a = true ∧ x = b) ∨ (isNullSchema b = true ∧ x = a))) →
      ∀ v ∈ rows, LVal lw lm true x v := by
    intro x hx hv v hv'
    have h := hr v hv'
    refine ⟨?_, h.2⟩
    rcases h.1 with h | ⟨ws, h, h2⟩
    · exact .inl h
    · exact .inr ⟨ws, h, fun y hy => at_opt hv hx (h2 y hy)⟩
  match vs with
  | [] => exact hrd.elim
  | [_] => exact hrd.elim
  | _ :: _ :: _ :: _ => exact hrd.elim
  | [a, b] =>
    rcases hrd with ⟨ha, hb, hrb⟩ | ⟨hb, ha, hra⟩
    · have hv : ∃ a' b', [a, b] = [a', b'] ∧ ((isNullSchema a' = true ∧ b = b') ∨
          (isNullSchema b' = true ∧ b = a')) := ⟨a, b, rfl, .inl ⟨ha, rfl⟩⟩
      obtain ⟨_, g, hg1, hg2⟩ := schemaToField_opt hv hb hf
      rw [← hg2]
      exact list_ok b d lw lm true lk path rows n g hrb (fun h => (hg h).2.1)
        (key b (readable_not_union rfl hrb) hv) hg1
    · have hv : ∃ a' b', [a, b] = [a', b'] ∧ ((isNullSchema a' = true ∧ a = b') ∨
          (isNullSchema b' = true ∧ a = a')) := ⟨a, b, rfl, .inr ⟨hb, rfl⟩⟩
      obtain ⟨_, g, hg1, hg2⟩ := schemaToField_opt hv ha hf
      rw [← hg2]
      exact list_ok a d lw lm true lk path rows n g hra (fun h => (hg h).1)
        (key a (readable_not_union rfl hra) hv) hg1
termination_by structural vs
end

end Avro
end Hudi
