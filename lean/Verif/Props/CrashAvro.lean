import Verif.Props.Crash
import Verif.Spec.CrashAvro
import Mathlib.Tactic.Common

/-! # C77: decoding records without nesting -/

namespace Hudi
open Spec Avro

/-- Bytes decode to the value. -/
def Decoded (s : AvroSchema) (v : AvroValue) : Prop := ∃ b rest, decode s b = .ok v rest

theorem out_bind_ok {α β : Type} {r : Out α} {f : α → Bytes → Out β} {v : β} {rest : Bytes}
    (h : r.bind f = .ok v rest) : ∃ a rest', r = .ok a rest' ∧ f a rest' = .ok v rest := by
  cases r with
  | ok a rest' => exact ⟨a, rest', rfl, h⟩
  | eof => cases h
  | bad => cases h

theorem decodeFields_ok {fs : List (Str × AvroSchema)} {b rest : Bytes} {vs : List (Str × AvroValue)}
    (h : decodeFields fs b = .ok vs rest) :
    List.Forall₂ (fun f v => Decoded f.2 v.2) fs vs := by
  induction fs generalizing b rest vs with
  | nil =>
    unfold decodeFields at h
    cases h
    exact .nil
  | cons f fs ih =>
    obtain ⟨n, s⟩ := f
    unfold decodeFields at h
    obtain ⟨v, r1, h1, h⟩ := out_bind_ok h
    obtain ⟨ws, r2, h2, h⟩ := out_bind_ok h
    cases h
    exact .cons ⟨_, _, h1⟩ (ih h2)

theorem decodeVariant_ok {ss : List AvroSchema} {n : Nat} {b rest : Bytes} {v : AvroValue}
    (h : decodeVariant ss n b = .ok v rest) : ∃ s ∈ ss, Decoded s v := by
  induction ss generalizing n with
  | nil => unfold decodeVariant at h; cases h
  | cons s ss ih =>
    cases n with
    | zero => unfold decodeVariant at h; exact ⟨s, List.mem_cons_self .., _, _, h⟩
    | succ n =>
      unfold decodeVariant at h
      obtain ⟨s', hs', hd⟩ := ih h
      exact ⟨s', List.mem_cons_of_mem _ hs', hd⟩

/-- A value that a column of the type takes without crashing. -/
def SafeCell (t : AType) (v : AvroValue) : Prop :=
  match t with
  | .float64 => resolveNum .f64 v ≠ .panic
  | .float32 => resolveNum .f32 v ≠ .panic
  | .int64 | .timestamp _ | .time64Micro => resolveNum .i64 v ≠ .panic
  | .int32 | .date32 | .time32Milli => resolveNum .i32 v ≠ .panic
  | .list _ | .struct _ => False
  | _ => True

/-- The values that scalars decode to: those that a column of the type takes, none of them a union. -/
theorem safe_scalar {s : AvroSchema} (hs : scalar s = true) (n : Option Str) (b : Bool) :
    ∃ f, schemaToField n b s = .ok f ∧ SafeCell f.type .null ∧
      ∀ v, Decoded s v → SafeCell f.type v ∧ ∀ j w, v ≠ .union j w := by
  cases s
  all_goals first
    | (exact absurd (show false = true from hs) Bool.false_ne_true)
    | skip
  all_goals unfold schemaToField
  all_goals refine ⟨_, rfl, ?_, ?_⟩
  all_goals first
    | (intro v ⟨bs, rest, h⟩; unfold decode at h)
    | (simp [SafeCell, finishField, resolveNum, unUnion])
  all_goals try (
    obtain ⟨x, r, _, h⟩ := out_bind_ok h
    cases h
    simp [SafeCell, finishField, resolveNum, unUnion, castInt]
    done)
  · cases h; simp [SafeCell, finishField]
  · refine ⟨trivial, fun j w hv => ?_⟩
    subst hv
    cases hb : take 1 bs with
    | ok x r =>
      rw [hb] at h
      simp only [Out.bind] at h
      split at h
      · cases h
      · split at h <;> cases h
    | eof => rw [hb] at h; cases h
    | bad => rw [hb] at h; cases h
  · refine ⟨trivial, fun j w hv => ?_⟩
    subst hv
    obtain ⟨x, r, _, h⟩ := out_bind_ok h
    unfold readString at h
    split at h
    · split at h <;> cases h
    · cases h
    · cases h
  · refine ⟨trivial, fun j w hv => ?_⟩
    subst hv
    obtain ⟨x, r, _, h⟩ := out_bind_ok h
    split at h
    · cases h
    · split at h <;> cases h
  · rename_i fx _ _
    refine ⟨trivial, fun j w hv => ?_⟩
    subst hv
    cases fx with
    | none => obtain ⟨x, r, _, h⟩ := out_bind_ok h; cases h
    | some k => obtain ⟨x, r, _, h⟩ := out_bind_ok h; cases h

theorem safe_union {t : AType} {i : Nat} {v : AvroValue} (h : SafeCell t v) (hu : ∀ j w, v ≠ .union j w) :
    SafeCell t (.union i v) := by
  have e : ∀ k, resolveNum k (.union i v) = resolveNum k v := by
    intro k
    have : unUnion (.union i v) = unUnion v := by
      cases v <;> first | rfl | exact absurd rfl (hu _ _)
    unfold resolveNum
    rw [this]
  cases t <;> simp only [SafeCell, e] at h ⊢ <;> exact h

/-- The fields of a union of scalars. -/
theorem variantFields_np {vs : List AvroSchema} (h : ∀ s ∈ vs, scalar s = true) (b : Bool) :
    variantFields b vs ≠ .panic := by
  induction vs with
  | nil => unfold variantFields; exact (fun e => nomatch e)
  | cons s vs ih =>
    obtain ⟨f, hf, _⟩ := safe_scalar (h s (List.mem_cons_self ..)) none b
    unfold variantFields
    rw [hf]
    have := ih (fun s hs => h s (List.mem_cons_of_mem _ hs))
    cases hv : variantFields b vs with
    | ok fs => exact (fun e => nomatch e)
    | err e => exact (fun e => nomatch e)
    | panic => exact absurd hv this

/-- The type of the first variant that is not null takes the values of all variants, when there are two and
one of them is null. -/
theorem firstNonNull_safe {vs : List AvroSchema} (h : ∀ s ∈ vs, scalar s = true) (hn : hasNull vs = true)
    (hl : vs.length = 2) :
    (∃ e, firstNonNull vs = .err e) ∨ ∃ t, firstNonNull vs = .ok t ∧ SafeCell t .null ∧
      ∀ s ∈ vs, ∀ v, Decoded s v → SafeCell t v ∧ ∀ j w, v ≠ .union j w := by
  have null : ∀ {t v}, SafeCell t .null → Decoded .null v → SafeCell t v ∧ ∀ j w, v ≠ .union j w := by
    rintro t v ht ⟨b, r, hd⟩
    unfold decode at hd
    cases hd
    exact ⟨ht, fun _ _ => AvroValue.noConfusion⟩
  match vs, hl with
  | [a, b], _ =>
    by_cases ha : a = .null
    · subst ha
      by_cases hb : b = .null
      · subst hb
        exact .inl ⟨.avro, by simp [firstNonNull]⟩
      · obtain ⟨f, hf, h1, h2⟩ := safe_scalar (h b (by simp)) none true
        refine .inr ⟨f.type, ?_, h1, ?_⟩
        · unfold firstNonNull
          unfold firstNonNull
          cases b <;> first | exact absurd rfl hb | (show (schemaToField none true _ >>= fun f => pure f.type) = _; rw [hf]; rfl)
        · intro s hs v hv
          simp only [List.mem_cons, List.not_mem_nil, or_false] at hs
          rcases hs with rfl | rfl
          · exact null h1 hv
          · exact h2 v hv
    · obtain ⟨f, hf, h1, h2⟩ := safe_scalar (h a (by simp)) none true
      refine .inr ⟨f.type, ?_, h1, ?_⟩
      · unfold firstNonNull
        cases a <;> first | exact absurd rfl ha | (show (schemaToField none true _ >>= fun f => pure f.type) = _; rw [hf]; rfl)
      · have hb : b = .null := by
          have nul : ∀ {x}, isNullSchema x = true → x = .null := by
            intro x hx
            cases x <;> first | rfl | exact absurd (show false = true from hx) Bool.false_ne_true
          have hn : ([a, b].any isNullSchema) = true := hn
          simp only [List.any_cons, List.any_nil, Bool.or_false, Bool.or_eq_true] at hn
          exact hn.elim (fun h => absurd (nul h) ha) nul
        subst hb
        intro s hs v hv
        simp only [List.mem_cons, List.not_mem_nil, or_false] at hs
        rcases hs with rfl | rfl
        · exact h2 v hv
        · exact null h1 hv

/-- A field of a flat record: its column takes whatever its bytes decode to. -/
theorem safe_field {s : AvroSchema}
    (h : scalar s = true ∨ ∃ vs, s = .union vs ∧ ∀ x ∈ vs, scalar x = true) (n : Option Str) (b : Bool) :
    schemaToField n b s ≠ .panic ∧ ∀ f, schemaToField n b s = .ok f →
      SafeCell f.type .null ∧ ∀ v, Decoded s v → SafeCell f.type v := by
  rcases h with h | ⟨vs, rfl, h⟩
  · obtain ⟨f, hf, h1, h2⟩ := safe_scalar h n b
    rw [hf]
    exact ⟨(fun e => nomatch e), fun _ e => by cases e; exact ⟨h1, fun v hv => (h2 v hv).1⟩⟩
  · unfold schemaToField
    by_cases hc : hasNull vs = true ∧ vs.length = 2
    · rw [if_pos hc]
      rcases firstNonNull_safe h hc.1 hc.2 with ⟨e, he⟩ | ⟨t, ht, h1, h2⟩
      · rw [he]
        exact ⟨(fun e => nomatch e), fun _ e => nomatch e⟩
      · rw [ht]
        refine ⟨(fun e => nomatch e), fun f hf => ?_⟩
        cases hf
        refine ⟨h1, fun v hv => ?_⟩
        show SafeCell t v
        obtain ⟨bs, rest, hv⟩ := hv
        unfold decode at hv
        split at hv
        · split at hv
          · cases hv
          · obtain ⟨w, r, hw, hv⟩ := out_bind_ok hv
            cases hv
            obtain ⟨s, hs, hd⟩ := decodeVariant_ok hw
            obtain ⟨h3, h4⟩ := h2 s hs w hd
            exact safe_union h3 h4
        · cases hv
          exact safe_union h1 (fun _ _ => AvroValue.noConfusion)
        · cases hv
    · rw [if_neg hc]
      have := variantFields_np h (hasNull vs)
      cases hv : variantFields (hasNull vs) vs with
      | ok fs => exact ⟨(fun e => nomatch e), fun f hf => by cases hf; exact ⟨trivial, fun _ _ => trivial⟩⟩
      | err e => exact ⟨(fun e => nomatch e), fun _ e => nomatch e⟩
      | panic => exact absurd hv this

theorem childEntries_flat {s : AvroSchema}
    (h : scalar s = true ∨ ∃ vs, s = .union vs ∧ ∀ x ∈ vs, scalar x = true) (path : Str) :
    childEntries path s = [] := by
  have sc : ∀ {s}, scalar s = true → childEntries path s = [] := by
    intro s hs
    cases s
    all_goals first
      | (exact absurd (show false = true from hs) Bool.false_ne_true)
      | rfl
  rcases h with h | ⟨vs, rfl, h⟩
  · exact sc h
  · unfold childEntries
    split
    · clear * - sc h
      induction vs with
      | nil => rfl
      | cons s vs ih =>
        have hs := h s (List.mem_cons_self ..)
        have := ih (fun x hx => h x (List.mem_cons_of_mem _ hx))
        unfold nonNullEntries
        cases s
        all_goals first
          | exact this
          | exact sc hs
    · rfl

theorem topEntries_flat {fs : List (Str × AvroSchema)}
    (h : ∀ f ∈ fs, scalar f.2 = true ∨ ∃ vs, f.2 = .union vs ∧ ∀ s ∈ vs, scalar s = true) : topEntries fs = [] := by
  induction fs with
  | nil => rfl
  | cons f fs ih =>
    obtain ⟨n, s⟩ := f
    unfold topEntries
    rw [childEntries_flat (h _ (List.mem_cons_self ..)), ih (fun f hf => h f (List.mem_cons_of_mem _ hf))]
    rfl

theorem topDirect_mem {fs : List (Str × AvroSchema)} {i j : Nat} {n : Str} (h : (n, j) ∈ topDirect i fs) :
    ∃ k s, j = i + k ∧ fs[k]? = some (n, s) := by
  induction fs generalizing i with
  | nil => cases h
  | cons f fs ih =>
    obtain ⟨m, s⟩ := f
    unfold topDirect at h
    rcases List.mem_cons.1 h with h | h
    · cases h
      exact ⟨0, s, rfl, rfl⟩
    · obtain ⟨k, s', hk, hs⟩ := ih h
      exact ⟨k + 1, s', by omega, by simpa using hs⟩

/-- A field is looked up at its own position. -/
theorem fieldLookup_flat {fs : List (Str × AvroSchema)} (hd : (fs.map Prod.fst).Nodup) {r : Row}
    (hr : List.Forall₂ (fun f v => Decoded f.2 v.2) fs r) {n : Str} {s : AvroSchema} (hm : (n, s) ∈ fs) {v : AvroValue}
    (h : fieldLookup (topDirect 0 fs) n r = some v) : Decoded s v := by
  unfold fieldLookup lookupGet at h
  obtain ⟨i, hi, h⟩ := Option.bind_eq_some_iff.1 h
  obtain ⟨e, he, rfl⟩ := Option.map_eq_some_iff.1 hi
  obtain ⟨x, hx, rfl⟩ := Option.map_eq_some_iff.1 h
  have h1 := List.mem_of_find?_eq_some he
  have h2 := List.find?_some he
  simp only [decide_eq_true_eq] at h2
  obtain ⟨m, j⟩ := e
  cases h2
  obtain ⟨k, s', hk, hs⟩ := topDirect_mem (List.mem_reverse.1 h1)
  simp only [Nat.zero_add] at hk
  subst hk
  have : s' = s := by
    have hm' := List.mem_of_getElem? hs
    have := List.inj_on_of_nodup_map hd hm' hm rfl
    cases this
    rfl
  subst this
  exact (List.forall₂_iff_get.1 hr).2 j (List.getElem?_eq_some_iff.1 hs).1 (List.getElem?_eq_some_iff.1 hx).1 |> fun q => by
    have e1 := (List.getElem?_eq_some_iff.1 hs).2
    have e2 := (List.getElem?_eq_some_iff.1 hx).2
    simp only [List.get_eq_getElem] at q
    rw [e1, e2] at q
    exact q

/-- A column whose values are safe is built without crashing. -/
theorem buildArray_np {lk : List (Str × Nat)} {path : Str} {rows : List Row} {t : AType} (hnull : SafeCell t .null)
    (h : ∀ r ∈ rows, ∀ v, fieldLookup lk path r = some v → SafeCell t v) : buildArray lk path rows t ≠ .panic := by
  have num : ∀ k, (∀ r ∈ rows, ∀ v, fieldLookup lk path r = some v → resolveNum k v ≠ .panic) →
      numColumn lk path k rows ≠ .panic := by
    intro k hk
    refine mapL_ne_panic fun r hr => ?_
    unfold numCell
    split
    · exact hk r hr _ ‹_›
    · exact (fun e => nomatch e)
  cases t <;> unfold buildArray
  case list => exact absurd hnull id
  case struct => exact absurd hnull id
  case utf8 =>
    refine mapL_ne_panic fun r _ => ?_
    unfold stringCell
    split
    · unfold resolveString
      repeat' split
      all_goals exact (fun e => nomatch e)
    · exact (fun e => nomatch e)
  case fixedSizeBinary n =>
    split
    · exact (fun e => nomatch e)
    · refine mapL_ne_panic fun r _ => ?_
      unfold fixedCell
      repeat' split
      all_goals exact (fun e => nomatch e)
  all_goals first
    | exact num _ h
    | exact (fun e => nomatch e)

theorem buildStruct_np {lk : List (Str × Nat)} {rows : List Row} {fs : List AField}
    (h : ∀ f ∈ fs, buildArray lk f.name rows f.type ≠ .panic) : buildStruct lk [] rows fs ≠ .panic := by
  induction fs with
  | nil => unfold buildStruct; exact (fun e => nomatch e)
  | cons f fs ih =>
    obtain ⟨n, t, b⟩ := f
    have h1 := h _ (List.mem_cons_self ..)
    have h2 := ih (fun f hf => h f (List.mem_cons_of_mem _ hf))
    unfold buildStruct
    have e : fieldPath [] n = n := if_pos rfl
    rw [e]
    cases ha : buildArray lk n rows t with
    | panic => exact absurd ha h1
    | err _ => exact (fun e => nomatch e)
    | ok col =>
      cases hb : buildStruct lk [] rows fs with
      | panic => exact absurd hb h2
      | err _ => exact (fun e => nomatch e)
      | ok cols => exact (fun e => nomatch e)

theorem schemaToField_name {n : Str} {b : Bool} {s : AvroSchema} {f : AField}
    (h : schemaToField (some n) b s = .ok f) : f.name = n := by
  cases s <;> unfold schemaToField at h
  case array =>
    obtain ⟨g, _, h⟩ := Res.bind_eq_ok.1 h
    cases h; rfl
  case map =>
    obtain ⟨g, _, h⟩ := Res.bind_eq_ok.1 h
    cases h; rfl
  case record =>
    obtain ⟨g, _, h⟩ := Res.bind_eq_ok.1 h
    cases h; rfl
  case union =>
    split at h
    all_goals
      obtain ⟨g, _, h⟩ := Res.bind_eq_ok.1 h
      cases h; rfl
  all_goals first
    | (cases h; rfl)
    | cases h

theorem topFields_np {fs : List (Str × AvroSchema)}
    (h : ∀ f ∈ fs, scalar f.2 = true ∨ ∃ vs, f.2 = .union vs ∧ ∀ s ∈ vs, scalar s = true) :
    topFields fs ≠ .panic := by
  induction fs with
  | nil => exact (fun e => nomatch e)
  | cons f fs ih =>
    obtain ⟨n, s⟩ := f
    have h1 := (safe_field (h _ (List.mem_cons_self ..)) (some n) (fieldIsNullable s)).1
    have h2 := ih (fun f hf => h f (List.mem_cons_of_mem _ hf))
    unfold topFields
    cases ha : schemaToField (some n) (fieldIsNullable s) s with
    | panic => exact absurd ha h1
    | err _ => exact (fun e => nomatch e)
    | ok col =>
      cases hb : topFields fs with
      | panic => exact absurd hb h2
      | err _ => exact (fun e => nomatch e)
      | ok cols => exact (fun e => nomatch e)

theorem topFields_mem {fs : List (Str × AvroSchema)} {as : List AField} (h : topFields fs = .ok as) {a : AField}
    (ha : a ∈ as) : ∃ s, (a.name, s) ∈ fs ∧ schemaToField (some a.name) (fieldIsNullable s) s = .ok a := by
  induction fs generalizing as with
  | nil => cases h; cases ha
  | cons f fs ih =>
    obtain ⟨n, s⟩ := f
    unfold topFields at h
    obtain ⟨f, hf, h⟩ := Res.bind_eq_ok.1 h
    obtain ⟨r, hr, h⟩ := Res.bind_eq_ok.1 h
    cases h
    rcases List.mem_cons.1 ha with rfl | ha
    · have := schemaToField_name hf
      subst this
      exact ⟨s, List.mem_cons_self .., hf⟩
    · obtain ⟨s', h1, h2⟩ := ih hr ha
      exact ⟨s', List.mem_cons_of_mem _ h1, h2⟩

/-- **C77** (records without nesting): reading log blocks whose records have no nested fields never crashes in
the decoder of records, whatever the bytes: for a block whose schema is a record of plain fields and optional
plain fields with names of their own, whatever is stored is decoded or refused with an error. -/
theorem C77_flat_records (F : Formats) (fs : List (Str × AvroSchema)) (h : FlatRecord fs) :
    ¬ DecoderCrash F.codec (.record fs) := by
  obtain ⟨hd, hfs⟩ := h
  have hnew : ∀ {as}, topFields fs = .ok as → readerNew (.record fs) = .ok (as, topDirect 0 fs) := by
    intro as ha
    show (topFields fs >>= fun fields => schemaLookup (.record fs) >>= fun lk => pure (fields, lk)) = _
    rw [ha]
    show Res.ok (as, topDirect 0 fs ++ topEntries fs) = _
    rw [topEntries_flat hfs, List.append_nil]
  have hnp : readerNew (.record fs) ≠ .panic := by
    cases ht : topFields fs with
    | panic => exact absurd ht (topFields_np hfs)
    | err e =>
      show (topFields fs >>= fun fields => schemaLookup (.record fs) >>= fun lk => pure (fields, lk)) ≠ _
      rw [ht]
      exact (fun e => nomatch e)
    | ok as => rw [hnew ht]; exact (fun e => nomatch e)
  rintro (hc | ⟨b, hc⟩ | ⟨vs, hvs, hc⟩)
  · have hc : (readerNew (.record fs) >>= fun _ => pure ()) = .panic := hc
    cases hr : readerNew (.record fs) with
    | panic => exact hnp hr
    | err e => rw [hr] at hc; cases hc
    | ok r => rw [hr] at hc; cases hc
  · have hc : datum (.record fs) b = .panic := hc
    unfold datum at hc
    split at hc <;> cases hc
  · have hc : (toABatch (.record fs) vs >>= fun b => pure (F.batch b)) = .panic := hc
    have hb : toABatch (.record fs) vs = .panic := by
      cases hr : toABatch (.record fs) vs with
      | panic => rfl
      | err e => rw [hr] at hc; cases hc
      | ok r => rw [hr] at hc; cases hc
    unfold toABatch at hb
    cases ht : topFields fs with
    | panic => exact absurd ht (topFields_np hfs)
    | err e =>
      have : readerNew (.record fs) = .err e := by
        show (topFields fs >>= fun fields => schemaLookup (.record fs) >>= fun lk => pure (fields, lk)) = _
        rw [ht]
        rfl
      rw [this] at hb
      cases hb
    | ok as =>
      rw [hnew ht] at hb
      simp only [Res.ok_bind] at hb
      have hrows : ∀ rows, Res.mapL asRecord vs = .ok rows → ∀ r ∈ rows,
          List.Forall₂ (fun f v => Decoded f.2 v.2) fs r := by
        intro rows hrows r hr
        obtain ⟨v, hv, he⟩ := (Res.mapL_mem hrows r).1 hr
        obtain ⟨b, n, hdat⟩ := hvs v hv
        have hdat : datum (.record fs) b = .ok (v, n) := hdat
        unfold datum at hdat
        split at hdat
        · rename_i w rest hw
          cases hdat
          unfold decode at hw
          obtain ⟨ws, r', hws, hw⟩ := out_bind_ok hw
          cases hw
          cases he
          exact decodeFields_ok hws
        · cases hdat
        · cases hdat
      cases hm : Res.mapL asRecord vs with
      | panic =>
        refine mapL_ne_panic (fun v _ => ?_) hm
        cases v <;> exact (fun e => nomatch e)
      | err e => rw [hm] at hb; cases hb
      | ok rows =>
        rw [hm] at hb
        simp only [Res.ok_bind] at hb
        have hstruct : buildStruct (topDirect 0 fs) [] rows as ≠ .panic := by
          refine buildStruct_np fun a ha => ?_
          obtain ⟨s, hs, hf⟩ := topFields_mem ht ha
          have hsafe := (safe_field (hfs _ hs) (some a.name) (fieldIsNullable s)).2 a hf
          refine buildArray_np hsafe.1 ?_
          intro r hr v hv
          exact hsafe.2 v (fieldLookup_flat hd (hrows rows hm r hr) hs hv)
        cases hst : buildStruct (topDirect 0 fs) [] rows as with
        | panic => exact hstruct hst
        | err e => rw [hst] at hb; cases hb
        | ok cols =>
          rw [hst] at hb
          simp only [Res.ok_bind] at hb
          unfold tryNewBatch at hb
          split at hb
          · cases hb
          · split at hb <;> cases hb

/-- The theorem applies: a record with a required text, an optional number and an optional timestamp. -/
example : FlatRecord [(c!"id", .string), (c!"n", .union [.null, .long]),
    (c!"at", .union [.null, .timestampMicros])] := by
  refine ⟨by decide, ?_⟩
  intro f hf
  simp only [List.mem_cons, List.not_mem_nil, or_false] at hf
  rcases hf with rfl | rfl | rfl
  · exact .inl rfl
  · exact .inr ⟨_, rfl, by simp [scalar]⟩
  · exact .inr ⟨_, rfl, by simp [scalar]⟩

/-- A timestamp in nanoseconds is not covered, and cannot be: reading a well-formed record with such a field
crashes, whatever the file formats. -/
theorem C77_false_nanoseconds (F : Formats) (name : Str) :
    ∃ bytes v, datum (.record [(name, .timestampNanos)]) bytes = .ok (v, bytes.length) ∧
      F.codec.toBatch (.record [(name, .timestampNanos)]) [v] = .panic := by
  refine ⟨[0], .record [(name, .timestampNanos 0)], rfl, ?_⟩
  show (toABatch (.record [(name, .timestampNanos)]) [.record [(name, .timestampNanos 0)]] >>= _) = _
  have : toABatch (.record [(name, .timestampNanos)]) [.record [(name, .timestampNanos 0)]] = .panic := by
    unfold toABatch
    show (buildStruct [(name, 0)] [] [[(name, .timestampNanos 0)]] [⟨name, .timestamp .nano, false, none⟩] >>= _) = _
    unfold buildStruct buildArray
    simp [numColumn, Res.mapL, numCell, fieldLookup, lookupGet, fieldPath, resolveNum, unUnion]
  rw [this]
  rfl

end Hudi
