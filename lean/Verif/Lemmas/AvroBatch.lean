import Verif.Lemmas.AvroPaths
import Verif.Lemmas.AvroDrain

/-! # Batches of Avro records -/

namespace Hudi
namespace Avro
open Spec

theorem schemaToField_opt' {n : Option Str} {nul : Bool} {vs : List AvroSchema} {x : AvroSchema}
    (hvs : ∃ a b, vs = [a, b] ∧
      ((isNullSchema a = true ∧ x = b) ∨ (isNullSchema b = true ∧ x = a)))
    (hx : isNullSchema x = false) :
    schemaToField n nul (.union vs) =
      (schemaToField none true x >>= fun f => .ok (finishField n true f.type)) := by
  obtain ⟨a, b, rfl, hab⟩ := hvs
  simp only [schemaToField]
  have hc : hasNull [a, b] = true ∧ [a, b].length = 2 := by
    refine ⟨?_, rfl⟩
    unfold hasNull
    rcases hab with ⟨ha, _⟩ | ⟨hb, _⟩
    · simp [ha]
    · simp [hb]
  rw [if_pos hc]
  have key : ∀ y, isNullSchema y = false → ∀ l, firstNonNull (y :: l) =
      (schemaToField none true y >>= fun f => .ok f.type) := by
    intro y hy l
    cases y <;> first | rfl | simp [isNullSchema] at hy
  have hfst : firstNonNull [a, b] = (schemaToField none true x >>= fun f => .ok f.type) := by
    by_cases ha : isNullSchema a = true
    · have : x = b := by
        rcases hab with ⟨_, e⟩ | ⟨_, e⟩
        · exact e
        · subst e; rw [ha] at hx; cases hx
      subst this
      cases a <;> simp [isNullSchema] at ha
      rw [firstNonNull]
      exact key _ hx []
    · have : x = a := by
        rcases hab with ⟨e, _⟩ | ⟨_, e⟩
        · exact absurd e ha
        · exact e
      subst this
      exact key _ hx _
  rw [hfst]
  cases schemaToField none true x <;> rfl

theorem wrapInt8_small {n : Nat} (h : n < 2 ^ 7) : wrapInt 8 n = (n : Int) := by
  unfold wrapInt
  rw [Nat.mod_eq_of_lt (by omega), if_pos (by omega)]

theorem arrowable_not_null {s : AvroSchema} (h : Arrowable s) : isNullSchema s = false := by
  cases s <;> first | rfl | exact h.elim

theorem schemaToField_nullable {n : Option Str} {b : Bool} {s : AvroSchema} {f : AField}
    (h : schemaToField n b s = .ok f) (hu : isUnion s = false) : f.nullable = b := by
  cases s with
  | array s =>
    simp only [schemaToField] at h
    obtain ⟨g, hg, h⟩ := Res.bind_eq_ok.1 h
    cases h; rfl
  | map s =>
    simp only [schemaToField] at h
    obtain ⟨g, hg, h⟩ := Res.bind_eq_ok.1 h
    cases h; rfl
  | union vs => cases hu
  | record fs =>
    simp only [schemaToField] at h
    obtain ⟨g, hg, h⟩ := Res.bind_eq_ok.1 h
    cases h; rfl
  | ref n => cases h
  | localTimestampMillis => cases h
  | localTimestampMicros => cases h
  | localTimestampNanos => cases h
  | _ => cases h; rfl

/-- A supported type in a field that is not nullable by itself is nullable when it admits null. -/
theorem arrowable_nullable {n : Option Str} {s : AvroSchema} {f : AField} (hs : Arrowable s)
    (h : schemaToField n false s = .ok f) : f.nullable = admitsNull s := by
  cases s with
  | union vs =>
    simp only [Arrowable] at hs
    match vs, hs with
    | [a, b], hs =>
      rcases hs with ⟨ha, hb⟩ | ⟨hb, ha⟩
      · rw [(schemaToField_opt (x := b) ⟨a, b, rfl, .inl ⟨ha, rfl⟩⟩ (arrowable_not_null hb) h).1]
        simp [admitsNull, ha]
      · rw [(schemaToField_opt (x := a) ⟨a, b, rfl, .inr ⟨hb, rfl⟩⟩ (arrowable_not_null ha) h).1]
        simp [admitsNull, hb]
  | null => exact hs.elim
  | _ => rw [schemaToField_nullable h rfl]; rfl

mutual
theorem maps_ok (s : AvroSchema) (n : Option Str) (b : Bool) (hs : Arrowable s) :
    ∃ f, schemaToField n b s = .ok f ∧ Maps s f.type := by
  match s with
  | .null => exact hs.elim
  | .map _ => exact hs.elim
  | .ref _ => exact hs.elim
  | .localTimestampMillis => exact hs.elim
  | .localTimestampMicros => exact hs.elim
  | .localTimestampNanos => exact hs.elim
  | .boolean => exact ⟨_, rfl, rfl⟩
  | .int => exact ⟨_, rfl, rfl⟩
  | .long => exact ⟨_, rfl, rfl⟩
  | .float => exact ⟨_, rfl, rfl⟩
  | .double => exact ⟨_, rfl, rfl⟩
  | .bytes => exact ⟨_, rfl, rfl⟩
  | .string => exact ⟨_, rfl, rfl⟩
  | .enum _ => exact ⟨_, rfl, rfl⟩
  | .fixed k =>
    refine ⟨_, rfl, ?_⟩
    have hk : k < 2 ^ 31 := hs
    simp only [Maps, finishField]
    rw [wrapInt32_small hk]
  | .decimal o p q =>
    refine ⟨_, rfl, ?_⟩
    have hk : p < 2 ^ 8 ∧ q < 2 ^ 7 := hs
    simp only [Maps, finishField]
    rw [wrapInt8_small hk.2, Nat.mod_eq_of_lt (show p < 256 from hk.1)]
  | .bigDecimal => exact ⟨_, rfl, rfl⟩
  | .uuid => exact ⟨_, rfl, rfl⟩
  | .date => exact ⟨_, rfl, rfl⟩
  | .timeMillis => exact ⟨_, rfl, rfl⟩
  | .timeMicros => exact ⟨_, rfl, rfl⟩
  | .timestampMillis => exact ⟨_, rfl, rfl⟩
  | .timestampMicros => exact ⟨_, rfl, rfl⟩
  | .timestampNanos => exact ⟨_, rfl, rfl⟩
  | .duration => exact ⟨_, rfl, rfl⟩
  | .array s =>
    obtain ⟨f, h1, h2⟩ := maps_ok s (some c!"element") false hs
    refine ⟨finishField n b (.list f), ?_, f, rfl, arrowable_nullable hs h1, h2⟩
    simp only [schemaToField]
    rw [h1]; rfl
  | .record fs docs =>
    obtain ⟨fields, h1, h2⟩ := mapsStruct_ok fs docs hs
    refine ⟨finishField n b (.struct fields), ?_, fields, rfl, h2⟩
    simp only [schemaToField]
    rw [h1]; rfl
  | .union vs => exact mapsOpt_ok vs n b hs
termination_by structural s
theorem mapsOpt_ok (vs : List AvroSchema) (n : Option Str) (b : Bool) (hs : ArrowableOpt vs) :
    ∃ f, schemaToField n b (.union vs) = .ok f ∧ MapsOpt vs f.type := by
  match vs with
  | [] => exact hs.elim
  | [_] => exact hs.elim
  | _ :: _ :: _ :: _ => exact hs.elim
  | [x, y] =>
    rcases hs with ⟨hx, hy⟩ | ⟨hy, hx⟩
    · obtain ⟨f, h1, h2⟩ := maps_ok y none true hy
      rw [schemaToField_opt' (x := y) ⟨x, y, rfl, .inl ⟨hx, rfl⟩⟩ (arrowable_not_null hy), h1]
      exact ⟨_, rfl, .inl ⟨hx, h2⟩⟩
    · obtain ⟨f, h1, h2⟩ := maps_ok x none true hx
      rw [schemaToField_opt' (x := x) ⟨x, y, rfl, .inr ⟨hy, rfl⟩⟩ (arrowable_not_null hx), h1]
      exact ⟨_, rfl, .inr ⟨hy, h2⟩⟩
termination_by structural vs
theorem mapsStruct_ok (fs : List (Str × AvroSchema)) (docs : List (Option Str))
    (hs : ArrowableFields fs) :
    ∃ fields, structFields docs fs = .ok fields ∧ MapsFields fs fields ∧
      ∀ (i : Nat) (f : AField), fields[i]? = some f → f.doc = docs[i]?.join := by
  match fs with
  | [] => exact ⟨[], rfl, rfl, fun i f h => by simp at h⟩
  | (m, s) :: fs =>
    obtain ⟨f, h1, h2⟩ := maps_ok s (some m) false hs.1
    obtain ⟨rest, h3, h4, h5⟩ := mapsStruct_ok fs docs.tail hs.2
    refine ⟨{ f with doc := docs.head?.join } :: rest, ?_, ⟨_, rest, rfl, (schemaToField_name h1 : f.name = m),
      (arrowable_nullable hs.1 h1 : f.nullable = _), h2, h4⟩, ?_⟩
    · simp only [structFields]
      rw [h1]
      simp only [Res.ok_bind]
      rw [h3]; rfl
    · intro i g hg
      cases i with
      | zero => cases hg; cases docs <;> rfl
      | succ i => rw [h5 i g hg]; cases docs <;> simp
termination_by structural fs
end

theorem mapsTop_ok (fs : List (Str × AvroSchema)) (hs : ArrowableFields fs) :
    ∃ fields, topFields fs = .ok fields ∧ MapsFields fs fields := by
  induction fs with
  | nil => exact ⟨[], rfl, rfl⟩
  | cons p fs ih =>
    obtain ⟨m, s⟩ := p
    obtain ⟨f, h1, h2⟩ := maps_ok s (some m) (fieldIsNullable s) hs.1
    obtain ⟨rest, h3, h4⟩ := ih hs.2
    refine ⟨f :: rest, ?_, f, rest, rfl, schemaToField_name h1, ?_, h2, h4⟩
    · simp only [topFields]
      rw [h1]
      simp only [Res.ok_bind]
      rw [h3]; rfl
    · by_cases hu : isUnion s = true
      · obtain ⟨f', h5, h6⟩ := maps_ok s (some m) false hs.1
        have e := arrowable_nullable hs.1 h5
        cases s with
        | union vs =>
          have : ∃ x, (∃ a b, vs = [a, b] ∧
              ((isNullSchema a = true ∧ x = b) ∨ (isNullSchema b = true ∧ x = a))) ∧
              isNullSchema x = false := by
            match vs, hs.1 with
            | [a, b], hs =>
              rcases hs with ⟨ha, hb⟩ | ⟨hb, ha⟩
              · exact ⟨b, ⟨a, b, rfl, .inl ⟨ha, rfl⟩⟩, arrowable_not_null hb⟩
              · exact ⟨a, ⟨a, b, rfl, .inr ⟨hb, rfl⟩⟩, arrowable_not_null ha⟩
          obtain ⟨x, hx1, hx2⟩ := this
          rw [← e, (schemaToField_opt hx1 hx2 h1).1, (schemaToField_opt hx1 hx2 h5).1]
        | _ => cases hu
      · rw [schemaToField_nullable h1 (by simpa using hu)]
        cases s with
        | union vs => exact absurd rfl hu
        | null => exact hs.1.elim
        | _ => rfl

/-! ## Faithful schemas have a counterpart, but for plain nulls -/

mutual
theorem readable_total (s : AvroSchema) (q : Place) (n : Option Str) (b : Bool) (hs : Faithful q s) :
    ∃ f, schemaToField n b s = .ok f := by
  match s with
  | .map _ => cases q <;> simp [Faithful] at hs
  | .ref _ => cases q <;> simp [Faithful] at hs
  | .localTimestampMillis => cases q <;> simp [Faithful] at hs
  | .localTimestampMicros => cases q <;> simp [Faithful] at hs
  | .localTimestampNanos => cases q <;> simp [Faithful] at hs
  | .null => exact ⟨_, rfl⟩
  | .boolean => exact ⟨_, rfl⟩
  | .int => exact ⟨_, rfl⟩
  | .long => exact ⟨_, rfl⟩
  | .float => exact ⟨_, rfl⟩
  | .double => exact ⟨_, rfl⟩
  | .bytes => exact ⟨_, rfl⟩
  | .string => exact ⟨_, rfl⟩
  | .enum _ => exact ⟨_, rfl⟩
  | .fixed k => exact ⟨_, rfl⟩
  | .decimal o p q => exact ⟨_, rfl⟩
  | .bigDecimal => exact ⟨_, rfl⟩
  | .uuid => exact ⟨_, rfl⟩
  | .date => exact ⟨_, rfl⟩
  | .timeMillis => exact ⟨_, rfl⟩
  | .timeMicros => exact ⟨_, rfl⟩
  | .timestampMillis => exact ⟨_, rfl⟩
  | .timestampMicros => exact ⟨_, rfl⟩
  | .timestampNanos => exact ⟨_, rfl⟩
  | .duration => exact ⟨_, rfl⟩
  | .array s =>
    have : ∃ q', Faithful q' s := by
      cases q with
      | field w m => exact ⟨_, hs⟩
      | item d lu lm u => exact ⟨_, hs.2⟩
    obtain ⟨q', hq⟩ := this
    obtain ⟨f, h1⟩ := readable_total s q' (some c!"element") false hq
    refine ⟨finishField n b (.list f), ?_⟩
    simp only [schemaToField]
    rw [h1]; rfl
  | .record fs docs =>
    have : ∃ m, FaithfulFields m fs := by
      cases q with
      | field w m => exact ⟨m, hs⟩
      | item d lu lm u => exact ⟨u, hs.2.2⟩
    obtain ⟨m, hm⟩ := this
    obtain ⟨fields, h1⟩ := readableFields_total fs docs m hm
    refine ⟨finishField n b (.struct fields), ?_⟩
    simp only [schemaToField]
    rw [h1]; rfl
  | .union vs =>
    obtain ⟨q', _, h⟩ := readable_opt hs
    exact readableOpt_total vs q' n b h
termination_by structural s
theorem readableOpt_total (vs : List AvroSchema) (q : Place) (n : Option Str) (b : Bool)
    (hs : FaithfulOpt q vs) : ∃ f, schemaToField n b (.union vs) = .ok f := by
  match vs with
  | [] => exact hs.elim
  | [_] => exact hs.elim
  | _ :: _ :: _ :: _ => exact hs.elim
  | [x, y] =>
    rcases hs with ⟨hx, hy, hr⟩ | ⟨hy, hx, hr⟩
    · obtain ⟨f, h1⟩ := readable_total y q none true hr
      rw [schemaToField_opt' (x := y) ⟨x, y, rfl, .inl ⟨hx, rfl⟩⟩ hy, h1]
      exact ⟨_, rfl⟩
    · obtain ⟨f, h1⟩ := readable_total x q none true hr
      rw [schemaToField_opt' (x := x) ⟨x, y, rfl, .inr ⟨hy, rfl⟩⟩ hx, h1]
      exact ⟨_, rfl⟩
termination_by structural vs
theorem readableFields_total (fs : List (Str × AvroSchema)) (docs : List (Option Str)) (m : Bool)
    (hs : FaithfulFields m fs) : ∃ fields, structFields docs fs = .ok fields := by
  match fs with
  | [] => exact ⟨[], rfl⟩
  | (k, s) :: fs =>
    obtain ⟨f, h1⟩ := readable_total s (.field false m) (some k) false hs.1
    obtain ⟨rest, h3⟩ := readableFields_total fs docs.tail m hs.2
    refine ⟨{ f with doc := docs.head?.join } :: rest, ?_⟩
    simp only [structFields]
    rw [h1]
    simp only [Res.ok_bind]
    rw [h3]; rfl
termination_by structural fs
end

theorem readableTop_total (fs : List (Str × AvroSchema)) (m : Bool) (hs : FaithfulFields m fs) :
    ∃ fields, topFields fs = .ok fields := by
  induction fs with
  | nil => exact ⟨[], rfl⟩
  | cons p fs ih =>
    obtain ⟨k, s⟩ := p
    obtain ⟨f, h1⟩ := readable_total s (.field false m) (some k) (fieldIsNullable s) hs.1
    obtain ⟨rest, h3⟩ := ih hs.2
    refine ⟨f :: rest, ?_⟩
    simp only [topFields]
    rw [h1]
    simp only [Res.ok_bind]
    rw [h3]; rfl

theorem fieldOf_names {fs : List (Str × AvroSchema)} {fields : List AField}
    (h : List.Forall₂ FieldOf fs fields) : fields.map (·.name) = fs.map Prod.fst := by
  induction h with
  | nil => rfl
  | cons h1 _ ih => rw [List.map_cons, List.map_cons, h1.1, ih]

/-- A batch of records. -/
theorem toABatch_ok {fs : List (Str × AvroSchema)} (hrd : FaithfulRecord fs) (vs : List AvroValue)
    (hv : ∀ v ∈ vs, HasType (.record fs) v) :
    ∃ fields rows, toArrowSchema (.record fs) = .ok fields ∧
      fields.map (·.name) = fs.map Prod.fst ∧
      toABatch (.record fs) vs = .ok ⟨fields, rows⟩ ∧
      rows.map (fun r => some (AVal.struct r)) = vs.map arrowCell := by
  obtain ⟨hne, hnamed, hr⟩ := hrd
  obtain ⟨hn, hd⟩ : NamedFields fs ∧ (fs.map Prod.fst).Nodup := hnamed
  obtain ⟨fields, hf⟩ := readableTop_total fs false hr
  have hof := topFields_of hr hf
  have hgood : GoodFields (topDirect 0 fs ++ topEntries fs) [] 0 fs :=
    good_top fs 0 _ hn hr (fun e he => lookup_entries hn hd e (by simp [he]))
      (fun e he => lookup_entries hn hd e (by simp [he]))
  have hrows : ∃ rows : List Row, vs = rows.map .record ∧ ∀ r ∈ rows, ∃ b, EncFields fs r b := by
    clear hf hof hgood hr hn hd
    induction vs with
    | nil => exact ⟨[], rfl, by intro r hr; cases hr⟩
    | cons v vs ih =>
      obtain ⟨rows, e, h⟩ := ih (fun v h => hv v (by simp [h]))
      obtain ⟨b, r, e1, h1⟩ := hv v (by simp)
      refine ⟨r :: rows, by rw [e, e1]; rfl, ?_⟩
      intro r' hr'
      rcases List.mem_cons.1 hr' with rfl | hr'
      · exact ⟨b, h1⟩
      · exact h r' hr'
  obtain ⟨rows, rfl, hrow⟩ := hrows
  have h1 := fields_ok fs 0 false _ [] rows fields hr hgood hof (by
    intro r hr'
    obtain ⟨b, h⟩ := hrow r hr'
    exact .inr ⟨b, by simpa using h⟩)
  have h2 := structValid_ok false fs 0 fields hof hr rows (List.replicate rows.length true) (by
    intro q hq _
    obtain ⟨b, h⟩ := hrow q.2 (List.of_mem_zip hq).2
    exact ⟨b, by simpa using h⟩)
  refine ⟨fields, rows.map fun r => (List.range' 0 fs.length).map fun j => cellAt j r, hf,
    fieldOf_names hof, ?_, ?_⟩
  · unfold toABatch readerNew schemaLookup
    simp only [toArrowSchema, hf, Res.ok_bind, Res.pure_eq]
    have h3 : Res.mapL asRecord (rows.map .record) = .ok rows := by
      have := mapL_map (f := asRecord) (xs := rows.map .record)
        (g := fun v => match v with | .record r => r | _ => []) (by
          intro v hv
          obtain ⟨r, _, rfl⟩ := List.mem_map.1 hv
          rfl)
      rw [this, List.map_map]
      congr 1
      conv => rhs; rw [← List.map_id rows]
      rfl
    rw [h3]
    simp only [Res.ok_bind]
    rw [h1]
    simp only [Res.ok_bind]
    unfold tryNewBatch
    rw [if_neg (by
      rintro rfl
      have := congrArg List.length (fieldOf_names hof)
      simp at this
      exact hne (List.eq_nil_of_length_eq_zero this.symm)), if_pos h2, transpose_cols]
  · simp only [List.map_map]
    apply List.map_congr_left
    intro r hr'
    obtain ⟨b, h⟩ := hrow r hr'
    simp only [Function.comp_apply, arrowCell]
    rw [range_cells fs 0 r b (by simpa using h)]
    rfl

theorem datum_enc {s : AvroSchema} {v : AvroValue} {b : Bytes} (h : Enc s v b) :
    datum s b = .ok (v, b.length) := by
  unfold datum
  have := decode_enc s v b [] h
  rw [List.append_nil] at this
  rw [this]
  simp

theorem codec_streaming (F : Formats) : Streaming F.codec := by
  intro s l v k h p hp hlt x hx
  have h' : datum s l = .ok (v, k) := h
  have hx' : datum s p = .ok x := hx
  unfold datum at h' hx'
  cases hd : decode s l with
  | eof => rw [hd] at h'; cases h'
  | bad => rw [hd] at h'; cases h'
  | ok w rest =>
    rw [hd] at h'
    cases h'
    obtain ⟨c, rfl, _, h3⟩ := nice_decode s _ _ _ hd
    rw [List.length_append, Nat.add_sub_cancel] at hlt
    have hcut : Cut p c := by
      rcases List.prefix_or_prefix_of_prefix hp (List.prefix_append c rest) with h | h
      · exact ⟨h, fun e => by rw [e] at hlt; omega⟩
      · have := h.length_le; omega
    cases hd' : decode s p with
    | eof => rw [hd'] at hx'; cases hx'
    | bad => rw [hd'] at hx'; cases hx'
    | ok w' rest' =>
      rw [hd'] at hx'
      cases hx'
      rw [h3 p hcut _ _ hd']
      simp

end Avro
end Hudi
