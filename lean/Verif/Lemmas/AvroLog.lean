import Verif.Props.Avro

/-! # Lemmas about tables whose log files hold Avro records -/

namespace Hudi
open Spec Avro

/-- A value of an Avro type is a value of the Arrow type, or a null where the type admits one. -/
theorem cell_typed (F : Formats) (s : AvroSchema) (t : AType) (v : AvroValue) (b : Bytes)
    (ha : Arrowable s) (hm : Maps s t) (he : Enc s v b) :
    (arrowCell v = none → admitsNull s = true) ∧
      ∀ x, arrowCell v = some x → (shownValue F t x).hasType (shownType F t) = true := by
  match s with
  | .null => exact ha.elim
  | .map _ => exact ha.elim
  | .ref _ => exact ha.elim
  | .localTimestampMillis => exact ha.elim
  | .localTimestampMicros => exact ha.elim
  | .localTimestampNanos => exact ha.elim
  | .union [] => exact ha.elim
  | .union [_] => exact ha.elim
  | .union (_ :: _ :: _ :: _) => exact ha.elim
  | .union [p, q] =>
    obtain ⟨k, w, c, rfl, _, hv, _⟩ := he
    have hnull : ∀ s, isNullSchema s = true → s = .null := by
      intro s h; cases s <;> first | rfl | cases h
    have null_case : ∀ w c, Enc .null w c → arrowCell (.union k w) = none := by
      rintro w c ⟨rfl, _⟩; rfl
    have other : ∀ s, sizeOf s < sizeOf (AvroSchema.union [p, q]) → Arrowable s → Maps s t → Enc s w c →
        ∀ x, arrowCell (.union k w) = some x → (shownValue F t x).hasType (shownType F t) = true :=
      fun s _ h1 h2 h3 => (cell_typed F s t w c h1 h2 h3).2
    have hadm : isNullSchema p = true ∨ isNullSchema q = true → admitsNull (.union [p, q]) = true := by
      intro h
      simp only [admitsNull, List.any_cons, List.any_nil, Bool.or_false, Bool.or_eq_true]
      exact h
    have hor : isNullSchema p = true ∨ isNullSchema q = true := by
      rcases ha with ⟨h, _⟩ | ⟨h, _⟩
      · exact .inl h
      · exact .inr h
    refine ⟨fun _ => hadm hor, ?_⟩
    have hcase : (isNullSchema p = true ∧ Arrowable q ∧ Maps q t) ∨
        (isNullSchema q = true ∧ Arrowable p ∧ Maps p t) := by
      rcases ha with ⟨h1, h2⟩ | ⟨h1, h2⟩ <;> rcases hm with ⟨h3, h4⟩ | ⟨h3, h4⟩
      · exact .inl ⟨h1, h2, h4⟩
      · rw [hnull q h3] at h2; exact h2.elim
      · rw [hnull p h3] at h2; exact h2.elim
      · exact .inr ⟨h1, h2, h4⟩
    intro x hx
    match k, hv with
    | 0, hv =>
      rcases hcase with ⟨h1, h2, h3⟩ | ⟨h1, h2, h3⟩
      · rw [hnull p h1] at hv
        rw [null_case _ _ hv] at hx; cases hx
      · exact other p (by simp; omega) h2 h3 hv x hx
    | 1, hv =>
      rcases hcase with ⟨h1, h2, h3⟩ | ⟨h1, h2, h3⟩
      · exact other q (by simp; omega) h2 h3 hv x hx
      · replace hv : Enc q w c := hv
        rw [hnull q h1] at hv
        rw [null_case _ _ hv] at hx; cases hx
  | .boolean => obtain ⟨_, rfl, _⟩ := he; cases hm; simp [arrowCell, shownValue, shownType, Val.hasType]
  | .int => obtain ⟨_, rfl, _⟩ := he; cases hm; simp [arrowCell, shownValue, shownType, Val.hasType]
  | .long => obtain ⟨_, rfl, _⟩ := he; cases hm; simp [arrowCell, shownValue, shownType, Val.hasType]
  | .float => obtain ⟨_, rfl, _⟩ := he; cases hm; simp [arrowCell, shownValue, shownType, Val.hasType]
  | .double => obtain ⟨_, rfl, _⟩ := he; cases hm; simp [arrowCell, shownValue, shownType, Val.hasType]
  | .bytes => obtain ⟨_, rfl, _⟩ := he; cases hm; simp [arrowCell, shownValue, shownType, Val.hasType]
  | .string => obtain ⟨_, rfl, _⟩ := he; cases hm; simp [arrowCell, shownValue, shownType, Val.hasType]
  | .array _ =>
    obtain ⟨_, rfl, _⟩ := he; obtain ⟨_, rfl, _⟩ := hm
    simp [arrowCell, shownValue, shownType, Val.hasType]
  | .record _ _ =>
    obtain ⟨_, rfl, _⟩ := he; obtain ⟨_, rfl, _⟩ := hm
    simp [arrowCell, shownValue, shownType, Val.hasType]
  | .enum _ => obtain ⟨_, _, rfl, _⟩ := he; cases hm; simp [arrowCell, shownValue, shownType, Val.hasType]
  | .fixed _ => obtain ⟨rfl, _⟩ := he; cases hm; simp [arrowCell, shownValue, shownType, Val.hasType]
  | .decimal none _ _ =>
    obtain ⟨_, rfl, _⟩ := he; cases hm; simp [arrowCell, shownValue, shownType, Val.hasType]
  | .decimal (some _) _ _ =>
    obtain ⟨rfl, _⟩ := he; cases hm; simp [arrowCell, shownValue, shownType, Val.hasType]
  | .bigDecimal => obtain ⟨_, rfl, _⟩ := he; cases hm; simp [arrowCell, shownValue, shownType, Val.hasType]
  | .uuid => obtain ⟨_, rfl, _⟩ := he; cases hm; simp [arrowCell, shownValue, shownType, Val.hasType]
  | .date => obtain ⟨_, rfl, _⟩ := he; cases hm; simp [arrowCell, shownValue, shownType, Val.hasType]
  | .timeMillis => obtain ⟨_, rfl, _⟩ := he; cases hm; simp [arrowCell, shownValue, shownType, Val.hasType]
  | .timeMicros => obtain ⟨_, rfl, _⟩ := he; cases hm; simp [arrowCell, shownValue, shownType, Val.hasType]
  | .timestampMillis =>
    obtain ⟨_, rfl, _⟩ := he; cases hm; simp [arrowCell, shownValue, shownType, Val.hasType]
  | .timestampMicros =>
    obtain ⟨_, rfl, _⟩ := he; cases hm; simp [arrowCell, shownValue, shownType, Val.hasType]
  | .timestampNanos =>
    obtain ⟨_, rfl, _⟩ := he; cases hm; simp [arrowCell, shownValue, shownType, Val.hasType]
  | .duration => obtain ⟨rfl, _⟩ := he; cases hm; simp [arrowCell, shownValue, shownType, Val.hasType]
termination_by sizeOf s

/-- The row of a record fits the columns. -/
theorem fields_typed (F : Formats) {fs : List (Str × AvroSchema)} {fields : List AField}
    {vs : List (Str × AvroValue)} {b : Bytes} (ha : ArrowableFields fs) (hm : MapsFields fs fields)
    (he : EncFields fs vs b) :
    let row := List.zipWith (fun f c => c.map (shownValue F f.type)) fields (fieldCells vs)
    row.length = (columnsOf F fields).length ∧ ∀ p ∈ (columnsOf F fields).zip row,
      (p.2 = none → p.1.nullable = true) ∧ ∀ v, p.2 = some v → v.hasType p.1.dtype = true := by
  induction fs generalizing fields vs b with
  | nil =>
    obtain rfl : fields = [] := hm
    simp [columnsOf]
  | cons p fs ih =>
    obtain ⟨n, s⟩ := p
    obtain ⟨f, rest, rfl, _, hnul, hmt, hm⟩ := hm
    obtain ⟨v, ws, c, d, rfl, hv, he, _⟩ := he
    obtain ⟨h1, h2⟩ := ih ha.2 hm he
    obtain ⟨g1, g2⟩ := cell_typed F s f.type v c ha.1 hmt hv
    simp only [columnsOf, fieldCells, List.map_cons, List.zipWith_cons_cons, List.zip_cons_cons,
      List.length_cons, List.mem_cons, forall_eq_or_imp] at h1 h2 ⊢
    refine ⟨by rw [h1], ⟨?_, ?_⟩, h2⟩
    · intro h
      rw [hnul]
      exact g1 (by simpa using h)
    · intro x hx
      obtain ⟨y, hy, rfl⟩ := Option.map_eq_some_iff.1 hx
      exact g2 y hy

/-- The rows of the batches are those of the records. -/
theorem holdValues_rows {F : Formats} {fs : List (Str × AvroSchema)} {fields : List AField}
    {vs : List AvroValue} {bs : List Batch} (h : HoldValues F fs vs bs)
    (hf : toArrowSchema (.record fs) = .ok fields) (hv : ∀ v ∈ vs, HasType (.record fs) v) :
    bs.flatMap (·.rows) = vs.map (rowOf F fields) ∧ ∀ b ∈ bs, b.schema = columnsOf F fields := by
  obtain ⟨fields', rows, h1, _, h3, h4, h5⟩ := h
  rw [hf] at h1
  cases h1
  refine ⟨?_, h5⟩
  rw [h4]
  clear h4 h5
  induction vs generalizing rows with
  | nil =>
    cases rows with
    | nil => rfl
    | cons r rows => cases h3
  | cons v vs ih =>
    cases rows with
    | nil => cases h3
    | cons r rows =>
      rw [List.map_cons, List.map_cons] at h3
      injection h3 with e1 e2
      rw [List.map_cons, List.map_cons, ih (fun v hv' => hv v (by simp [hv'])) rows e2]
      congr 1
      obtain ⟨b, w, rfl, _⟩ := hv v (by simp)
      unfold rowOf
      unfold arrowCell at e1
      injection e1 with e1
      injection e1 with e1
      rw [e1]

/-- What a block of Avro records decodes to. -/
theorem avroBlock_rows {F : Formats} {w : WBlock} {fs : List (Str × AvroSchema)} {vs : List AvroValue}
    {fields : List AField} (hrd : FaithfulRecord fs) (ha : ArrowableFields fs)
    (hf : toArrowSchema (.record fs) = .ok fields) (hb : AvroBlock F w fs vs) :
    ∃ bs, Decodes F.codec w bs ∧ bs.flatMap (·.rows) = vs.map (rowOf F fields) ∧
      ∀ b ∈ bs, b.WF ∧ b.schema = columnsOf F fields := by
  have hm : MapsFields fs fields := by
    obtain ⟨fields', h1, h2⟩ := mapsTop_ok fs ha
    rw [show topFields fs = .ok fields from hf] at h1
    cases h1
    exact h2
  obtain ⟨bs, h1, h2⟩ := avroBlock_decodes hrd hb
  obtain ⟨rs, _, henc⟩ := hb.content
  obtain ⟨_, htype⟩ := forall₂_enc (F := F) (docs := []) henc
  obtain ⟨h3, h4⟩ := holdValues_rows (h2 bs h1) hf htype
  refine ⟨bs, h1, h3, fun b hb => ⟨?_, h4 b hb⟩⟩
  intro r hr
  have : r ∈ bs.flatMap (·.rows) := List.mem_flatMap.2 ⟨b, hb, hr⟩
  rw [h3] at this
  obtain ⟨v, hv, rfl⟩ := List.mem_map.1 this
  obtain ⟨_, ws, rfl, he⟩ := htype v hv
  rw [h4 b hb]
  exact fields_typed F ha hm he

/-- A table with Avro records in its log files stores the rows of these records. -/
theorem storesAvro_stores {F : Formats} {ltz : LocalTz} {tz : Str} {fs : List (Str × AvroSchema)}
    {fields : List AField} {t : Tree} {h : History} {W : WrittenAvro} {held : Str → List WBlock}
    (hrd : FaithfulRecord fs) (ha : ArrowableFields fs)
    (hf : toArrowSchema (.record fs) = .ok fields)
    (hs : StoresAvro F ltz tz fs (columnsOf F fields) t h W held) :
    StoresRecords F.codec ltz tz (columnsOf F fields) t h (W.rows F fields) held where
  bases := hs.bases
  logs := by
    intro k base l c hap
    obtain ⟨size, h⟩ := hs.logs k base l c hap
    exact ⟨size, _, h, rfl⟩
  blocks := by
    intro k base w hb
    obtain ⟨h1, h2, h3⟩ := hs.blocks k base w hb
    have hroll : ∀ i, RollsBack w i → Decodes F.codec w [] := by
      intro i hr
      unfold Decodes
      rw [hr.1.1]
    refine ⟨⟨h1, ?_, h2, ?_⟩, ?_⟩
    · rcases h3 with ⟨vs, h3⟩ | ⟨i, h3⟩
      · obtain ⟨bs, g, _⟩ := avroBlock_rows hrd ha hf h3
        exact ⟨bs, g⟩
      · exact ⟨[], hroll i h3⟩
    · intro hi
      rcases h3 with ⟨vs, h3⟩ | h3
      · obtain ⟨rs, hc, _⟩ := h3.content
        rw [hi.1] at hc; cases hc
      · exact h3
    · intro w' hw' bs hd b hb'
      rw [List.mem_singleton.1 hw'] at hd
      rcases h3 with ⟨vs, h3⟩ | ⟨i, h3⟩
      · obtain ⟨bs', g1, _, g3⟩ := avroBlock_rows hrd ha hf h3
        rw [decodes_det hd g1] at hb'
        exact g3 b hb'
      · rw [decodes_det hd (hroll i h3)] at hb'
        cases hb'
  rollbacks := hs.rollbacks
  rows := by
    intro k base l c hap r
    show r ∈ (W.appended c.ts k).map (rowOf F fields) ↔ _
    rw [List.mem_map]
    constructor
    · rintro ⟨v, hv, rfl⟩
      obtain ⟨w, vs, h1, h2, h3, h4⟩ := (hs.records k base l c hap v).1 hv
      obtain ⟨bs, g1, g2, _⟩ := avroBlock_rows hrd ha hf h3
      refine ⟨w, bs, h1, h2, g1, ?_⟩
      show _ ∈ bs.flatMap (·.rows)
      rw [g2]
      exact List.mem_map_of_mem h4
    · rintro ⟨w, bs, h1, h2, h3, h4⟩
      rcases (hs.blocks k base w h1).2.2 with ⟨vs, hb⟩ | ⟨i, hr⟩
      · obtain ⟨bs', g1, g2, _⟩ := avroBlock_rows hrd ha hf hb
        rw [decodes_det h3 g1] at h4
        replace h4 : r ∈ bs'.flatMap (·.rows) := h4
        rw [g2] at h4
        obtain ⟨v, hv, rfl⟩ := List.mem_map.1 h4
        exact ⟨v, (hs.records k base l c hap v).2 ⟨w, vs, h1, h2, hb, hv⟩, rfl⟩
      · have : Decodes F.codec w [] := by unfold Decodes; rw [hr.1.1]
        rw [decodes_det h3 this] at h4
        cases h4
  nothing := by
    intro c hc k hk
    show (W.appended c.ts k).map _ = []
    rw [hs.nothing c hc k hk]; rfl

end Hudi
