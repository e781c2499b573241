import Verif.Lemmas.AvroBatch
import Verif.Lemmas.Decode
import Verif.Props.LogDemo
import Verif.Spec.AvroLog

/-! # C35, C48, C56, C57: Avro data in log files -/

namespace Hudi
open Spec Avro

/-- **C35, partial.**  Cut the bytes of a log file at any point: if reading succeeds, it yields exactly
the blocks (in the range) that were complete at that point, and less than a block's magic is left
over.  For blocks in a format without a trailer (all but version 1) this needs that the content is not
Avro data and that a proper prefix of a parquet file is not a parquet file.  Missing: Avro blocks
without a trailer, for which the property is false (`C35_false`). -/
theorem C35_torn_file_partial (F : Formats) (ltz : LocalTz) (tz : Str) (r : InstantRange)
    (keep : WBlock → Bool) (hr : RangeParses ltz r) (ws : List WBlock) (hwf : ∀ w ∈ ws, w.WF)
    (hdec : ∀ w ∈ ws, ∃ bs, Decodes F.codec w bs) (hsel : Selects ltz tz r keep ws)
    (htight : ∀ w ∈ ws, w.version = .v1 ∨ Tight F.codec w)
    (p : Bytes) (hp : p <+: logBytes ws) (bs : List LogBlock)
    (h : readAllBlocks F.codec ltz tz r p = .ok bs) :
    ∃ done later, ws = done ++ later ∧ List.Forall₂ (IsBlock F.codec) (done.filter keep) bs ∧
      logBytes done <+: p ∧ p.length < (logBytes done).length + 6 :=
  torn_file F.codec (codec_streaming F) ltz tz r keep hr ws hwf hdec hsel htight p hp bs h

/-! ## Schemas -/

/-- **C48, partial: names, order, nullability.**  Whenever an Avro record schema is converted, the
Arrow schema has the same field names in the same order, and a field is nullable exactly when its type
admits null.  Missing: a field of type null, which is not made nullable (`C48_false`). -/
theorem C48_names_order_nullability_partial (fs : List (Str × AvroSchema)) (docs : List (Option Str))
    (fields : List AField) (h : toArrowSchema (.record fs docs) = .ok fields) :
    List.Forall₂ (fun p f => f.name = p.1 ∧ (p.2 ≠ .null → f.nullable = admitsNull p.2))
      fs fields := by
  simp only [toArrowSchema] at h
  induction fs generalizing fields with
  | nil => cases h; exact .nil
  | cons p fs ih =>
    obtain ⟨n, s⟩ := p
    simp only [topFields] at h
    obtain ⟨f, hf, h⟩ := Res.bind_eq_ok.1 h
    obtain ⟨rest, hr, h⟩ := Res.bind_eq_ok.1 h
    cases h
    refine .cons ⟨schemaToField_name hf, ?_⟩ (ih rest hr)
    intro hs
    simp only at hs ⊢
    cases s with
    | union vs =>
      simp only [schemaToField, fieldIsNullable] at hf
      split at hf
      · next hc =>
        obtain ⟨t, ht, hf⟩ := Res.bind_eq_ok.1 hf
        cases hf
        exact hc.1.symm
      · obtain ⟨t, ht, hf⟩ := Res.bind_eq_ok.1 hf
        cases hf
        rfl
    | null => exact absurd rfl hs
    | _ => rw [schemaToField_nullable hf rfl]; rfl

/-- **C48, partial: types.**  Every record schema made of types with an Arrow counterpart is converted,
and the result has the same fields at every depth: names, order, types, and nullable exactly when the
type admits null.  Missing: the other types (`C48_false`). -/
theorem C48_schema_converted_partial (fs : List (Str × AvroSchema)) (docs : List (Option Str))
    (hs : ArrowableFields fs) :
    ∃ fields, toArrowSchema (.record fs docs) = .ok fields ∧ MapsFields fs fields := by
  obtain ⟨fields, h1, h2⟩ := mapsTop_ok fs hs
  exact ⟨fields, h1, h2⟩

namespace Demo

/-- A record with nested types. -/
def deep : List (Str × AvroSchema) :=
  [(c!"id", .string),
   (c!"tags", .union [.null, .array (.union [.string, .null])]),
   (c!"at", .record [(c!"lat", .double), (c!"note", .union [.string, .null])]
      [none, some c!"what is there"]),
   (c!"price", .union [.null, .decimal none 10 2])]

example : ArrowableFields deep := by
  simp [ArrowableFields, Arrowable, ArrowableOpt, deep, isNullSchema]

example : toArrowSchema (.record deep) = .ok
    [⟨c!"id", .utf8, false, none⟩, ⟨c!"tags", .list ⟨c!"element", .utf8, true, none⟩, true, none⟩,
     ⟨c!"at", .struct [⟨c!"lat", .float64, false, none⟩,
       ⟨c!"note", .utf8, true, some c!"what is there"⟩], false, none⟩,
     ⟨c!"price", .decimal128 10 2, true, none⟩] := rfl

end Demo

/-- **C48 as stated is false.**  A field of type null becomes a field that is not nullable; a union of
null and two other types inside a list, which admits null, becomes an item that is not nullable; and a
type that is not supported makes the conversion panic instead of reporting it. -/
theorem C48_false :
    (∃ n f, toArrowSchema (.record [(n, .null)]) = .ok [f] ∧ f.nullable = false) ∧
    (∃ n vs f g, admitsNull (.union vs) = true ∧
      toArrowSchema (.record [(n, .array (.union vs))]) = .ok [f] ∧ f.type = .list g ∧
      g.nullable = false) ∧
    ∃ n, toArrowSchema (.record [(n, .localTimestampMillis)]) = .panic :=
  ⟨⟨c!"x", _, rfl, rfl⟩, ⟨c!"x", [.null, .int, .string], _, _, rfl, rfl, rfl, rfl⟩, c!"x", rfl⟩

/-! ## Values -/

/-- **C56.**  Decoding the encoding of a value of any schema gives the value back and reads exactly the
bytes of the encoding, whatever follows them; in particular no two values share an encoding.  Schemas
with references to named types have no encodings here: they are refused (below). -/
theorem C56_avro_values_decode (s : AvroSchema) (v : AvroValue) (b rest : Bytes)
    (h : Enc s v b) :
    datum s (b ++ rest) = .ok (v, b.length) ∧ ∀ v', Enc s v' b → v' = v := by
  constructor
  · unfold datum
    rw [decode_enc s v b rest h]
    simp
  · intro v' h'
    have h1 := decode_enc s v b [] h
    have h2 := decode_enc s v' b [] h'
    rw [h1] at h2
    injection h2 with e _
    exact e.symm

mutual
theorem schemaToField_refers (s : AvroSchema) (n : Option Str) (nul : Bool) (f : AField)
    (h : schemaToField n nul s = .ok f) : refers s = false := by
  match s with
  | .array s =>
    simp only [schemaToField] at h
    obtain ⟨g, hg, _⟩ := Res.bind_eq_ok.1 h
    simpa only [refers] using schemaToField_refers s _ _ _ hg
  | .map s =>
    simp only [schemaToField] at h
    obtain ⟨g, hg, _⟩ := Res.bind_eq_ok.1 h
    simpa only [refers] using schemaToField_refers s _ _ _ hg
  | .union vs =>
    simp only [schemaToField] at h
    simp only [refers]
    split at h
    · next hc =>
      obtain ⟨t, ht, _⟩ := Res.bind_eq_ok.1 h
      exact firstNonNull_refers vs t hc.1 hc.2 ht
    · obtain ⟨t, ht, _⟩ := Res.bind_eq_ok.1 h
      exact variantFields_refers vs _ t ht
  | .record fs _ =>
    simp only [schemaToField] at h
    obtain ⟨g, hg, _⟩ := Res.bind_eq_ok.1 h
    simpa only [refers] using structFields_refers fs _ _ hg
  | .ref _ => simp [schemaToField] at h
  | .null | .boolean | .int | .long | .float | .double | .bytes | .string | .enum _ | .fixed _
  | .decimal _ _ _ | .bigDecimal | .uuid | .date | .timeMillis | .timeMicros | .timestampMillis
  | .timestampMicros | .timestampNanos | .localTimestampMillis | .localTimestampMicros
  | .localTimestampNanos | .duration => simp only [refers]
theorem firstNonNull_refers (vs : List AvroSchema) (t : AType) (hn : hasNull vs = true)
    (hl : vs.length = 2) (h : firstNonNull vs = .ok t) : refersAny vs = false := by
  match vs with
  | [a, b] =>
    cases ha : isNullSchema a with
    | true =>
      obtain rfl : a = .null := by cases a <;> first | rfl | cases ha
      simp only [firstNonNull] at h
      cases hb : isNullSchema b with
      | true =>
        obtain rfl : b = .null := by cases b <;> first | rfl | cases hb
        simp [firstNonNull] at h
      | false =>
        have : ∃ f, schemaToField none true b = .ok f := by
          cases b <;>
            first
            | (exfalso; cases hb; done)
            | (simp only [firstNonNull] at h; obtain ⟨f, hf, _⟩ := Res.bind_eq_ok.1 h; exact ⟨f, hf⟩)
        obtain ⟨f, hf⟩ := this
        simp only [refersAny, refers, schemaToField_refers b _ _ _ hf, Bool.or_self]
    | false =>
      have hb : isNullSchema b = true := by simpa [hasNull, ha] using hn
      obtain rfl : b = .null := by cases b <;> first | rfl | cases hb
      have : ∃ f, schemaToField none true a = .ok f := by
        cases a <;>
            first
            | (exfalso; cases ha; done)
            | (simp only [firstNonNull] at h; obtain ⟨f, hf, _⟩ := Res.bind_eq_ok.1 h; exact ⟨f, hf⟩)
      obtain ⟨f, hf⟩ := this
      simp only [refersAny, refers, schemaToField_refers a _ _ _ hf, Bool.or_self]
theorem variantFields_refers (vs : List AvroSchema) (nul : Bool) (fs : List AField)
    (h : variantFields nul vs = .ok fs) : refersAny vs = false := by
  match vs with
  | [] => simp only [refersAny]
  | s :: ss =>
    simp only [variantFields] at h
    obtain ⟨f, hf, h⟩ := Res.bind_eq_ok.1 h
    obtain ⟨r, hr, _⟩ := Res.bind_eq_ok.1 h
    simp only [refersAny, schemaToField_refers s _ _ _ hf, variantFields_refers ss _ _ hr, Bool.or_self]
theorem structFields_refers (fs : List (Str × AvroSchema)) (docs : List (Option Str))
    (gs : List AField) (h : structFields docs fs = .ok gs) : refersField fs = false := by
  match fs with
  | [] => simp only [refersField]
  | (n, s) :: ss =>
    simp only [structFields] at h
    obtain ⟨f, hf, h⟩ := Res.bind_eq_ok.1 h
    obtain ⟨r, hr, _⟩ := Res.bind_eq_ok.1 h
    simp only [refersField, schemaToField_refers s _ _ _ hf, structFields_refers ss _ _ hr, Bool.or_self]
end

/-- **C56, references.**  A block whose schema has a reference to a named type anywhere in it is not read:
nothing is decoded with a schema that is not fully known. -/
theorem C56_references_refused (s : AvroSchema) (h : refers s = true) (fs : List AField) :
    toArrowSchema s ≠ .ok fs := by
  intro he
  cases s with
  | record l =>
    simp only [toArrowSchema] at he
    simp only [refers] at h
    induction l generalizing fs with
    | nil => simp [refersField] at h
    | cons p l ih =>
      obtain ⟨n, s⟩ := p
      simp only [topFields] at he
      obtain ⟨f, hf, he⟩ := Res.bind_eq_ok.1 he
      obtain ⟨r, hr, _⟩ := Res.bind_eq_ok.1 he
      simp only [refersField, schemaToField_refers s _ _ _ hf, Bool.false_or] at h
      exact ih r h hr
  | _ =>
    simp only [toArrowSchema] at he
    obtain ⟨f, hf, _⟩ := Res.bind_eq_ok.1 he
    rw [schemaToField_refers _ _ _ _ hf] at h
    cases h

/-- A linked list of integers: the reference is inside a union inside the record. -/
example : refers (.record [(c!"value", .int), (c!"next", .union [.null, .ref c!"node"])]) = true ∧
    toArrowSchema (.record [(c!"value", .int), (c!"next", .union [.null, .ref c!"node"])]) = .panic :=
  ⟨by decide, rfl⟩

namespace Demo

/-- A record of the schema `deep` without its last field, and its encoding. -/
def deepValue : AvroValue :=
  .record [(c!"id", .string c!"k"),
    (c!"tags", .union 1 (.array [.union 0 (.string c!"é"), .union 1 .null])),
    (c!"at", .record [(c!"lat", .double 5), (c!"note", .union 1 .null)])]

def deepBytes : Bytes :=
  [2, 107] ++ ([2] ++ ([4] ++ (([0] ++ ([4, 195, 169])) ++ (([2] ++ []) ++ [])) ++ [0]) ++
    ((([5, 0, 0, 0, 0, 0, 0, 0] ++ (([2] ++ []) ++ [])) ++ [])))

example : datum (.record (deep.take 3)) (deepBytes ++ [7, 7]) =
    .ok (deepValue, deepBytes.length) := rfl

theorem longBytes_small {i : Int} {n : UInt8} (h : zigzag i < 128) (e : UInt8.ofNat (zigzag i) = n) :
    longBytes i = [n] := by
  unfold longBytes
  rw [varintBytes, if_pos h, e]

example : Enc (.record (deep.take 3)) deepValue deepBytes := by
  have l0 : longBytes 0 = [0] := longBytes_small (by decide) rfl
  have l1 : longBytes 1 = [2] := longBytes_small (by decide) rfl
  have l2 : longBytes 2 = [4] := longBytes_small (by decide) rfl
  refine ⟨_, rfl, _, _, [2, 107], _, rfl, ⟨c!"k", rfl, by unfold LenOk; decide, ?_⟩,
    ⟨_, _, _, _, rfl, ⟨1, _, _, rfl, by unfold Fits64; decide,
      ⟨_, rfl, .block (vs := [_, _]) (ws := []) (by simp) (by unfold LenOk; decide)
        (.cons ⟨0, _, _, rfl, by unfold Fits64; decide, ⟨c!"é", rfl, by unfold LenOk; decide, rfl⟩, rfl⟩
          (.cons ⟨1, _, _, rfl, by unfold Fits64; decide, ⟨rfl, rfl⟩, rfl⟩ .nil)) .done⟩, rfl⟩,
      ⟨_, _, _, _, rfl, ⟨_, rfl, ⟨_, _, _, _, rfl, ⟨5, rfl, by decide, rfl⟩,
        ⟨_, _, _, _, rfl, ⟨1, _, _, rfl, by unfold Fits64; decide, ⟨rfl, rfl⟩, rfl⟩, ⟨rfl, rfl⟩, rfl⟩, rfl⟩⟩,
        ⟨rfl, rfl⟩, rfl⟩, rfl⟩, ?_⟩
  · have e1 : ((utf8Encode c!"k").length : Int) = 1 := rfl
    unfold lenBytes
    rw [e1, l1]; rfl
  · have e1 : ((utf8Encode c!"é").length : Int) = 2 := rfl
    unfold lenBytes
    rw [e1]
    simp only [List.length_cons, List.length_nil, Nat.zero_add, Nat.reduceAdd]
    norm_num
    rw [l0, l1, l2]
    rfl

end Demo

/-! ## Rows -/

theorem pieces_exist {α : Type} (n : Nat) (vs : List α) (h : vs.length ≤ n) :
    ∃ vss, Pieces vs vss := by
  induction n generalizing vs with
  | zero =>
    have : vs = [] := List.eq_nil_of_length_eq_zero (by omega)
    subst this
    exact ⟨[], rfl, by simp, by simp⟩
  | succ n ih =>
    by_cases h0 : vs = []
    · subst h0; exact ⟨[], rfl, by simp, by simp⟩
    have hpos : 0 < vs.length := List.length_pos_iff.2 h0
    by_cases hs : vs.length ≤ 1024
    · exact ⟨[vs], by simp, by simp, by simp; omega⟩
    · obtain ⟨vss, h1, h2, h3⟩ := ih (vs.drop 1024) (by rw [List.length_drop]; omega)
      refine ⟨vs.take 1024 :: vss, by rw [List.flatten_cons, h1, List.take_append_drop], ?_, ?_⟩
      · have hne : vss ≠ [] := by
          rintro rfl
          have := congrArg List.length h1
          rw [List.length_drop] at this
          simp at this
          omega
        rw [List.dropLast_cons_of_ne_nil hne]
        intro p hp
        rcases List.mem_cons.1 hp with rfl | hp
        · rw [List.length_take]; omega
        · exact h2 p hp
      · intro p hp
        rcases List.mem_cons.1 hp with rfl | hp
        · rw [List.length_take]; omega
        · exact h3 p hp

theorem forall₂_enc {F : Formats} {fs : List (Str × AvroSchema)} {docs : List (Option Str)}
    {vs : List AvroValue} {rs : List Bytes} (h : List.Forall₂ (Enc (.record fs)) vs rs) :
    List.Forall₂ (fun r v => F.codec.datum (.record fs docs) r = .ok (v, r.length)) rs vs ∧
      ∀ v ∈ vs, HasType (.record fs) v := by
  induction h with
  | nil => exact ⟨.nil, by simp⟩
  | @cons v r vs rs h1 _ ih =>
    have h1' : Enc (.record fs docs) v r := h1
    refine ⟨.cons (datum_enc h1') ih.1, ?_⟩
    intro x hx
    rcases List.mem_cons.1 hx with rfl | hx
    · exact ⟨r, h1⟩
    · exact ih.2 x hx

/-- Types and values are shown as specified. -/
theorem dtype_shown (F : Formats) : F.dtype = shownType F := by
  funext t; cases t <;> rfl

theorem val_shown (F : Formats) : F.val = shownValue F := by
  funext t v; cases t <;> cases v <;> rfl

theorem batch_shown (F : Formats) (b : ABatch) : F.batch b =
    ⟨columnsOf F b.fields, b.rows.map (List.zipWith (fun f c => c.map (shownValue F f.type)) b.fields)⟩ := by
  unfold Formats.batch columnsOf
  rw [dtype_shown, val_shown]

theorem toBatch_ok {F : Formats} {fs : List (Str × AvroSchema)} {docs : List (Option Str)} (hrd : FaithfulRecord fs)
    (vss : List (List AvroValue)) (hv : ∀ p ∈ vss, ∀ v ∈ p, HasType (.record fs) v) :
    ∃ bs, List.Forall₂ (fun p b => F.codec.toBatch (.record fs docs) p = .ok b) vss bs ∧
      HoldValues F fs vss.flatten bs := by
  induction vss with
  | nil =>
    obtain ⟨fields, rows, h1, h2, _, _⟩ := toABatch_ok hrd [] (by simp)
    exact ⟨[], .nil, fields, [], h1, h2, rfl, rfl, by simp⟩
  | cons p vss ih =>
    obtain ⟨bs, h1, fields, rows, h2, h3, h4, h5, h6⟩ := ih (fun q hq => hv q (by simp [hq]))
    obtain ⟨fields', rows', g1, g2, g3, g4⟩ := toABatch_ok hrd p (hv p (by simp))
    rw [h2] at g1
    cases g1
    have e : F.codec.toBatch (.record fs docs) p = .ok (F.batch ⟨fields, rows'⟩) := by
      change (toABatch (.record fs) p >>= fun b => pure (F.batch b)) = _
      rw [g3]; rfl
    refine ⟨F.batch ⟨fields, rows'⟩ :: bs, .cons e h1, fields, rows' ++ rows, h2, h3, ?_, ?_, ?_⟩
    · rw [List.map_append, List.flatten_cons, List.map_append, g4, h4]
    · rw [List.flatMap_cons, h5, List.map_append, batch_shown]
    · intro b hb
      rcases List.mem_cons.1 hb with rfl | hb
      · rw [batch_shown]
      · exact h6 b hb

/-- A block of Avro records decodes to batches that hold the records. -/
theorem avroBlock_decodes {F : Formats} {w : WBlock} {fs : List (Str × AvroSchema)} {vs : List AvroValue}
    (hrd : FaithfulRecord fs) (hb : AvroBlock F w fs vs) : ∃ bs, Decodes F.codec w bs ∧
      ∀ bs', Decodes F.codec w bs' → HoldValues F fs vs bs' := by
  obtain ⟨⟨rs, hc, henc⟩, text, docs, ht, hp⟩ := hb
  obtain ⟨hd, htype⟩ := forall₂_enc (F := F) (docs := docs) henc
  obtain ⟨vss, hpc⟩ := pieces_exist _ vs (Nat.le_refl _)
  have hmem : ∀ p ∈ vss, ∀ v ∈ p, HasType (.record fs) v := by
    intro p hp v hv
    exact htype v (by rw [← hpc.1]; exact List.mem_flatten.2 ⟨p, hp, hv⟩)
  obtain ⟨bs, h1, h2⟩ := toBatch_ok (F := F) (docs := docs) (hrd) vss hmem
  rw [hpc.1] at h2
  have hchk : F.codec.checkSchema (.record fs docs) = .ok () := by
    obtain ⟨fields, _, h, _⟩ := h2
    change (readerNew (.record fs) >>= fun _ => pure ()) = _
    unfold readerNew
    rw [h]; rfl
  refine ⟨bs, ?_, ?_⟩
  · unfold Decodes
    rw [hc]
    exact ⟨text, .record fs docs, vs, vss, ht, hp, hchk, hd, hpc, h1⟩
  · intro bs' h'
    have hdec : Decodes F.codec w bs := by
      unfold Decodes
      rw [hc]
      exact ⟨text, .record fs docs, vs, vss, ht, hp, hchk, hd, hpc, h1⟩
    rw [decodes_det h' hdec]
    exact h2

/-- **C57, partial.**  Reading the bytes of any sequence of Avro blocks whose schemas are of the
readable kind yields the blocks in the range, and the rows of each block are the records written, in
order: every field at every depth has the value written, and is null where null was written.
Missing: the schemas that are not of that kind (`C57_false`). -/
theorem C57_avro_rows_are_the_records_partial (F : Formats) (ltz : LocalTz) (tz : Str)
    (r : InstantRange) (keep : WBlock → Bool) (hr : RangeParses ltz r) (ws : List WBlock)
    (hwf : ∀ w ∈ ws, w.WF) (hsel : Selects ltz tz r keep ws)
    (fs : WBlock → List (Str × AvroSchema)) (vs : WBlock → List AvroValue)
    (hrd : ∀ w ∈ ws, FaithfulRecord (fs w)) (hb : ∀ w ∈ ws, AvroBlock F w (fs w) (vs w)) :
    ∃ bs, readAllBlocks F.codec ltz tz r (logBytes ws) = .ok bs ∧
      List.Forall₂ (fun w b => HoldValues F (fs w) (vs w) b.batches) (ws.filter keep) bs := by
  have key := fun w hw => avroBlock_decodes (hrd w hw) (hb w hw)
  obtain ⟨bs, h1, h2⟩ := C34_blocks_are_read_back_partial F.codec ltz tz r keep hr ws hwf
    (fun w hw => let ⟨bs, h, _⟩ := key w hw; ⟨bs, h⟩) hsel
  refine ⟨bs, h1, ?_⟩
  have : ∀ w ∈ ws.filter keep, w ∈ ws := fun w hw => List.mem_of_mem_filter hw
  clear h1
  generalize ws.filter keep = kept at h2 this
  induction h2 with
  | nil => exact .nil
  | @cons w b l bs h _ ih =>
    obtain ⟨_, _, hk⟩ := key w (this w (by simp))
    exact .cons (hk _ h.content) (ih (fun w hw => this w (by simp [hw])))

/-- **C57 for values.**  The batch made of values of a readable schema holds them (the same as
`C57_avro_rows_are_the_records_partial` for one batch, with full Arrow values).  Missing: as in
`C57_avro_rows_are_the_records_partial`. -/
theorem C57_batch_holds_the_values_partial (fs : List (Str × AvroSchema)) (hrd : FaithfulRecord fs)
    (docs : List (Option Str)) (vs : List AvroValue) (hv : ∀ v ∈ vs, HasType (.record fs) v) :
    ∃ fields rows, toABatch (.record fs docs) vs = .ok ⟨fields, rows⟩ ∧
      fields.map (·.name) = fs.map Prod.fst ∧
      rows.map (fun r => some (AVal.struct r)) = vs.map arrowCell := by
  obtain ⟨fields, rows, _, h2, h3, h4⟩ := toABatch_ok hrd vs hv
  exact ⟨fields, rows, h3, h2, h4⟩

end Hudi
