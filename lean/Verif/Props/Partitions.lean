import Verif.Lemmas.Partition
import Verif.Model.Table
import Verif.Spec.Demo

/-! # C29, C30: partition pruning and partition paths -/

namespace Hudi
open Spec

theorem pruner_new_ok {A : Arrow} {filters : List Filter} {schema : Schema} {o : Opts} {p : Pruner}
    (h : Pruner.new A filters schema o = .ok p) :
    p.schema = schema ∧ Res.mapL (fun f => SFilter.ofFilter A f schema) filters = .ok p.filters ∧
      Cfg.isHiveStylePartitioning.getOrDefault o = .ok (.boolean p.hiveStyle) ∧
      Cfg.isPartitionPathUrlencoded.getOrDefault o = .ok (.boolean p.urlEncoded) := by
  unfold Pruner.new at h
  obtain ⟨fs, h1, h⟩ := Res.bind_eq_ok.1 h
  obtain ⟨hv, h2, h⟩ := Res.bind_eq_ok.1 h
  obtain ⟨hive, h3, h⟩ := Res.bind_eq_ok.1 h
  obtain ⟨uv, h4, h⟩ := Res.bind_eq_ok.1 h
  obtain ⟨url, h5, h⟩ := Res.bind_eq_ok.1 h
  cases h
  refine ⟨rfl, h1, ?_, ?_⟩
  · rw [h2]; cases hv <;> cases h3; rfl
  · rw [h4]; cases uv <;> cases h5; rfl

/-- With the values known, a path is included exactly when the values pass every filter. -/
theorem include_iff {A : Arrow} {filters : List Filter} {schema : Schema} {o : Opts} {p : Pruner}
    (hp : Pruner.new A filters schema o = .ok p) (hd : (schema.map Field.name).Nodup) {path : Str}
    {vals : List Val} (hl : vals.length = schema.length)
    (hv : ∀ (i : Nat) (f : Field) (v : Val), schema[i]? = some f → vals[i]? = some v →
      v.hasType f.dtype = true)
    (h : p.parseSegments A path = .ok (hmOfList ((schema.map Field.name).zip vals))) :
    p.shouldInclude A path = true ↔ ∀ f ∈ filters, Passes A schema vals f := by
  obtain ⟨rfl, hf, _, _⟩ := pruner_new_ok hp
  have hnd : HmNodup ((p.schema.map Field.name).zip vals) := by
    unfold HmNodup
    rw [List.map_fst_zip (by simp [hl])]; exact hd
  have hget : ∀ (i : Nat) (fld : Field) (v : Val), p.schema[i]? = some fld → vals[i]? = some v →
      hmGet fld.name (hmOfList ((p.schema.map Field.name).zip vals)) = some v := by
    intro i fld v h1 h2
    rw [hmGet_hmOfList_of_nodup hnd]
    rw [List.mem_iff_getElem?]
    refine ⟨i, ?_⟩
    rw [List.getElem?_zip_eq_some]
    simp [h1, h2]
  have key : ∀ (f : Filter) (sf : SFilter), SFilter.ofFilter A f p.schema = .ok sf →
      ((match hmGet sf.field.name (hmOfList ((p.schema.map Field.name).zip vals)) with
        | some v => match sf.apply A v with
          | .ok b => b
          | _ => true
        | none => true) = true ↔ Passes A p.schema vals f) := by
    intro f sf hsf
    obtain ⟨a1, a2, a3⟩ := ofFilter_ok hsf
    unfold Schema.fieldWithName at a1
    have hm := List.mem_of_find?_eq_some a1
    have hname : sf.field.name = f.field := by simpa using List.find?_some a1
    obtain ⟨i, hi⟩ := List.mem_iff_getElem?.1 hm
    have hib : i < vals.length := by
      rw [hl]; exact (List.getElem?_eq_some_iff.1 hi).1
    obtain ⟨v, hvi⟩ : ∃ v, vals[i]? = some v := ⟨vals[i], List.getElem?_eq_getElem hib⟩
    rw [hget i _ v hi hvi]
    simp only
    obtain ⟨ord, ho⟩ := cmp_of_hasType A (hv i _ _ hi hvi) (castStr_hasType a3)
    have hap : sf.apply A v = .ok (sf.op.holds ord) := by simp [SFilter.apply, ho]
    rw [hap]
    simp only
    rw [((apply_iff A sf v _).1 hap).2, a2]
    constructor
    · intro hr j fld v' w hj hn hv' hw
      have hji : j = i := by
        have h1 : (p.schema.map Field.name)[j]? = some f.field := by simp [hj, hn]
        have h2 : (p.schema.map Field.name)[i]? = some f.field := by simp [hi, hname]
        obtain ⟨b1, e1⟩ := List.getElem?_eq_some_iff.1 h1
        obtain ⟨b2, e2⟩ := List.getElem?_eq_some_iff.1 h2
        exact (List.Nodup.getElem_inj_iff hd).1 (e1.trans e2.symm)
      subst hji
      rw [hi] at hj; cases hj
      rw [hvi] at hv'; cases hv'
      rw [← textReads_iff, a3] at hw; cases hw
      exact hr
    · intro hps
      exact hps i _ v _ hi hname hvi (textReads_iff.1 a3)
  unfold Pruner.shouldInclude
  rw [h]
  simp only
  rw [List.all_eq_true]
  constructor
  · intro hall f hfm
    obtain ⟨sf, hsf, hsm⟩ := Res.mapL_ok_mem hf f hfm
    exact (key f sf hsf).1 (hall sf hsm)
  · intro hall sf hsm
    obtain ⟨f, hfm, hsf⟩ := (Res.mapL_mem hf sf).1 hsm
    exact (key f sf hsf).2 (hall f hfm)

theorem reads_types {A : Arrow} {schema : Schema} {hive url : Bool} {path : Str} {vals : List Val}
    (h : PathReads A schema hive url path vals) : vals.length = schema.length ∧
      ∀ (i : Nat) (f : Field) (v : Val), schema[i]? = some f → vals[i]? = some v →
        v.hasType f.dtype = true := by
  obtain ⟨plain, texts, _, _, a1, a2, _, _, _, a5⟩ := h
  refine ⟨a2, ?_⟩
  intro i f v hf hv
  have hib : i < texts.length := by rw [a1]; exact (List.getElem?_eq_some_iff.1 hf).1
  exact castStr_hasType (textReads_iff.2 (a5 i f _ v hf (List.getElem?_eq_getElem hib) hv))

/-- **C29.**  Whatever the path, schema and filters: a partition is skipped only if its path reads as
values of the partition schema and these values fail one of the filters. -/
theorem C29_only_nonmatching_partitions_are_skipped (A : Arrow) (filters : List Filter)
    (schema : Schema) (o : Opts) (p : Pruner) (path : Str) (hd : (schema.map Field.name).Nodup)
    (hp : Pruner.new A filters schema o = .ok p) (hs : p.shouldInclude A path = false) :
    ∃ vals, PathReads A schema p.hiveStyle p.urlEncoded path vals ∧
      ∃ f ∈ filters, ¬ Passes A schema vals f := by
  obtain ⟨rfl, _⟩ := pruner_new_ok hp
  cases hps : p.parseSegments A path with
  | ok segs =>
    obtain ⟨vals, hr, rfl⟩ := parse_reads hps
    refine ⟨vals, hr, ?_⟩
    by_contra hcon
    have : p.shouldInclude A path = true :=
      (include_iff hp hd (reads_types hr).1 (reads_types hr).2 hps).2 (by
        intro f hf
        by_contra hn
        exact hcon ⟨f, hf, hn⟩)
    rw [this] at hs; cases hs
  | err e => unfold Pruner.shouldInclude at hs; rw [hps] at hs; cases hs
  | panic => unfold Pruner.shouldInclude at hs; rw [hps] at hs; cases hs

/-- **C29, the converse.**  Every partition whose path reads as values failing one of the filters is
skipped, so pruning is exact.  (In hive style a field name cannot contain `/` or `=`.) -/
theorem C29_pruning_is_exact (A : Arrow) (filters : List Filter) (schema : Schema) (o : Opts)
    (p : Pruner) (path : Str) (hd : (schema.map Field.name).Nodup)
    (hp : Pruner.new A filters schema o = .ok p)
    (hn : p.hiveStyle = true → ∀ f ∈ schema, '/' ∉ f.name ∧ '=' ∉ f.name) :
    p.shouldInclude A path = false ↔
      ∃ vals, PathReads A schema p.hiveStyle p.urlEncoded path vals ∧
        ∃ f ∈ filters, ¬ Passes A schema vals f := by
  refine ⟨C29_only_nonmatching_partitions_are_skipped A filters schema o p path hd hp, ?_⟩
  rintro ⟨vals, hr, f, hf, hnp⟩
  obtain ⟨hsch, _⟩ := pruner_new_ok hp
  subst hsch
  rw [Bool.eq_false_iff]
  intro hi
  exact hnp ((include_iff hp hd (reads_types hr).1 (reads_types hr).2 (reads_parse hn hr)).1 hi f hf)

/-- **C29, settings.**  The pruner reads paths in the style and encoding that the table's options
state; without the options it gives no answer. -/
theorem C29_style_of_the_table (A : Arrow) (filters : List Filter) (schema : Schema) (o : Opts)
    (p : Pruner) (hp : Pruner.new A filters schema o = .ok p) :
    hmGet c!"hoodie.datasource.write.hive_style_partitioning" o =
      some (if p.hiveStyle then c!"true" else c!"false") ∧
    hmGet c!"hoodie.datasource.write.partitionpath.urlencode" o =
      some (if p.urlEncoded then c!"true" else c!"false") := by
  obtain ⟨_, _, h1, h2⟩ := pruner_new_ok hp
  have key : ∀ (s : Str) (b : Bool), parseBool s = some b → s = if b then c!"true" else c!"false" := by
    intro s b hb
    unfold parseBool at hb
    split at hb
    · cases hb; assumption
    split at hb
    · cases hb; assumption
    · cases hb
  constructor
  · simp only [Cfg.getOrDefault, Cfg.get, Cfg.key] at h1
    cases hk : hmGet c!"hoodie.datasource.write.hive_style_partitioning" o with
    | none => rw [hk] at h1; cases h1
    | some s =>
      rw [hk] at h1
      simp only [Cfg.parseRaw] at h1
      cases hb : parseBool s with
      | none => rw [hb] at h1; cases h1
      | some b => rw [hb] at h1; cases h1; rw [key s _ hb]
  · simp only [Cfg.getOrDefault, Cfg.get, Cfg.key] at h2
    cases hk : hmGet c!"hoodie.datasource.write.partitionpath.urlencode" o with
    | none => rw [hk] at h2; cases h2
    | some s =>
      rw [hk] at h2
      simp only [Cfg.parseRaw] at h2
      cases hb : parseBool s with
      | none => rw [hb] at h2; cases h2
      | some b => rw [hb] at h2; cases h2; rw [key s _ hb]

namespace Demo

def pOpts : Opts := [(c!"hoodie.datasource.write.hive_style_partitioning", c!"true"),
  (c!"hoodie.datasource.write.partitionpath.urlencode", c!"false"),
  (c!"hoodie.table.partition.fields", c!"byteField,shortField")]

def pFilter : Filter := ⟨c!"byteField", .lt, c!"20"⟩

end Demo

/-- The hypotheses are met, with a path that is kept and one that is skipped. -/
example : ∃ p, Pruner.new Demo.arrow [Demo.pFilter] Demo.pSchema Demo.pOpts = .ok p ∧
    p.shouldInclude Demo.arrow c!"byteField=10/shortField=x" = true ∧
    p.shouldInclude Demo.arrow c!"byteField=30/shortField=x" = false ∧
    p.shouldInclude Demo.arrow c!"30/x" = true :=
  ⟨_, rfl, by decide, by decide, by decide⟩


theorem hexVal_hexDigit {n : Nat} (h : n < 16) :
    (hexDigit n).toNat < 128 ∧ hexVal (UInt8.ofNat (hexDigit n).toNat) = some n := by
  have : ∀ m : Fin 16, (hexDigit m).toNat < 128 ∧
      hexVal (UInt8.ofNat (hexDigit m).toNat) = some m.val := by decide
  exact this ⟨n, h⟩

theorem percentDecode_triple {n : Nat} (h : n < 128) (r : List UInt8) :
    percentDecode (utf8Encode ['%', hexDigit (n / 16), hexDigit (n % 16)] ++ r) =
      UInt8.ofNat n :: percentDecode r := by
  obtain ⟨a1, a2⟩ := hexVal_hexDigit (show n / 16 < 16 by omega)
  obtain ⟨b1, b2⟩ := hexVal_hexDigit (show n % 16 < 16 by omega)
  simp only [utf8Encode, List.flatMap_cons, List.flatMap_nil, utf8Char_ascii a1, utf8Char_ascii b1,
    List.append_nil, List.nil_append, List.cons_append,
    utf8Char_ascii (show '%'.toNat < 128 by decide)]
  rw [percentDecode, if_pos (by decide)]
  rw [a2, b2]
  simp only
  congr 2
  omega

/-- Decoding undoes the encoding. -/
theorem percentDecode_encode {enc : Char → Bool} (he : Encoder enc) (s : Str) (r : List UInt8) :
    percentDecode (utf8Encode (percentEncode enc s) ++ r) = utf8Encode s ++ percentDecode r := by
  induction s with
  | nil => rfl
  | cons c s ih =>
    have hcons : percentEncode enc (c :: s) =
        (if enc c then ['%', hexDigit (c.toNat / 16), hexDigit (c.toNat % 16)] else [c]) ++
          percentEncode enc s := by simp [percentEncode]
    rw [hcons, utf8Encode_append, List.append_assoc]
    cases hc : enc c with
    | true =>
      have := he.1 c hc
      simp only [if_true]
      rw [percentDecode_triple this, ih, utf8Encode_cons, utf8Char_ascii this]
      rfl
    | false =>
      have hp : '%' ∉ [c] := by
        intro hm
        have : '%' = c := by simpa using hm
        rw [← this, he.2] at hc; cases hc
      have hif : (if false = true then ['%', hexDigit (c.toNat / 16), hexDigit (c.toNat % 16)]
        else [c]) = [c] := rfl
      rw [hif, percentDecode_plain hp, ih, utf8Encode_cons]
      simp [utf8Encode]

theorem utf8Encode_nil : utf8Encode [] = [] := rfl

theorem percentDecode_path {enc : Char → Bool} (he : Encoder enc) (hive : Bool) (schema : Schema)
    (texts : List Str) (hn : hive = true → ∀ f ∈ schema, '%' ∉ f.name) (r : List UInt8) :
    percentDecode (utf8Encode (writePath hive true enc schema texts) ++ r) =
      utf8Encode (writePath hive false enc schema texts) ++ percentDecode r := by
  have hseg : ∀ (f : Field) (t : Str) (r : List UInt8), f ∈ schema →
      percentDecode (utf8Encode (segmentText hive f.name (percentEncode enc t)) ++ r) =
        utf8Encode (segmentText hive f.name t) ++ percentDecode r := by
    intro f t r hf
    unfold segmentText
    cases hh : hive with
    | false => simp only [Bool.false_eq_true, if_false]; exact percentDecode_encode he t r
    | true =>
      simp only [if_true]
      have : '%' ∉ f.name ++ c!"=" := by
        rw [List.mem_append, not_or]
        exact ⟨hn hh f hf, by decide⟩
      rw [utf8Encode_append _ (percentEncode enc t), List.append_assoc, percentDecode_plain this,
        percentDecode_encode he, utf8Encode_append _ t, List.append_assoc]
  clear hn
  unfold writePath
  simp only [if_true, Bool.false_eq_true, if_false]
  induction schema generalizing texts r with
  | nil => rfl
  | cons f schema ih =>
    cases texts with
    | nil => rfl
    | cons t texts =>
      simp only [List.zip_cons_cons, List.map_cons]
      cases hz : schema.zip texts with
      | nil =>
        simp only [List.map_nil, joinWith]
        exact hseg f t r List.mem_cons_self
      | cons e es =>
        have ih := ih texts r (fun g t r hg => hseg g t r (List.mem_cons_of_mem _ hg))
        rw [hz] at ih
        simp only [List.map_cons] at ih
        simp only [List.map_cons, joinWith]
        rw [utf8Encode_append, List.append_assoc, hseg f t _ List.mem_cons_self, utf8Encode_append,
          List.append_assoc]
        congr 1
        have hs : '%' ∉ ['/'] := by decide
        have e1 : ∀ x y : Str, percentDecode (utf8Encode x ++ r) = utf8Encode y ++ percentDecode r →
            percentDecode (utf8Encode ('/' :: x) ++ r) =
              utf8Encode ('/' :: y) ++ percentDecode r := by
          intro x y hxy
          have := percentDecode_plain hs (utf8Encode x ++ r)
          rw [hxy, ← List.append_assoc, ← List.append_assoc, ← utf8Encode_append,
            ← utf8Encode_append] at this
          exact this
        exact e1 _ _ ih

theorem digit_toNat {n : Nat} (h : n < 10) : (Char.ofNat (48 + n)).toNat = 48 + n ∧
    isDigit (Char.ofNat (48 + n)) = true ∧ digitVal (Char.ofNat (48 + n)) = n := by
  have : ∀ m : Fin 10, (Char.ofNat (48 + m)).toNat = 48 + m ∧
    isDigit (Char.ofNat (48 + m)) = true ∧ digitVal (Char.ofNat (48 + m)) = m := by decide
  exact this ⟨n, h⟩

theorem decimal_spec (n : Nat) : decimal n ≠ [] ∧ (decimal n).all isDigit = true ∧
    natOfDigits (decimal n) = n := by
  induction n using Nat.strongRecOn with
  | _ n ih =>
    rw [decimal]
    split
    · rename_i h
      obtain ⟨h1, h2, h3⟩ := digit_toNat h
      refine ⟨by simp, by simp [h2], ?_⟩
      simp [natOfDigits, h3]
    · rename_i h
      obtain ⟨a1, a2, a3⟩ := ih (n / 10) (by omega)
      obtain ⟨h1, h2, h3⟩ := digit_toNat (show n % 10 < 10 by omega)
      refine ⟨by simp, by simp [a2, h2], ?_⟩
      unfold natOfDigits at *
      rw [List.foldl_append, a3]
      simp only [List.foldl_cons, List.foldl_nil, h3]
      omega

theorem decimal_head (n : Nat) : ∃ c cs, decimal n = c :: cs ∧ c ≠ '-' ∧ c ≠ '+' := by
  obtain ⟨h1, h2, _⟩ := decimal_spec n
  cases hd : decimal n with
  | nil => exact absurd hd h1
  | cons c cs =>
    refine ⟨c, cs, rfl, ?_, ?_⟩ <;>
    · rintro rfl
      rw [hd] at h2
      simp only [List.all_cons, Bool.and_eq_true] at h2
      exact absurd h2.1 (by decide)

theorem textOf_cast {A : Arrow} {d : DType} {v : Val} {t : Str} (h : TextOf A d v t) :
    castStr A d t = some v := by
  cases h with
  | utf8 => rfl
  | bool b => cases b <;> rfl
  | nat signed bits n hn =>
    obtain ⟨h1, h2, h3⟩ := decimal_spec n
    obtain ⟨c, cs, hd, hm, hp⟩ := decimal_head n
    simp only [castStr, Option.map_eq_some_iff]
    refine ⟨n, ?_, rfl⟩
    unfold parseArrowInt
    simp only
    split
    · rename_i heq; rw [hd] at heq; cases heq; exact absurd rfl hm
    · rename_i heq; rw [hd] at heq; cases heq; exact absurd rfl hp
    · rw [if_pos ⟨h1, h2⟩, h3]
      cases signed with
      | true =>
        simp only [if_true] at hn ⊢
        rw [if_pos]
        have : (n : Int) < 2 ^ (bits - 1) := by exact_mod_cast hn
        refine ⟨?_, this⟩
        have : (0 : Int) ≤ 2 ^ (bits - 1) := Int.pow_nonneg (by omega)
        omega
      | false =>
        simp only [Bool.false_eq_true, if_false] at hn ⊢
        rw [if_pos]
        exact ⟨by omega, by exact_mod_cast hn⟩
  | neg bits n h0 hn =>
    obtain ⟨h1, h2, h3⟩ := decimal_spec n
    simp only [castStr, Option.map_eq_some_iff]
    refine ⟨-n, ?_, rfl⟩
    unfold parseArrowInt
    simp only
    rw [if_pos ⟨h1, h2⟩, h3]
    simp only [if_true]
    rw [if_pos]
    have : (n : Int) ≤ 2 ^ (bits - 1) := by exact_mod_cast hn
    refine ⟨by omega, ?_⟩
    have : (0 : Int) ≤ 2 ^ (bits - 1) := Int.pow_nonneg (by omega)
    omega
  | other d s t h => simp [castStr, h]

/-- **C31, values.**  A filter by the text of a value -- decimal digits, `true` or `false`, the text itself --
keeps exactly the values of the column that stand in the relation named by the token to that value. -/
theorem C31_filter_by_the_text_of_a_value (A : Arrow) (name token text : Str) (before after : Schema)
    (fld : Field) (w : Val) (hname : fld.name = name) (hfirst : ∀ f ∈ before, f.name ≠ name)
    (htok : token ∈ [c!"=", c!"!=", c!"<", c!"<=", c!">", c!">="]) (ht : TextOf A fld.dtype w text) :
    ∃ f sf, Filter.ofTuple (name, token, text) = .ok f ∧
      SFilter.ofFilter A f (before ++ fld :: after) = .ok sf ∧
      ∀ v, v.hasType fld.dtype = true → ∃ b, sf.apply A v = .ok b ∧ (b = true ↔ Related A token v w) := by
  obtain ⟨op, hop⟩ := (C31_tokens token).1.2 htok
  have h1 : Filter.ofTuple (name, token, text) = .ok ⟨name, op, text⟩ := by
    unfold Filter.ofTuple
    simp only [hop]
    rfl
  have hf : Schema.fieldWithName name (before ++ fld :: after) = some fld := by
    unfold Schema.fieldWithName
    rw [List.find?_append, List.find?_eq_none.2 (by simpa using hfirst)]
    simp [hname]
  have h2 : SFilter.ofFilter A ⟨name, op, text⟩ (before ++ fld :: after) = .ok ⟨fld, op, w⟩ := by
    unfold SFilter.ofFilter castValue
    rw [hf]
    show (Res.ofOption _ (castStr A fld.dtype text)).bind _ = _
    rw [textOf_cast ht]
    rfl
  refine ⟨_, _, h1, h2, fun v hv => ?_⟩
  obtain ⟨b, w', h3, h4, h5⟩ := C31_operators_mean_what_they_say A name token text _ _ _ v h1 h2 hv
  rw [← textReads_iff, textOf_cast ht] at h4
  cases h4
  exact ⟨b, h3, h5⟩

example : TextOf Demo.arrow .boolean (.bool true) c!"true" ∧
    Related Demo.arrow c!">" (.bool true) (.bool false) ∧ ¬ Related Demo.arrow c!">" (.bool false) (.bool true) := by
  refine ⟨.bool true, .bool _ _ (by unfold rel; decide), ?_⟩
  intro h
  cases h with
  | bool _ _ h => revert h; unfold rel; decide

/-- **C30, partial.**  For every list of partition fields (distinct names) with values of their types,
in both styles and both encodings, and for every set of characters the writer chooses to encode: the
path a writer builds is read back as exactly these values for the right fields, and the partition is
kept exactly when the values pass the filters.  Missing: values whose text contains `/`, for which the
claim is false (`C30_false`), and a partition schema whose fields are in another order than the
table's partition fields (`C30_order_false`).  A hive-style segment carries the field name, which
cannot contain `/` or `=`, or `%` when the path is url-encoded. -/
theorem C30_partition_path_round_trip_partial (A : Arrow) (filters : List Filter) (schema : Schema)
    (o : Opts) (p : Pruner) (enc : Char → Bool) (vals : List Val) (texts : List Str)
    (hp : Pruner.new A filters schema o = .ok p) (he : Encoder enc) (hne : schema ≠ [])
    (hd : (schema.map Field.name).Nodup) (hl : texts.length = schema.length)
    (hv : vals.length = schema.length)
    (ht : ∀ (i : Nat) (f : Field) (v : Val) (t : Str), schema[i]? = some f → vals[i]? = some v →
      texts[i]? = some t → TextOf A f.dtype v t)
    (hsl : ∀ t ∈ texts, '/' ∉ t)
    (hnames : p.hiveStyle = true → ∀ f ∈ schema, '/' ∉ f.name ∧ '=' ∉ f.name ∧
      (p.urlEncoded = true → '%' ∉ f.name)) :
    (∃ segs, p.parseSegments A (writePath p.hiveStyle p.urlEncoded enc schema texts) = .ok segs ∧
      segs.length = schema.length ∧
      ∀ (i : Nat) (f : Field) (v : Val), schema[i]? = some f → vals[i]? = some v →
        hmGet f.name segs = some v) ∧
    (p.shouldInclude A (writePath p.hiveStyle p.urlEncoded enc schema texts) = true ↔
      ∀ f ∈ filters, Passes A schema vals f) := by
  obtain ⟨hsch, _⟩ := pruner_new_ok hp
  subst hsch
  have hr : PathReads A p.schema p.hiveStyle p.urlEncoded
      (writePath p.hiveStyle p.urlEncoded enc p.schema texts) vals := by
    refine ⟨writePath p.hiveStyle false enc p.schema texts, texts, ?_, ?_, hl, hv, hne, hsl, ?_, ?_⟩
    · intro hu; rw [hu]
    · intro hu
      rw [hu]
      have := percentDecode_path he p.hiveStyle p.schema texts
        (fun hh f hf => (hnames hh f hf).2.2 hu) []
      rw [List.append_nil] at this
      rw [this, show percentDecode [] = [] from rfl, List.append_nil, utf8Decode_encode]
    · simp [writePath]
    · intro i f t v h1 h2 h3
      exact textReads_iff.1 (textOf_cast (ht i f v t h1 h3 h2))
  have hparse := reads_parse (fun hh f hf => ⟨(hnames hh f hf).1, (hnames hh f hf).2.1⟩) hr
  have hnd : HmNodup ((p.schema.map Field.name).zip vals) := by
    unfold HmNodup
    rw [List.map_fst_zip (by simp [hv])]; exact hd
  refine ⟨⟨_, hparse, ?_, ?_⟩, include_iff hp hd (reads_types hr).1 (reads_types hr).2 hparse⟩
  · rw [hmOfList_length hnd]
    simp [hv]
  · intro i f v h1 h2
    rw [hmGet_hmOfList_of_nodup hnd, List.mem_iff_getElem?]
    exact ⟨i, by rw [List.getElem?_zip_eq_some]; simp [h1, h2]⟩

namespace Demo

/-- The characters that need encoding in a path, as far as the examples go. -/
def pEnc (c : Char) : Bool := decide (c = '%' ∨ c = '/' ∨ c = ' ' ∨ c = '=')

theorem pEnc_encoder : Encoder pEnc := by
  refine ⟨?_, by decide⟩
  intro c hc
  unfold pEnc at hc
  have := of_decide_eq_true hc
  rcases this with h | h | h | h <;> subst h <;> decide

def pOptsUrl : Opts := [(c!"hoodie.datasource.write.hive_style_partitioning", c!"true"),
  (c!"hoodie.datasource.write.partitionpath.urlencode", c!"true")]

end Demo

/-- The hypotheses are met: a negative number and a text with a space, a per cent sign, an equals
sign and a letter outside ASCII. -/
example : ∃ p, Pruner.new Demo.arrow [Demo.pFilter] Demo.pSchema Demo.pOptsUrl = .ok p ∧
    Encoder Demo.pEnc ∧
    TextOf Demo.arrow (.int true 32) (.int (-7)) c!"-7" ∧
    TextOf Demo.arrow .utf8 (.str c!"a =%é") c!"a =%é" ∧
    writePath true true Demo.pEnc Demo.pSchema [c!"-7", c!"a =%é"] =
      c!"byteField=-7/shortField=a%20%3D%25é" ∧
    p.shouldInclude Demo.arrow c!"byteField=-7/shortField=a%20%3D%25é" = true := by
  refine ⟨_, rfl, Demo.pEnc_encoder, ?_, .utf8 _, by decide, by decide⟩
  have := TextOf.neg (A := Demo.arrow) 32 7 (by decide) (by decide)
  simpa [decimal] using this

/-- **C30 is false**: the url-encoded path of a value whose text contains `/` (here a date written
`2024/01/03`) is decoded before it is split, and cannot be read back; the partition is then never
pruned. -/
theorem C30_false : ∃ (A : Arrow) (schema : Schema) (o : Opts) (p : Pruner) (f : Filter) (v : Val)
    (t : Str), Pruner.new A [f] schema o = .ok p ∧ p.urlEncoded = true ∧ Encoder Demo.pEnc ∧
    schema = [⟨c!"day", .utf8, true⟩] ∧ v = .str c!"2024/01/03" ∧ TextOf A .utf8 v t ∧
    (∀ segs, p.parseSegments A (writePath p.hiveStyle true Demo.pEnc schema [t]) ≠ .ok segs) ∧
    ¬ Passes A schema [v] f ∧
    p.shouldInclude A (writePath p.hiveStyle true Demo.pEnc schema [t]) = true := by
  refine ⟨Demo.arrow, [⟨c!"day", .utf8, true⟩], Demo.pOptsUrl, _, ⟨c!"day", .eq, c!"other"⟩, _,
    c!"2024/01/03", rfl, rfl, Demo.pEnc_encoder, rfl, rfl, .utf8 _, ?_, ?_, by decide⟩
  · intro segs h
    have : Pruner.parseSegments Demo.arrow
        ⟨[⟨c!"day", .utf8, true⟩], true, true, [⟨⟨c!"day", .utf8, true⟩, .eq, .str c!"other"⟩]⟩
        (writePath true true Demo.pEnc [⟨c!"day", .utf8, true⟩] [c!"2024/01/03"]) =
        .err .invalidPartitionPath := by decide
    rw [this] at h; cases h
  · intro h
    have := h 0 _ _ (.str c!"other") rfl rfl rfl (.utf8 _)
    cases this with
    | str a b hr =>
      rcases hr with ⟨_, h⟩ | ⟨h, _⟩ | ⟨h, _⟩ | ⟨h, _⟩ | ⟨h, _⟩ | ⟨h, _⟩
      · cases h
      all_goals exact absurd h (by decide)

namespace Demo

/-- A table partitioned by `a`, then `b`, whose records have the columns in the order `b`, `a`. -/
def orderTree : Tree := .dir c!".hoodie"
  (.file c!"20240103153000000.commit" 1 (.json (.obj [(c!"partitionToWriteStats",
    .obj [(c!"1/2", .arr [.obj [(c!"fileId", .str c!"f1-0"),
      (c!"path", .str c!"1/2/f1-0_0-1-2_20240103153000000.parquet")]])])])) .nil)
  (.dir c!"1" (.dir c!"2" (.file c!"f1-0_0-1-2_20240103153000000.parquet" 1
    (.parquet 1 ⟨[⟨c!"b", .int true 32, true⟩, ⟨c!"a", .int true 32, true⟩],
      [[some (.int 2), some (.int 1)]]⟩) .nil) .nil) .nil)

def orderTable : Table where
  opts := [(c!"hoodie.datasource.write.hive_style_partitioning", c!"false"),
    (c!"hoodie.datasource.write.partitionpath.urlencode", c!"false"),
    (c!"hoodie.table.partition.fields", c!"a,b")]
  storageOpts := []
  timeline := ⟨[], [⟨c!"20240103153000000", .commit, .completed, 1704295800000⟩]⟩

end Demo

/-- **C30 is false**, for plain paths: the segments of a path are matched with the partition fields in
the order of the table's columns instead of the order of the partition fields.  In a table
partitioned by `a`, then `b`, whose columns are `b`, `a`, the partition `1/2`, holding the row with
`a = 1` and `b = 2`, is skipped by the filter `a = 1`, and its row is missing from the answer. -/
theorem C30_order_false : ∃ (A : Arrow) (E : Env) (tb : Table) (t : Tree),
    partitionFieldsOf tb.opts = .ok [c!"a", c!"b"] ∧
    tb.timeline.latestSchema t = .ok [⟨c!"b", .int true 32, true⟩, ⟨c!"a", .int true 32, true⟩] ∧
    getParquetData t c!"1/2/f1-0_0-1-2_20240103153000000.parquet" =
      .ok ⟨[⟨c!"b", .int true 32, true⟩, ⟨c!"a", .int true 32, true⟩],
        [[some (.int 2), some (.int 1)]]⟩ ∧
    (∃ s, (tb.fileSlices E A t [] []).2 = .ok [s] ∧ s.partitionPath = c!"1/2") ∧
    (tb.fileSlices E A t [(c!"a", c!"=", c!"1")] []).2 = .ok [] :=
  ⟨Demo.arrow, Demo.env, Demo.orderTable, Demo.orderTree, rfl, rfl, rfl, ⟨_, rfl, rfl⟩, rfl⟩

end Hudi
