import Verif.Spec.Log
import Verif.Lemmas.Utf8
import Verif.Lemmas.HMap
import Mathlib.Data.List.Forall2
import Mathlib.Tactic.Common

/-! # Lemmas about the log format -/

namespace Hudi
open Spec

theorem be_length (k n : Nat) : (be k n).length = k := by
  induction k generalizing n with
  | zero => rfl
  | succ k ih => simp [be, ih]

theorem beNat_append (a b : Bytes) : beNat (a ++ b) = beNat a * 256 ^ b.length + beNat b := by
  have : ∀ (b : Bytes) (x : Nat), b.foldl (fun a b => a * 256 + b.toNat) x =
      x * 256 ^ b.length + b.foldl (fun a b => a * 256 + b.toNat) 0 := by
    intro b
    induction b with
    | nil => simp
    | cons c b ih =>
      intro x
      rw [List.foldl_cons, List.foldl_cons, ih, ih (0 * 256 + c.toNat), List.length_cons, Nat.pow_succ]
      simp only [Nat.add_mul, Nat.zero_mul, Nat.zero_add, Nat.mul_assoc, Nat.add_assoc]
      rw [Nat.mul_comm 256]
  unfold beNat
  rw [List.foldl_append, this b]

theorem beNat_be {k n : Nat} (h : n < 256 ^ k) : beNat (be k n) = n := by
  induction k generalizing n with
  | zero => simp at h; subst h; rfl
  | succ k ih =>
    rw [be, beNat_append, ih (by rw [Nat.pow_succ] at h; omega)]
    have : (UInt8.ofNat (n % 256)).toNat = n % 256 := toNat_ofNat_lt (by omega)
    simp only [beNat, List.foldl_cons, List.foldl_nil, this, List.length_singleton]
    omega

theorem readExact_append (l r : Bytes) : readExact l.length (l ++ r) = .ok (l, r) := by
  unfold readExact
  rw [if_pos (by simp)]
  simp

theorem readExact_short {n : Nat} {l : Bytes} (h : l.length < n) : readExact n l = .err .readLogFile := by
  unfold readExact
  rw [if_neg (by omega)]

theorem readU32_be {n : Nat} (h : n < 2 ^ 32) (r : Bytes) : readU32 (be 4 n ++ r) = .ok (n, r) := by
  unfold readU32
  have := readExact_append (be 4 n) r
  rw [be_length] at this
  rw [this]
  simp only [Res.ok_bind, Res.pure_eq]
  rw [beNat_be (by omega)]

theorem readU64_be {n : Nat} (h : n < 2 ^ 64) (r : Bytes) : readU64 (be 8 n ++ r) = .ok (n, r) := by
  unfold readU64
  have := readExact_append (be 8 n) r
  rw [be_length] at this
  rw [this]
  simp only [Res.ok_bind, Res.pure_eq]
  rw [beNat_be (by omega)]

theorem readU64_be' (n : Nat) (r : Bytes) : ∃ m, readU64 (be 8 n ++ r) = .ok (m, r) := by
  unfold readU64
  have := readExact_append (be 8 n) r
  rw [be_length] at this
  rw [this]
  exact ⟨_, rfl⟩

theorem keyCode_lt (k : MetaKey) : keyCode k < 2 ^ 32 := by cases k <;> decide
theorem typeCode_lt (k : BlockType) : typeCode k < 2 ^ 32 := by cases k <;> decide
theorem versionCode_lt (k : LogVersion) : versionCode k < 2 ^ 32 := by cases k <;> decide
theorem keyCode_ofU32 (k : MetaKey) : MetaKey.ofU32 (keyCode k) = .ok k := by cases k <;> rfl
theorem typeCode_ofU32 (k : BlockType) : BlockType.ofU32 (typeCode k) = .ok k := by cases k <;> rfl
theorem versionCode_ofU32 (k : LogVersion) : LogVersion.ofU32 (versionCode k) = .ok k := by
  cases k <;> rfl

theorem readMetaEntry_ok {e : MetaKey × Str} (h : (utf8Encode e.2).length < 2 ^ 32) (r : Bytes) :
    readMetaEntry (entryBytes e ++ r) = .ok (e, r) := by
  unfold readMetaEntry entryBytes
  rw [List.append_assoc, readU32_be (keyCode_lt _)]
  simp only [Res.ok_bind, keyCode_ofU32]
  rw [List.append_assoc, readU32_be h]
  simp only [Res.ok_bind]
  rw [readExact_append]
  simp only [Res.ok_bind, utf8Decode_encode, Res.ofOption_some, Res.pure_eq]

theorem readMetaEntries_ok {m : List (MetaKey × Str)}
    (h : ∀ e ∈ m, (utf8Encode e.2).length < 2 ^ 32) (acc : BlockMeta) (r : Bytes) :
    readMetaEntries m.length acc (m.flatMap entryBytes ++ r) = .ok (hmExtend acc m, r) := by
  induction m generalizing acc with
  | nil => rfl
  | cons e m ih =>
    rw [List.length_cons, readMetaEntries, List.flatMap_cons, List.append_assoc,
      readMetaEntry_ok (h e (by simp))]
    simp only [Res.ok_bind]
    rw [ih (fun e he => h e (by simp [he]))]
    rfl

theorem readMeta_ok {m : List (MetaKey × Str)} (h : MetaFits m) (r : Bytes) :
    readMeta true (metaBytes m ++ r) = .ok (hmOfList m, r) := by
  unfold readMeta metaBytes
  rw [if_neg (by simp), List.append_assoc, readU32_be h.1]
  simp only [Res.ok_bind]
  exact readMetaEntries_ok h.2 [] r

theorem lastValue_eq (k : MetaKey) (m : List (MetaKey × Str)) : hmGet k (hmOfList m) = lastValue k m := by
  rw [hmGet_hmOfList]
  unfold lastValue
  have : ∀ m : List (MetaKey × Str), hmGet k m.reverse =
      ((m.filter (fun e => decide (e.1 = k))).getLast?).map Prod.snd := by
    intro m
    have h2 : ∀ l : List (MetaKey × Str), hmGet k l =
        ((l.filter (fun e => decide (e.1 = k))).head?).map Prod.snd := by
      intro l
      induction l with
      | nil => rfl
      | cons e l ih =>
        obtain ⟨k', v⟩ := e
        unfold hmGet
        by_cases h : k' = k
        · simp [h]
        · rw [List.filter_cons_of_neg (by simpa using h), ← ih]
          simp only [ite_eq_right_iff]
          intro e; exact absurd e.symm h
    rw [h2, List.filter_reverse, List.head?_reverse]
  exact this m

theorem readRecord_ok {C : Codec} {s : C.Schema} {d : Bytes} {v : C.Value}
    (h : C.datum s d = .ok (v, d.length)) (hl : d.length < 2 ^ 32) (r : Bytes) :
    readRecord C s (recordBytes d ++ r) = .ok (v, r) := by
  unfold readRecord recordBytes
  rw [List.append_assoc, readU32_be hl]
  simp only [Res.ok_bind, List.take_left', h, Res.pure_eq]
  simp [Res.mapErr, h]

theorem readRecords_ok {C : Codec} {s : C.Schema} {rs : List Bytes} {vs : List C.Value}
    (h : List.Forall₂ (fun r v => C.datum s r = .ok (v, r.length)) rs vs)
    (hl : ∀ r ∈ rs, r.length < 2 ^ 32) (r : Bytes) :
    readRecords C s vs.length (rs.flatMap recordBytes ++ r) = .ok (vs, r) := by
  induction h with
  | nil => rfl
  | cons h1 h2 ih =>
    rw [List.length_cons, readRecords, List.flatMap_cons, List.append_assoc,
      readRecord_ok h1 (hl _ (by simp))]
    simp only [Res.ok_bind]
    rw [ih (fun r hr => hl r (by simp [hr]))]
    rfl

theorem readBatches_ok {C : Codec} {s : C.Schema} {vss : List (List C.Value)} {bs : List Batch}
    (hb : List.Forall₂ (fun p b => C.toBatch s p = .ok b) vss bs) {rs : List Bytes}
    (h : List.Forall₂ (fun r v => C.datum s r = .ok (v, r.length)) rs vss.flatten)
    (hl : ∀ r ∈ rs, r.length < 2 ^ 32) (r : Bytes) :
    readBatches C s (vss.map List.length) (rs.flatMap recordBytes ++ r) = .ok (bs, r) := by
  induction hb generalizing rs with
  | nil => cases h; rfl
  | @cons p b vss bs h1 h2 ih =>
    rw [List.flatten_cons] at h
    obtain ⟨rs1, rs2, hr1, hr2, rfl⟩ : ∃ rs1 rs2,
        List.Forall₂ (fun r v => C.datum s r = .ok (v, r.length)) rs1 p ∧
        List.Forall₂ (fun r v => C.datum s r = .ok (v, r.length)) rs2 vss.flatten ∧
        rs = rs1 ++ rs2 := by
      have h3 := List.forall₂_take_append rs p vss.flatten h
      have h4 := List.forall₂_drop_append rs p vss.flatten h
      exact ⟨_, _, h3, h4, (List.take_append_drop _ _).symm⟩
    rw [List.map_cons, readBatches, List.flatMap_append, List.append_assoc,
      readRecords_ok hr1 (fun r hr => hl r (by simp [hr]))]
    simp only [Res.ok_bind, h1, Res.mapErr]
    rw [ih hr2 (fun r hr => hl r (by simp [hr]))]
    rfl

theorem pieces_sizes {α : Type} {vs : List α} {vss : List (List α)} (h : Pieces vs vss) :
    vss.map List.length = batchSizes vs.length := by
  obtain ⟨rfl, h1, h2⟩ := h
  unfold batchSizes
  induction vss with
  | nil => simp
  | cons p vss ih =>
    cases vss with
    | nil =>
      have := h2 p (by simp)
      simp only [List.flatten_cons, List.flatten_nil, List.append_nil, List.map_cons, List.map_nil]
      by_cases hp : p.length = 1024
      · rw [hp]; rfl
      · rw [Nat.div_eq_of_lt (by omega), Nat.mod_eq_of_lt (by omega), if_neg (by omega)]
        rfl
    | cons q vss =>
      have hp := h1 p (by simp)
      have := ih (fun x hx => h1 x (by
        rw [List.dropLast_cons_of_ne_nil (by simp)]; exact List.mem_cons_of_mem _ hx))
        (fun x hx => h2 x (List.mem_cons_of_mem _ hx))
      have hf : (p :: q :: vss).flatten.length = (q :: vss).flatten.length + 1024 := by
        rw [List.flatten_cons, List.length_append, hp, Nat.add_comm]
      rw [List.map_cons, this, hp, hf]
      rw [Nat.add_div_right _ (by omega), Nat.add_mod_right, List.replicate_succ]
      rfl

theorem limited_ok {α : Type} {rd : Bytes → Res (α × Bytes)} {l : Bytes} {x : α}
    (h : rd l = .ok (x, [])) (r : Bytes) : limited l.length rd (l ++ r) = .ok (x, r) := by
  unfold limited
  rw [List.take_left, h]
  simp

theorem decodeByType_ok {C : Codec} {w : WBlock} (hw : w.WF) {bs : List Batch} (h : Decodes C w bs) :
    decodeByType C w.type (hmOfList w.header) (contentBytes w.content) = .ok (bs, []) := by
  unfold Decodes at h
  unfold WBlock.type
  cases hc : w.content with
  | command => rw [hc] at h; simp only at h; subst h; rfl
  | avro rs =>
    rw [hc] at h
    obtain ⟨text, s, vs, vss, h1, h2, h3, h4, h5, h6⟩ := h
    unfold decodeByType
    simp only [lastValue_eq, h1, h2, Res.ofOption_some, Res.ok_bind]
    unfold decodeAvro
    simp only [contentBytes]
    rw [readU32_be (by decide)]
    simp only [Res.ok_bind, ne_eq, not_true, if_false]
    rw [readU32_be (hw.records rs hc).1]
    simp only [Res.ok_bind, h3]
    have hlen : rs.length = vs.length := h4.length_eq
    rw [hlen, ← pieces_sizes h5]
    have := readBatches_ok h6 (rs := rs) (by rw [h5.1]; exact h4) (hw.records rs hc).2 []
    rw [List.append_nil] at this
    exact this
  | parquet b =>
    rw [hc] at h
    simp only at h
    unfold decodeByType decodeParquet contentBytes
    simp only [h]
    rfl
  | other t b => rw [hc] at h; exact h.elim

theorem decodeContent_ok {C : Codec} {w : WBlock} (hw : w.WF) {bs : List Batch} (h : Decodes C w bs)
    (fallback : Nat) (r : Bytes) :
    decodeContent C w.version fallback w.type (hmOfList w.header)
      (be 8 (contentBytes w.content).length ++ contentBytes w.content ++ r) = .ok (bs, r) := by
  unfold decodeContent readContentLength
  rw [if_pos (by unfold LogVersion.hasContentLength; simpa using hw.version), List.append_assoc,
    readU64_be hw.content]
  simp only [Res.ok_bind]
  exact limited_ok (decodeByType_ok hw h) r

/-- The body of a written block is read back. -/
theorem readBlockBody_ok {C : Codec} {ltz : LocalTz} {tz : Str} {range : InstantRange} {w : WBlock}
    (hw : w.WF) {bs : List Batch} (h : Decodes C w bs) {skip : Bool}
    (hs : shouldSkip ltz tz range (hmOfList w.header) = .ok skip) (r : Bytes) :
    readBlockBody C ltz tz range (bodyBytes w ++ r) =
      .ok (⟨w.version, w.type, hmOfList w.header, bs,
        if w.version = .v1 then hmOfList w.footer else [], skip⟩, r) := by
  unfold readBlockBody bodyBytes
  rw [List.append_assoc]
  obtain ⟨len, hlen⟩ := readU64_be' w.blockLength (be 4 (versionCode w.version) ++
    (be 4 (typeCode w.type) ++ (metaBytes w.header ++
    ((be 8 (contentBytes w.content).length ++ contentBytes w.content) ++ tailBytes w))) ++ r)
  rw [hlen]
  simp only [Res.ok_bind]
  unfold readLogVersion readBlockType
  rw [List.append_assoc, readU32_be (versionCode_lt _)]
  simp only [Res.ok_bind, versionCode_ofU32, Res.pure_eq]
  rw [if_neg (by unfold LogVersion.hasBlockType; simpa using hw.version), List.append_assoc,
    readU32_be (typeCode_lt _)]
  simp only [Res.ok_bind, typeCode_ofU32, Res.pure_eq]
  rw [show w.version.hasHeader = true by unfold LogVersion.hasHeader; simpa using hw.version,
    List.append_assoc, readMeta_ok hw.header]
  simp only [Res.ok_bind, hs]
  rw [List.append_assoc, decodeContent_ok hw h]
  simp only [Res.ok_bind]
  unfold tailBytes readTotalLength
  by_cases hv : w.version = .v1
  · have h1 : w.version.hasFooter = true := by rw [hv]; rfl
    have h2 : w.version.hasTotalLength = true := by rw [hv]; rfl
    rw [if_pos hv, h1, h2, List.append_assoc, readMeta_ok (hw.footer hv)]
    obtain ⟨m, hm⟩ := readU64_be' w.totalLength r
    simp only [Res.ok_bind, hm, Res.pure_eq, if_pos hv, Bool.true_eq_false, if_false]
  · have h1 : w.version.hasFooter = false := by unfold LogVersion.hasFooter; simpa using hv
    have h2 : w.version.hasTotalLength = false := by unfold LogVersion.hasTotalLength; simpa using hv
    rw [if_neg hv, h1, h2]
    simp [readMeta, hv]

theorem readNextBlock_ok {C : Codec} {ltz : LocalTz} {tz : Str} {range : InstantRange} {w : WBlock}
    (hw : w.WF) {bs : List Batch} (h : Decodes C w bs) {skip : Bool}
    (hs : shouldSkip ltz tz range (hmOfList w.header) = .ok skip) (r : Bytes) :
    readNextBlock C ltz tz range (blockBytes w ++ r) =
      .ok (some (⟨w.version, w.type, hmOfList w.header, bs,
        if w.version = .v1 then hmOfList w.footer else [], skip⟩, r)) := by
  unfold readNextBlock blockBytes readMagic
  rw [List.append_assoc, show (6 : Nat) = ([35, 72, 85, 68, 73, 35] : Bytes).length from rfl,
    readExact_append]
  simp only [logMagic, ne_eq, not_true, if_false, Res.ok_bind, Bool.true_eq_false]
  rw [readBlockBody_ok hw h hs]
  rfl

/-! ## The loop over the blocks of a file -/

theorem readExact_le {n : Nat} {b : Bytes} {x : Bytes × Bytes} (h : readExact n b = .ok x) :
    x.2.length ≤ b.length := by
  unfold readExact at h
  split at h
  · cases h; simp
  · cases h

theorem readU32_le {b : Bytes} {x : Nat × Bytes} (h : readU32 b = .ok x) : x.2.length ≤ b.length := by
  unfold readU32 at h
  obtain ⟨r, h1, h2⟩ := Res.bind_eq_ok.1 h
  cases h2
  exact readExact_le h1

theorem readU64_le {b : Bytes} {x : Nat × Bytes} (h : readU64 b = .ok x) : x.2.length ≤ b.length := by
  unfold readU64 at h
  obtain ⟨r, h1, h2⟩ := Res.bind_eq_ok.1 h
  cases h2
  exact readExact_le h1

theorem readMetaEntry_le {b : Bytes} {x : (MetaKey × Str) × Bytes} (h : readMetaEntry b = .ok x) :
    x.2.length ≤ b.length := by
  unfold readMetaEntry at h
  obtain ⟨r, h1, h⟩ := Res.bind_eq_ok.1 h
  obtain ⟨k, _, h⟩ := Res.bind_eq_ok.1 h
  obtain ⟨l, h2, h⟩ := Res.bind_eq_ok.1 h
  obtain ⟨v, h3, h⟩ := Res.bind_eq_ok.1 h
  obtain ⟨s, _, h⟩ := Res.bind_eq_ok.1 h
  cases h
  have := readU32_le h1
  have := readU32_le h2
  have := readExact_le h3
  simp only
  omega

theorem readMetaEntries_le {n : Nat} {m : BlockMeta} {b : Bytes} {x : BlockMeta × Bytes}
    (h : readMetaEntries n m b = .ok x) : x.2.length ≤ b.length := by
  induction n generalizing m b with
  | zero => cases h; exact Nat.le_refl _
  | succ n ih =>
    rw [readMetaEntries] at h
    obtain ⟨e, h1, h⟩ := Res.bind_eq_ok.1 h
    have := readMetaEntry_le h1
    have := ih h
    omega

theorem readMeta_le {p : Bool} {b : Bytes} {x : BlockMeta × Bytes} (h : readMeta p b = .ok x) :
    x.2.length ≤ b.length := by
  unfold readMeta at h
  split at h
  · cases h; exact Nat.le_refl _
  · obtain ⟨n, h1, h⟩ := Res.bind_eq_ok.1 h
    have := readU32_le h1
    have := readMetaEntries_le h
    omega

theorem decodeContent_le {C : Codec} {v : LogVersion} {f : Nat} {t : BlockType} {hd : BlockMeta}
    {b : Bytes} {x : List Batch × Bytes} (h : decodeContent C v f t hd b = .ok x) :
    x.2.length ≤ b.length := by
  unfold decodeContent at h
  obtain ⟨n, h1, h⟩ := Res.bind_eq_ok.1 h
  have h1 : n.2.length ≤ b.length := by
    unfold readContentLength at h1
    split at h1
    · exact readU64_le h1
    · cases h1; exact Nat.le_refl _
  unfold limited at h
  obtain ⟨r, _, h⟩ := Res.bind_eq_ok.1 h
  cases h
  simp only [List.length_drop]
  omega

theorem readBlockBody_le {C : Codec} {ltz : LocalTz} {tz : Str} {range : InstantRange}
    {b : Bytes} {x : LogBlock × Bytes} (h : readBlockBody C ltz tz range b = .ok x) :
    x.2.length ≤ b.length := by
  unfold readBlockBody at h
  obtain ⟨l, h1, h⟩ := Res.bind_eq_ok.1 h
  obtain ⟨v, h2, h⟩ := Res.bind_eq_ok.1 h
  obtain ⟨ty, h3, h⟩ := Res.bind_eq_ok.1 h
  obtain ⟨hd, h4, h⟩ := Res.bind_eq_ok.1 h
  obtain ⟨sk, _, h⟩ := Res.bind_eq_ok.1 h
  obtain ⟨ct, h5, h⟩ := Res.bind_eq_ok.1 h
  obtain ⟨ft, h6, h⟩ := Res.bind_eq_ok.1 h
  obtain ⟨rest, h7, h⟩ := Res.bind_eq_ok.1 h
  cases h
  have := readU64_le h1
  have h2 : v.2.length ≤ l.2.length := by
    unfold readLogVersion at h2
    obtain ⟨r, h21, h2⟩ := Res.bind_eq_ok.1 h2
    obtain ⟨y, _, h2⟩ := Res.bind_eq_ok.1 h2
    cases h2
    exact readU32_le h21
  have h3 : ty.2.length ≤ v.2.length := by
    unfold readBlockType at h3
    split at h3
    · cases h3
    · obtain ⟨r, h31, h3⟩ := Res.bind_eq_ok.1 h3
      obtain ⟨y, _, h3⟩ := Res.bind_eq_ok.1 h3
      cases h3
      exact readU32_le h31
  have := readMeta_le h4
  have := decodeContent_le h5
  have := readMeta_le h6
  have h7 : rest.length ≤ ft.2.length := by
    unfold readTotalLength at h7
    split at h7
    · cases h7; exact Nat.le_refl _
    · obtain ⟨r, h71, h7⟩ := Res.bind_eq_ok.1 h7
      cases h7
      exact readU64_le h71
  simp only
  omega

theorem readNextBlock_lt {C : Codec} {ltz : LocalTz} {tz : Str} {range : InstantRange}
    {b : Bytes} {x : LogBlock × Bytes} (h : readNextBlock C ltz tz range b = .ok (some x)) :
    x.2.length < b.length := by
  unfold readNextBlock at h
  obtain ⟨m, h1, h⟩ := Res.bind_eq_ok.1 h
  unfold readMagic at h1
  split at h1
  · rename_i mg b' hb
    split at h1
    · cases h1
    · cases h1
      simp only [Bool.true_eq_false, if_false] at h
      obtain ⟨r, h2, h⟩ := Res.bind_eq_ok.1 h
      cases h
      have := readBlockBody_le h2
      unfold readExact at hb
      split at hb
      · cases hb
        simp only [List.length_drop] at this
        omega
      · cases hb
  · cases h1
    cases h

theorem readLoop_fuel {C : Codec} {ltz : LocalTz} {tz : Str} {range : InstantRange} {b : Bytes}
    {n m : Nat} (hn : b.length < n) (hm : b.length < m) :
    readLoop C ltz tz range n b = readLoop C ltz tz range m b := by
  induction n generalizing b m with
  | zero => omega
  | succ n ih =>
    cases m with
    | zero => omega
    | succ m =>
      unfold readLoop
      cases h : readNextBlock C ltz tz range b with
      | err e => rfl
      | panic => rfl
      | ok o =>
        cases o with
        | none => rfl
        | some x =>
          have := readNextBlock_lt h
          simp only [Res.ok_bind]
          rw [ih (m := m) (by omega) (by omega)]

/-- The loop of `read_all_blocks` reads blocks until the end of the file: the bound on the number of
iterations is never reached. -/
theorem readAllBlocks_eq (C : Codec) (ltz : LocalTz) (tz : Str) (range : InstantRange) (b : Bytes) :
    readAllBlocks C ltz tz range b = (do
      match ← readNextBlock C ltz tz range b with
      | none => return []
      | some (blk, rest) => do
        let blks ← readAllBlocks C ltz tz range rest
        return if blk.skipped then blks else blk :: blks) := by
  conv => lhs; unfold readAllBlocks; unfold readLoop
  cases h : readNextBlock C ltz tz range b with
  | err e => rfl
  | panic => rfl
  | ok o =>
    cases o with
    | none => rfl
    | some x =>
      have := readNextBlock_lt h
      simp only [Res.ok_bind]
      unfold readAllBlocks
      rw [readLoop_fuel (n := b.length) (m := x.2.length + 1) (by omega) (by omega)]

end Hudi
