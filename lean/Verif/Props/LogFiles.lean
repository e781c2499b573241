import Verif.Lemmas.Torn
import Verif.Props.Range
import Verif.Spec.Demo

/-! # C34, C35: reading log files -/

namespace Hudi
open Spec

theorem shouldSkip_of {ltz : LocalTz} {tz : Str} {r : InstantRange} {keep : WBlock → Bool}
    {ws : List WBlock} (hr : RangeParses ltz r) (hsel : Selects ltz tz r keep ws) {w : WBlock}
    (hw : w ∈ ws) : shouldSkip ltz tz r (hmOfList w.header) = .ok (!keep w) := by
  obtain ⟨t, d, h1, h2, h3⟩ := hsel w hw
  unfold shouldSkip
  rw [lastValue_eq, h1]
  simp only [Res.ofOption_some, Res.ok_bind]
  obtain ⟨b, hb⟩ := C09_answer_exists_partial ltz r t tz d h2 hr.1 hr.2
  obtain ⟨⟨d', h4, h5⟩, h6⟩ := C09_range_membership_partial ltz r t tz b hb
  rw [h2] at h4
  cases h4
  rw [h6]
  have : b = keep w := by rw [Bool.eq_iff_iff, h5, h3]
  rw [this]

/-- What the reader makes of a written block. -/
def readAs (C : Codec) (keep : WBlock → Bool) (w : WBlock) (bs : List Batch) : LogBlock :=
  ⟨w.version, w.type, hmOfList w.header, bs, if w.version = .v1 then hmOfList w.footer else [], !keep w⟩

theorem readAs_isBlock {C : Codec} {keep : WBlock → Bool} {w : WBlock} {bs : List Batch}
    (h : Decodes C w bs) : IsBlock C w (readAs C keep w bs) where
  version := rfl
  type := rfl
  header k := lastValue_eq k _
  footer k := by
    unfold readAs
    by_cases hv : w.version = .v1
    · simp only [if_pos hv]; exact lastValue_eq k _
    · simp only [if_neg hv]; rfl
  content := h

/-- Reading goes through complete blocks one by one. -/
theorem readAllBlocks_append {C : Codec} {ltz : LocalTz} {tz : Str} {r : InstantRange}
    {keep : WBlock → Bool} (hr : RangeParses ltz r) (ws : List WBlock) (hwf : ∀ w ∈ ws, w.WF)
    (hdec : ∀ w ∈ ws, ∃ bs, Decodes C w bs) (hsel : Selects ltz tz r keep ws) (rest : Bytes) :
    ∃ pre, List.Forall₂ (IsBlock C) (ws.filter keep) pre ∧ (∀ b ∈ pre, b.skipped = false) ∧
      readAllBlocks C ltz tz r (logBytes ws ++ rest) = (do
        let bs ← readAllBlocks C ltz tz r rest
        return pre ++ bs) := by
  induction ws with
  | nil =>
    refine ⟨[], .nil, by simp, ?_⟩
    simp only [logBytes, List.flatMap_nil, List.nil_append, Res.pure_eq]
    cases readAllBlocks C ltz tz r rest <;> rfl
  | cons w ws ih =>
    obtain ⟨pre, h1, h2, h3⟩ := ih (fun w hw => hwf w (by simp [hw])) (fun w hw => hdec w (by simp [hw]))
      (fun w hw => hsel w (by simp [hw]))
    obtain ⟨bs, hbs⟩ := hdec w (by simp)
    have hskip := shouldSkip_of hr hsel (w := w) (by simp)
    refine ⟨if keep w then readAs C keep w bs :: pre else pre, ?_, ?_, ?_⟩
    · by_cases hk : keep w = true
      · rw [List.filter_cons_of_pos hk, if_pos hk]
        exact .cons (readAs_isBlock hbs) h1
      · rw [List.filter_cons_of_neg hk, if_neg hk]
        exact h1
    · by_cases hk : keep w = true
      · rw [if_pos hk]
        intro b hb
        rcases List.mem_cons.1 hb with rfl | hb
        · simp [readAs, hk]
        · exact h2 b hb
      · rw [if_neg hk]; exact h2
    · rw [readAllBlocks_eq]
      have : logBytes (w :: ws) ++ rest = blockBytes w ++ (logBytes ws ++ rest) := by
        simp [logBytes]
      rw [this, readNextBlock_ok (hwf w (by simp)) hbs hskip]
      simp only [Res.ok_bind]
      rw [h3]
      cases readAllBlocks C ltz tz r rest with
      | err e => rfl
      | panic => rfl
      | ok l =>
        simp only [Res.ok_bind, Res.pure_eq]
        cases hk : keep w <;> simp [readAs, hk]

theorem readAllBlocks_nil (C : Codec) (ltz : LocalTz) (tz : Str) (r : InstantRange) {p : Bytes}
    (h : p.length < 6) : readAllBlocks C ltz tz r p = .ok [] := by
  rw [readAllBlocks_eq]
  unfold readNextBlock readMagic
  rw [readExact_short h]
  rfl

/-- **C34, partial.**  Reading the bytes of any sequence of well-formed command, Avro and parquet
blocks yields exactly the blocks whose instant time is in the range, in order: version, type, header
and footer metadata, and record batches.  Missing: blocks of the other types, which make reading fail
(`C34_unsupported_blocks_are_reported`). -/
theorem C34_blocks_are_read_back_partial (C : Codec) (ltz : LocalTz) (tz : Str) (r : InstantRange)
    (keep : WBlock → Bool) (hr : RangeParses ltz r) (ws : List WBlock) (hwf : ∀ w ∈ ws, w.WF)
    (hdec : ∀ w ∈ ws, ∃ bs, Decodes C w bs) (hsel : Selects ltz tz r keep ws) :
    ∃ bs, readAllBlocks C ltz tz r (logBytes ws) = .ok bs ∧
      List.Forall₂ (IsBlock C) (ws.filter keep) bs := by
  obtain ⟨pre, h1, _, h3⟩ := readAllBlocks_append hr ws hwf hdec hsel []
  rw [List.append_nil, readAllBlocks_nil C ltz tz r (p := []) (by decide)] at h3
  simp only [Res.ok_bind, Res.pure_eq, List.append_nil] at h3
  exact ⟨pre, h3, h1⟩

/-- **C34, blocks of unsupported types.**  A delete, corrupted, HFile or CDC block makes reading the
file fail, wherever it stands and whatever follows it: it is never silently dropped. -/
theorem C34_unsupported_blocks_are_reported (C : Codec) (ltz : LocalTz) (tz : Str) (r : InstantRange)
    (keep : WBlock → Bool) (hr : RangeParses ltz r) (ws : List WBlock) (hwf : ∀ w ∈ ws, w.WF)
    (hdec : ∀ w ∈ ws, ∃ bs, Decodes C w bs) (w : WBlock) (hw : w.WF) (t : BlockType) (b : Bytes)
    (ht : w.content = .other t b) (hsel : Selects ltz tz r keep (ws ++ [w])) (rest : Bytes) :
    readAllBlocks C ltz tz r (logBytes (ws ++ [w]) ++ rest) = .err .logBlock := by
  obtain ⟨pre, _, _, h3⟩ := readAllBlocks_append hr ws hwf hdec
    (fun w hw => hsel w (by simp [hw])) (blockBytes w ++ rest)
  have e : logBytes (ws ++ [w]) ++ rest = logBytes ws ++ (blockBytes w ++ rest) := by
    simp [logBytes]
  rw [e, h3]
  have hskip := shouldSkip_of hr hsel (w := w) (by simp)
  have hn : readNextBlock C ltz tz r (blockBytes w ++ rest) = .err .logBlock := by
    unfold readNextBlock blockBytes readMagic
    rw [List.append_assoc, show (6 : Nat) = ([35, 72, 85, 68, 73, 35] : Bytes).length from rfl,
      readExact_append]
    simp only [logMagic, ne_eq, not_true, if_false, Res.ok_bind, Bool.true_eq_false]
    unfold readBlockBody bodyBytes
    rw [List.append_assoc]
    obtain ⟨len, hlen⟩ := readU64_be' w.blockLength (be 4 (versionCode w.version) ++
      (be 4 (typeCode w.type) ++ (metaBytes w.header ++
      ((be 8 (contentBytes w.content).length ++ contentBytes w.content) ++ tailBytes w))) ++ rest)
    rw [hlen]
    simp only [Res.ok_bind]
    unfold readLogVersion readBlockType
    rw [List.append_assoc, readU32_be (versionCode_lt _)]
    simp only [Res.ok_bind, versionCode_ofU32, Res.pure_eq]
    rw [if_neg (by unfold LogVersion.hasBlockType; simpa using hw.version), List.append_assoc,
      readU32_be (typeCode_lt _)]
    simp only [Res.ok_bind, typeCode_ofU32, Res.pure_eq]
    rw [show w.version.hasHeader = true by unfold LogVersion.hasHeader; simpa using hw.version,
      List.append_assoc, readMeta_ok hw.header]
    simp only [Res.ok_bind, hskip]
    unfold decodeContent readContentLength
    rw [if_pos (by unfold LogVersion.hasContentLength; simpa using hw.version), List.append_assoc,
      List.append_assoc, readU64_be hw.content]
    simp only [Res.ok_bind]
    have hty : w.type = t := by unfold WBlock.type; rw [ht]
    obtain ⟨h1, h2, h4⟩ := hw.other t b ht
    have : ∀ l, decodeByType C w.type (hmOfList w.header) l = .err .logBlock := by
      intro l
      rw [hty]
      cases t <;> first | rfl | contradiction
    unfold limited
    rw [this]
    rfl
  rw [readAllBlocks_eq, hn]
  rfl

/-- **C34, other record formats.**  A data block whose records are laid out in another version of the format
than the third makes reading the file fail: its bytes are never taken for records of that version. -/
theorem C34_other_record_formats_are_reported (C : Codec) (ltz : LocalTz) (tz : Str) (r : InstantRange)
    (keep : WBlock → Bool) (hr : RangeParses ltz r) (ws : List WBlock) (hwf : ∀ w ∈ ws, w.WF)
    (hdec : ∀ w ∈ ws, ∃ bs, Decodes C w bs) (w : WBlock) (hv : w.version ≠ .v0) (hh : MetaFits w.header)
    (n : Nat) (hn : n < 2 ^ 32) (hn3 : n ≠ 3) (b : Bytes) (ht : w.content = .other .avroData (be 4 n ++ b))
    (hlen : (contentBytes w.content).length < 2 ^ 64) (hsel : Selects ltz tz r keep (ws ++ [w])) (rest : Bytes) :
    ∃ e, readAllBlocks C ltz tz r (logBytes (ws ++ [w]) ++ rest) = .err e := by
  obtain ⟨pre, _, _, h3⟩ := readAllBlocks_append hr ws hwf hdec
    (fun w hw => hsel w (by simp [hw])) (blockBytes w ++ rest)
  have e : logBytes (ws ++ [w]) ++ rest = logBytes ws ++ (blockBytes w ++ rest) := by
    simp [logBytes]
  rw [e, h3]
  have hskip := shouldSkip_of hr hsel (w := w) (by simp)
  have hn : ∃ e, readNextBlock C ltz tz r (blockBytes w ++ rest) = .err e := by
    unfold readNextBlock blockBytes readMagic
    rw [List.append_assoc, show (6 : Nat) = ([35, 72, 85, 68, 73, 35] : Bytes).length from rfl,
      readExact_append]
    simp only [logMagic, ne_eq, not_true, if_false, Res.ok_bind, Bool.true_eq_false]
    unfold readBlockBody bodyBytes
    rw [List.append_assoc]
    obtain ⟨len, hlen'⟩ := readU64_be' w.blockLength (be 4 (versionCode w.version) ++
      (be 4 (typeCode w.type) ++ (metaBytes w.header ++
      ((be 8 (contentBytes w.content).length ++ contentBytes w.content) ++ tailBytes w))) ++ rest)
    rw [hlen']
    simp only [Res.ok_bind]
    unfold readLogVersion readBlockType
    rw [List.append_assoc, readU32_be (versionCode_lt _)]
    simp only [Res.ok_bind, versionCode_ofU32, Res.pure_eq]
    rw [if_neg (by unfold LogVersion.hasBlockType; simpa using hv), List.append_assoc,
      readU32_be (typeCode_lt _)]
    simp only [Res.ok_bind, typeCode_ofU32, Res.pure_eq]
    rw [show w.version.hasHeader = true by unfold LogVersion.hasHeader; simpa using hv,
      List.append_assoc, readMeta_ok hh]
    simp only [Res.ok_bind, hskip]
    unfold decodeContent readContentLength
    rw [if_pos (by unfold LogVersion.hasContentLength; simpa using hv), List.append_assoc,
      List.append_assoc, readU64_be hlen]
    simp only [Res.ok_bind]
    have hty : w.type = .avroData := by unfold WBlock.type; rw [ht]
    have hb : contentBytes w.content = be 4 n ++ b := by rw [ht]; rfl
    have : ∃ e, decodeByType C w.type (hmOfList w.header) (be 4 n ++ b) = .err e := by
      rw [hty]
      unfold decodeByType
      simp only
      cases hmGet .schema (hmOfList w.header) with
      | none => exact ⟨_, rfl⟩
      | some text =>
        simp only [Res.ofOption_some, Res.ok_bind]
        cases C.parseSchema text with
        | none => exact ⟨_, rfl⟩
        | some s =>
          simp only [Res.ofOption_some, Res.ok_bind]
          unfold decodeAvro
          rw [readU32_be hn]
          simp only [Res.ok_bind]
          rw [if_pos hn3]
          exact ⟨_, rfl⟩
    obtain ⟨e, he⟩ := this
    refine ⟨e, ?_⟩
    unfold limited
    rw [← hb] at he
    rw [List.take_left' rfl, he]
    rfl
  obtain ⟨e, hn⟩ := hn
  refine ⟨e, ?_⟩
  rw [readAllBlocks_eq, hn]
  rfl

/-- **C34, other versions.**  A block of a version other than the first, second and third -- among them the
oldest, without a type and a header -- makes reading the file fail, whatever follows. -/
theorem C34_other_versions_are_reported (C : Codec) (ltz : LocalTz) (tz : Str) (r : InstantRange)
    (keep : WBlock → Bool) (hr : RangeParses ltz r) (ws : List WBlock) (hwf : ∀ w ∈ ws, w.WF)
    (hdec : ∀ w ∈ ws, ∃ bs, Decodes C w bs) (hsel : Selects ltz tz r keep ws) (len n : Nat) (hn : n < 2 ^ 32)
    (hn1 : n ∉ [1, 2, 3]) (rest : Bytes) :
    ∃ e, readAllBlocks C ltz tz r
      (logBytes ws ++ ([35, 72, 85, 68, 73, 35] ++ (be 8 len ++ (be 4 n ++ rest)))) = .err e := by
  obtain ⟨pre, _, _, h3⟩ := readAllBlocks_append hr ws hwf hdec hsel
    ([35, 72, 85, 68, 73, 35] ++ (be 8 len ++ (be 4 n ++ rest)))
  rw [h3]
  have hn : ∃ e, readNextBlock C ltz tz r ([35, 72, 85, 68, 73, 35] ++ (be 8 len ++ (be 4 n ++ rest))) = .err e := by
    unfold readNextBlock readMagic
    rw [show (6 : Nat) = ([35, 72, 85, 68, 73, 35] : Bytes).length from rfl, readExact_append]
    simp only [logMagic, ne_eq, not_true, if_false, Res.ok_bind, Bool.true_eq_false]
    unfold readBlockBody
    obtain ⟨l, hl⟩ := readU64_be' len (be 4 n ++ rest)
    rw [hl]
    simp only [Res.ok_bind]
    unfold readLogVersion
    rw [readU32_be hn]
    simp only [Res.ok_bind]
    simp only [List.mem_cons, List.not_mem_nil, or_false, not_or] at hn1
    match n with
    | 0 => exact ⟨_, rfl⟩
    | 1 | 2 | 3 => simp at hn1
    | k + 4 => exact ⟨_, rfl⟩
  obtain ⟨e, hn⟩ := hn
  refine ⟨e, ?_⟩
  rw [readAllBlocks_eq, hn]
  rfl

/-- Cut the bytes of a log file at any point: if reading succeeds, it yields exactly the blocks (in the
range) that were complete at that point, and less than a block's magic is left over.  For any formats
of records that do not read past a cut. -/
theorem torn_file (C : Codec) (hC : Streaming C) (ltz : LocalTz) (tz : Str) (r : InstantRange)
    (keep : WBlock → Bool) (hr : RangeParses ltz r) (ws : List WBlock) (hwf : ∀ w ∈ ws, w.WF)
    (hdec : ∀ w ∈ ws, ∃ bs, Decodes C w bs) (hsel : Selects ltz tz r keep ws)
    (htight : ∀ w ∈ ws, w.version = .v1 ∨ Tight C w)
    (p : Bytes) (hp : p <+: logBytes ws) (bs : List LogBlock)
    (h : readAllBlocks C ltz tz r p = .ok bs) :
    ∃ done later, ws = done ++ later ∧ List.Forall₂ (IsBlock C) (done.filter keep) bs ∧
      logBytes done <+: p ∧ p.length < (logBytes done).length + 6 := by
  induction ws generalizing p bs with
  | nil =>
    have : p = [] := List.prefix_nil.1 hp
    subst this
    rw [readAllBlocks_nil C ltz tz r (by decide)] at h
    cases h
    exact ⟨[], [], rfl, .nil, List.prefix_refl _, by simp⟩
  | cons w ws ih =>
    have hl : logBytes (w :: ws) = blockBytes w ++ logBytes ws := by simp [logBytes]
    rw [hl] at hp
    obtain ⟨bs0, hbs⟩ := hdec w (by simp)
    have hskip := shouldSkip_of hr hsel (w := w) (by simp)
    by_cases hw : blockBytes w <+: p
    · obtain ⟨q, rfl⟩ := hw
      have hq : q <+: logBytes ws := (List.prefix_append_right_inj _).1 hp
      have hp1 : logBytes [w] = blockBytes w := by simp [logBytes]
      obtain ⟨pre, h1, _, h3⟩ := readAllBlocks_append (C := C) (keep := keep) hr [w]
        (fun x hx => hwf x (by simp at hx; simp [hx])) (fun x hx => hdec x (by simp at hx; simp [hx]))
        (fun x hx => hsel x (by simp at hx; simp [hx])) q
      rw [hp1, h] at h3
      obtain ⟨bs', h4, h5⟩ := Res.bind_eq_ok.1 h3.symm
      cases h5
      obtain ⟨done, later, e, h6, h7, h8⟩ := ih (fun w hw => hwf w (by simp [hw]))
        (fun w hw => hdec w (by simp [hw])) (fun w hw => hsel w (by simp [hw]))
        (fun w hw => htight w (by simp [hw])) q hq bs' h4
      refine ⟨w :: done, later, by rw [e]; rfl, ?_, ?_, ?_⟩
      · have : (w :: done).filter keep = [w].filter keep ++ done.filter keep := by
          rw [← List.filter_append]; rfl
        rw [this]
        exact List.rel_append h1 h6
      · have : logBytes (w :: done) = blockBytes w ++ logBytes done := by simp [logBytes]
        rw [this]
        exact (List.prefix_append_right_inj _).2 h7
      · have : logBytes (w :: done) = blockBytes w ++ logBytes done := by simp [logBytes]
        rw [this, List.length_append, List.length_append]
        omega
    · have hcut : Cut p (blockBytes w) := by
        rcases List.prefix_or_prefix_of_prefix hp (List.prefix_append (blockBytes w) (logBytes ws)) with
          h | h
        · exact ⟨h, fun e => hw (by rw [e]; exact List.prefix_refl _)⟩
        · exact absurd h hw
      rw [readAllBlocks_eq] at h
      obtain ⟨x, h1, h2⟩ := Res.bind_eq_ok.1 h
      obtain ⟨rfl, hlen⟩ := readNextBlock_cut hC (hwf w (by simp)) hbs hskip (htight w (by simp)) hcut h1
      cases h2
      exact ⟨[], w :: ws, rfl, .nil, List.nil_prefix, by simpa [logBytes] using hlen⟩

end Hudi
