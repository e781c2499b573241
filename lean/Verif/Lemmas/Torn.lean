import Verif.Lemmas.Log

/-! # Reading torn log files -/

namespace Hudi
open Spec

/-- A proper prefix. -/
def Cut (p l : Bytes) : Prop := p <+: l ∧ p ≠ l

theorem Cut.lt {p l : Bytes} (h : Cut p l) : p.length < l.length := by
  have := h.1.length_le
  rcases Nat.lt_or_ge p.length l.length with h1 | h1
  · exact h1
  · exact absurd (h.1.eq_of_length_le h1) h.2

theorem cut_append {p a b : Bytes} (h : Cut p (a ++ b)) :
    Cut p a ∨ ∃ q, p = a ++ q ∧ Cut q b := by
  obtain ⟨h1, h2⟩ := h
  by_cases hp : a <+: p
  · obtain ⟨q, rfl⟩ := hp
    refine .inr ⟨q, rfl, ?_, fun e => h2 (by rw [e])⟩
    exact (List.prefix_append_right_inj a).1 h1
  · left
    have h3 : p <+: a := by
      rcases List.prefix_or_prefix_of_prefix h1 (List.prefix_append a b) with h | h
      · exact h
      · exact absurd h hp
    exact ⟨h3, fun e => hp (by rw [e]; exact List.prefix_refl a)⟩

theorem cut_nil {p : Bytes} (h : Cut p []) : False := by
  have := h.lt; simp at this

/-- No value is read. -/
def Fails {α : Type} (r : Res α) : Prop := ∀ x, r ≠ .ok x

theorem fails_bind {α β : Type} {r : Res α} (h : Fails r) (f : α → Res β) : Fails (r >>= f) := by
  intro x hx
  obtain ⟨a, h1, _⟩ := Res.bind_eq_ok.1 hx
  exact h a h1

theorem fails_err {α : Type} (e : ErrKind) : Fails (.err e : Res α) := by intro x h; cases h

theorem readExact_cut {p l : Bytes} (h : Cut p l) : Fails (readExact l.length p) := by
  rw [readExact_short h.lt]; exact fails_err _

theorem readU32_cut {p : Bytes} {n : Nat} (h : Cut p (be 4 n)) : Fails (readU32 p) := by
  have := readExact_cut h
  rw [be_length] at this
  exact fails_bind this _

theorem readU64_cut {p : Bytes} {n : Nat} (h : Cut p (be 8 n)) : Fails (readU64 p) := by
  have := readExact_cut h
  rw [be_length] at this
  exact fails_bind this _

theorem readMetaEntry_cut {e : MetaKey × Str} (h : (utf8Encode e.2).length < 2 ^ 32) {p : Bytes}
    (hp : Cut p (entryBytes e)) : Fails (readMetaEntry p) := by
  unfold readMetaEntry
  unfold entryBytes at hp
  replace hp := cut_append hp
  rcases hp with hp | ⟨q, rfl, hp⟩
  · exact fails_bind (readU32_cut hp) _
  · rw [readU32_be (keyCode_lt _)]
    simp only [Res.ok_bind, keyCode_ofU32]
    replace hp := cut_append hp
    rcases hp with hp | ⟨q, rfl, hp⟩
    · exact fails_bind (readU32_cut hp) _
    · rw [readU32_be h]
      simp only [Res.ok_bind]
      exact fails_bind (readExact_cut hp) _

theorem readMetaEntries_cut {m : List (MetaKey × Str)}
    (h : ∀ e ∈ m, (utf8Encode e.2).length < 2 ^ 32) (acc : BlockMeta) {p : Bytes}
    (hp : Cut p (m.flatMap entryBytes)) : Fails (readMetaEntries m.length acc p) := by
  induction m generalizing acc p with
  | nil => exact (cut_nil hp).elim
  | cons e m ih =>
    rw [List.flatMap_cons] at hp
    rw [List.length_cons, readMetaEntries]
    replace hp := cut_append hp
    rcases hp with hp | ⟨q, rfl, hp⟩
    · exact fails_bind (readMetaEntry_cut (h e (by simp)) hp) _
    · rw [readMetaEntry_ok (h e (by simp))]
      exact ih (fun e he => h e (by simp [he])) _ hp

theorem readMeta_cut {m : List (MetaKey × Str)} (h : MetaFits m) {p : Bytes}
    (hp : Cut p (metaBytes m)) : Fails (readMeta true p) := by
  unfold readMeta
  rw [if_neg (by simp)]
  unfold metaBytes at hp
  replace hp := cut_append hp
  rcases hp with hp | ⟨q, rfl, hp⟩
  · exact fails_bind (readU32_cut hp) _
  · rw [readU32_be h.1]
    exact readMetaEntries_cut h.2 [] hp

/-- If something is read, everything is read. -/
def Drains {α : Type} (r : Res (α × Bytes)) : Prop := ∀ x, r = .ok x → x.2 = []

theorem Fails.drains {α : Type} {r : Res (α × Bytes)} (h : Fails r) : Drains r :=
  fun x hx => absurd hx (h x)

theorem readU32_nil : Fails (readU32 []) := by intro x h; cases h

theorem mapErr_ok {α : Type} {k : ErrKind} {r : Res α} {a : α} (h : Res.mapErr k r = .ok a) :
    r = .ok a := by
  cases r with
  | ok b => exact h
  | err e => cases h
  | panic => cases h

theorem readRecord_nil {C : Codec} {s : C.Schema} : Fails (readRecord C s []) := by
  intro x hx
  exact fails_bind readU32_nil _ x (mapErr_ok hx)

theorem readRecords_nil {C : Codec} {s : C.Schema} (n : Nat) : Drains (readRecords C s n []) := by
  cases n with
  | zero => intro x hx; cases hx; rfl
  | succ n => exact (fails_bind readRecord_nil _).drains

theorem readBatches_nil {C : Codec} {s : C.Schema} (ns : List Nat) :
    Drains (readBatches C s ns []) := by
  induction ns with
  | nil => intro x hx; cases hx; rfl
  | cons n ns ih =>
    intro x hx
    obtain ⟨a, h1, hx⟩ := Res.bind_eq_ok.1 hx
    obtain ⟨b, _, hx⟩ := Res.bind_eq_ok.1 hx
    obtain ⟨c, h2, hx⟩ := Res.bind_eq_ok.1 hx
    cases hx
    rw [readRecords_nil n a h1] at h2
    exact ih c h2

theorem readRecord_cut {C : Codec} (hC : Streaming C) {s : C.Schema} {d : Bytes} {v : C.Value}
    (h : C.datum s d = .ok (v, d.length)) (hl : d.length < 2 ^ 32) {p : Bytes}
    (hp : Cut p (recordBytes d)) : Drains (readRecord C s p) := by
  intro x hx
  have hx := mapErr_ok hx
  unfold recordBytes at hp
  replace hp := cut_append hp
  rcases hp with hp | ⟨q, rfl, hp⟩
  · exact absurd hx (fails_bind (readU32_cut hp) _ x)
  · rw [readU32_be hl] at hx
    simp only [Res.ok_bind] at hx
    rw [List.take_of_length_le (Nat.le_of_lt hp.lt)] at hx
    obtain ⟨a, h1, h2⟩ := Res.bind_eq_ok.1 hx
    cases h2
    simp [hC s d v d.length h q hp.1 hp.lt a h1]

theorem readRecords_cut {C : Codec} (hC : Streaming C) {s : C.Schema} {rs : List Bytes}
    {vs : List C.Value} (h : List.Forall₂ (fun r v => C.datum s r = .ok (v, r.length)) rs vs)
    (hl : ∀ r ∈ rs, r.length < 2 ^ 32) {p : Bytes} (hp : Cut p (rs.flatMap recordBytes)) :
    Drains (readRecords C s vs.length p) := by
  induction h generalizing p with
  | nil => exact (cut_nil hp).elim
  | cons h1 h2 ih =>
    rw [List.flatMap_cons] at hp
    rw [List.length_cons, readRecords]
    replace hp := cut_append hp
    intro x hx
    obtain ⟨a, ha, hx⟩ := Res.bind_eq_ok.1 hx
    obtain ⟨b, hb, hx⟩ := Res.bind_eq_ok.1 hx
    cases hx
    rcases hp with hp | ⟨q, rfl, hp⟩
    · rw [readRecord_cut hC h1 (hl _ (by simp)) hp a ha] at hb
      exact readRecords_nil _ b hb
    · rw [readRecord_ok h1 (hl _ (by simp))] at ha
      cases ha
      exact ih (fun r hr => hl r (by simp [hr])) hp b hb

theorem readBatches_cut {C : Codec} (hC : Streaming C) {s : C.Schema} {vss : List (List C.Value)}
    {rs : List Bytes}
    (h : List.Forall₂ (fun r v => C.datum s r = .ok (v, r.length)) rs vss.flatten)
    (hl : ∀ r ∈ rs, r.length < 2 ^ 32) {p : Bytes} (hp : Cut p (rs.flatMap recordBytes)) :
    Drains (readBatches C s (vss.map List.length) p) := by
  induction vss generalizing rs p with
  | nil => cases h; exact (cut_nil hp).elim
  | cons vs vss ih =>
    rw [List.flatten_cons] at h
    obtain ⟨rs1, rs2, hr1, hr2, rfl⟩ : ∃ rs1 rs2,
        List.Forall₂ (fun r v => C.datum s r = .ok (v, r.length)) rs1 vs ∧
        List.Forall₂ (fun r v => C.datum s r = .ok (v, r.length)) rs2 vss.flatten ∧
        rs = rs1 ++ rs2 := by
      have h3 := List.forall₂_take_append rs vs vss.flatten h
      have h4 := List.forall₂_drop_append rs vs vss.flatten h
      exact ⟨_, _, h3, h4, (List.take_append_drop _ _).symm⟩
    rw [List.flatMap_append] at hp
    rw [List.map_cons, readBatches]
    replace hp := cut_append hp
    intro x hx
    obtain ⟨a, ha, hx⟩ := Res.bind_eq_ok.1 hx
    obtain ⟨b, _, hx⟩ := Res.bind_eq_ok.1 hx
    obtain ⟨c, hc, hx⟩ := Res.bind_eq_ok.1 hx
    cases hx
    rcases hp with hp | ⟨q, rfl, hp⟩
    · rw [readRecords_cut hC hr1 (fun r hr => hl r (by simp [hr])) hp a ha] at hc
      exact readBatches_nil _ c hc
    · rw [readRecords_ok hr1 (fun r hr => hl r (by simp [hr]))] at ha
      cases ha
      exact ih hr2 (fun r hr => hl r (by simp [hr])) hp c hc

/-- On a cut content the decoder fails or consumes everything. -/
theorem decodeByType_cut {C : Codec} (hC : Streaming C) {w : WBlock} (hw : w.WF) {bs : List Batch}
    (h : Decodes C w bs) {p : Bytes} (hp : Cut p (contentBytes w.content)) {x : List Batch × Bytes}
    (hx : decodeByType C w.type (hmOfList w.header) p = .ok x) : x.2 = [] ∧ ¬ Tight C w := by
  unfold Decodes at h
  unfold WBlock.type at hx
  cases hc : w.content with
  | command => rw [hc] at hp; exact (cut_nil hp).elim
  | avro rs =>
    refine ⟨?_, fun ht => ht.1 rs hc⟩
    rw [hc] at h hx hp
    obtain ⟨text, s, vs, vss, h1, h2, h3, h4, h5, h6⟩ := h
    unfold decodeByType at hx
    simp only [lastValue_eq, h1, h2, Res.ofOption_some, Res.ok_bind] at hx
    unfold decodeAvro at hx
    simp only [contentBytes] at hp
    replace hp := cut_append hp
    rcases hp with hp | ⟨q, rfl, hp⟩
    · exact absurd hx (fails_bind (readU32_cut hp) _ x)
    · rw [readU32_be (by decide)] at hx
      simp only [Res.ok_bind, ne_eq, not_true, if_false] at hx
      replace hp := cut_append hp
      rcases hp with hp | ⟨q, rfl, hp⟩
      · exact absurd hx (fails_bind (readU32_cut hp) _ x)
      · rw [readU32_be (hw.records rs hc).1] at hx
        simp only [Res.ok_bind, h3] at hx
        have hlen : rs.length = vs.length := h4.length_eq
        rw [hlen, ← pieces_sizes h5] at hx
        exact readBatches_cut hC (by rw [h5.1]; exact h4) (hw.records rs hc).2 hp x hx
  | parquet b =>
    rw [hc] at hx hp
    unfold decodeByType decodeParquet at hx
    obtain ⟨y, hy, hx⟩ := Res.bind_eq_ok.1 hx
    cases hx
    exact ⟨rfl, fun ht => ht.2 b hc p hp.1 hp.2 _ hy⟩
  | other t b => rw [hc] at h; exact h.elim

/-- A cut block body is not read. -/
theorem readBlockBody_cut {C : Codec} (hC : Streaming C) {ltz : LocalTz} {tz : Str}
    {range : InstantRange} {w : WBlock} (hw : w.WF) {bs : List Batch} (h : Decodes C w bs)
    {skip : Bool} (hs : shouldSkip ltz tz range (hmOfList w.header) = .ok skip)
    (ht : w.version = .v1 ∨ Tight C w) {p : Bytes} (hp : Cut p (bodyBytes w)) :
    Fails (readBlockBody C ltz tz range p) := by
  unfold readBlockBody
  unfold bodyBytes at hp
  replace hp := cut_append hp
  rcases hp with hp | ⟨q, rfl, hp⟩
  · exact fails_bind (readU64_cut hp) _
  obtain ⟨len, hlen⟩ := readU64_be' w.blockLength q
  rw [hlen]
  simp only [Res.ok_bind]
  unfold readLogVersion readBlockType
  replace hp := cut_append hp
  rcases hp with hp | ⟨q, rfl, hp⟩
  · exact fails_bind (fails_bind (readU32_cut hp) _) _
  rw [readU32_be (versionCode_lt _)]
  simp only [Res.ok_bind, versionCode_ofU32, Res.pure_eq]
  rw [if_neg (by unfold LogVersion.hasBlockType; simpa using hw.version)]
  replace hp := cut_append hp
  rcases hp with hp | ⟨q, rfl, hp⟩
  · exact fails_bind (fails_bind (readU32_cut hp) _) _
  rw [readU32_be (typeCode_lt _)]
  simp only [Res.ok_bind, typeCode_ofU32, Res.pure_eq]
  rw [show w.version.hasHeader = true by unfold LogVersion.hasHeader; simpa using hw.version]
  replace hp := cut_append hp
  rcases hp with hp | ⟨q, rfl, hp⟩
  · exact fails_bind (readMeta_cut hw.header hp) _
  rw [readMeta_ok hw.header]
  simp only [Res.ok_bind, hs]
  replace hp := cut_append hp
  rcases hp with hp | ⟨q, rfl, hp⟩
  · -- the content is cut
    intro x hx
    obtain ⟨ct, h1, hx⟩ := Res.bind_eq_ok.1 hx
    unfold decodeContent readContentLength at h1
    rw [if_pos (by unfold LogVersion.hasContentLength; simpa using hw.version)] at h1
    replace hp := cut_append hp
    rcases hp with hp | ⟨q, rfl, hp⟩
    · exact fails_bind (readU64_cut hp) _ _ h1
    rw [readU64_be hw.content] at h1
    simp only [Res.ok_bind] at h1
    unfold limited at h1
    rw [List.take_of_length_le (Nat.le_of_lt hp.lt)] at h1
    obtain ⟨r, h2, h1⟩ := Res.bind_eq_ok.1 h1
    cases h1
    obtain ⟨h3, h4⟩ := decodeByType_cut hC hw h hp h2
    rcases ht with hv | ht
    · simp only [h3, List.length_nil, Nat.sub_zero, List.drop_length] at hx
      rw [hv] at hx
      obtain ⟨ft, h5, _⟩ := Res.bind_eq_ok.1 hx
      unfold readMeta at h5
      rw [show LogVersion.v1.hasFooter = true from rfl, if_neg (by simp)] at h5
      obtain ⟨n, h6, _⟩ := Res.bind_eq_ok.1 h5
      cases h6
    · exact h4 ht
  · -- the tail is cut
    rw [decodeContent_ok hw h]
    simp only [Res.ok_bind]
    unfold tailBytes at hp
    by_cases hv : w.version = .v1
    · have h1 : w.version.hasFooter = true := by rw [hv]; rfl
      have h2 : w.version.hasTotalLength = true := by rw [hv]; rfl
      rw [if_pos hv] at hp
      rw [h1]
      replace hp := cut_append hp
      rcases hp with hp | ⟨q, rfl, hp⟩
      · exact fails_bind (readMeta_cut (hw.footer hv) hp) _
      rw [readMeta_ok (hw.footer hv)]
      simp only [Res.ok_bind]
      unfold readTotalLength
      rw [h2, if_neg (by simp)]
      exact fails_bind (fails_bind (readU64_cut hp) _) _
    · rw [if_neg hv] at hp
      exact (cut_nil hp).elim

/-- A cut block is not read: the file ends inside its first six bytes, or reading fails. -/
theorem readNextBlock_cut {C : Codec} (hC : Streaming C) {ltz : LocalTz} {tz : Str}
    {range : InstantRange} {w : WBlock} (hw : w.WF) {bs : List Batch} (h : Decodes C w bs)
    {skip : Bool} (hs : shouldSkip ltz tz range (hmOfList w.header) = .ok skip)
    (ht : w.version = .v1 ∨ Tight C w) {p : Bytes} (hp : Cut p (blockBytes w))
    {x : Option (LogBlock × Bytes)} (hx : readNextBlock C ltz tz range p = .ok x) :
    x = none ∧ p.length < 6 := by
  unfold readNextBlock readMagic at hx
  unfold blockBytes at hp
  replace hp := cut_append hp
  rcases hp with hp | ⟨q, rfl, hp⟩
  · have hl := hp.lt
    rw [readExact_short (by simpa using hl)] at hx
    cases hx
    exact ⟨rfl, by simpa using hl⟩
  · rw [show (6 : Nat) = ([35, 72, 85, 68, 73, 35] : Bytes).length from rfl, readExact_append] at hx
    simp only [logMagic, ne_eq, not_true, if_false, Res.ok_bind, Bool.true_eq_false] at hx
    exact absurd hx (fails_bind (readBlockBody_cut hC hw h hs ht hp) _ _)

end Hudi
