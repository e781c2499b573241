import Verif.Spec.Crash
import Verif.Lemmas.Log
import Verif.Lemmas.Listing
import Verif.Lemmas.Timeline
import Verif.Lemmas.Builder
import Mathlib.Data.List.Induction

/-! # Lemmas: where a log file makes its reader crash -/

namespace Hudi
open Spec

theorem bind_eq_panic {α β : Type} {x : Res α} {f : α → Res β} :
    (x >>= f) = .panic ↔ x = .panic ∨ ∃ a, x = .ok a ∧ f a = .panic := by
  cases x <;> simp

theorem ofOption_panic {α : Type} {e : ErrKind} {x : Option α} : Res.ofOption e x = .panic ↔ False := by
  cases x <;> simp

theorem mapErr_panic {α : Type} {k : ErrKind} {x : Res α} : Res.mapErr k x = .panic ↔ x = .panic := by
  cases x <;> simp [Res.mapErr]

theorem mapErr_eq_ok {α : Type} {k : ErrKind} {x : Res α} {a : α} : Res.mapErr k x = .ok a ↔ x = .ok a := by
  cases x <;> simp [Res.mapErr]

theorem mapL_panic {α β : Type} {f : α → Res β} {l : List α} (h : Res.mapL f l = .panic) :
    ∃ x ∈ l, f x = .panic := by
  refine Classical.byContradiction (fun hn => ?_)
  exact mapL_ne_panic (fun x hx hp => hn ⟨x, hx, hp⟩) h

theorem cuttable_iff {ts : Str} : Cuttable ts ↔ splitAtByte 14 ts ≠ none := by
  constructor
  · rintro ⟨h, r, e, hl⟩ hc
    exact (splitAtByte_none.1 hc) ⟨h, r, e, hl⟩
  · intro h
    refine Classical.byContradiction (fun hn => h ?_)
    exact splitAtByte_none.2 (fun ⟨a, b, e, hl⟩ => hn ⟨a, b, e, hl⟩)

theorem parse_crash {ltz : LocalTz} {ts tz : Str} : parseDatetime ltz ts tz = .panic ↔ ¬ Cuttable ts := by
  rw [parseDatetime_panic, cuttable_iff, not_not]

theorem parseOpt_crash {ltz : LocalTz} {tz : Str} {ts : Option Str} (h : parseOpt ltz tz ts = .panic) :
    ∃ x, ts = some x ∧ ¬ Cuttable x := by
  cases ts with
  | none => cases h
  | some x =>
    unfold parseOpt at h
    rcases bind_eq_panic.1 h with h | ⟨a, _, h⟩
    · exact ⟨x, rfl, parse_crash.1 h⟩
    · cases h

/-! ## Reading back what was read -/

theorem be_beNat (l : Bytes) : be l.length (beNat l) = l := by
  induction l using List.reverseRecOn with
  | nil => rfl
  | append_singleton l x ih =>
    have hx : x.toNat < 256 := x.toNat_lt
    have hb : beNat (l ++ [x]) = beNat l * 256 + x.toNat := by
      rw [beNat_append]; simp [beNat]
    rw [List.length_append, List.length_singleton, be, hb]
    have h1 : (beNat l * 256 + x.toNat) / 256 = beNat l := by omega
    have h2 : (beNat l * 256 + x.toNat) % 256 = x.toNat := by omega
    rw [h1, h2, ih]
    simp

theorem readExact_inv {n : Nat} {b : Bytes} {x : Bytes × Bytes} (h : readExact n b = .ok x) :
    b = x.1 ++ x.2 ∧ x.1.length = n := by
  unfold readExact at h
  split at h
  · rename_i hn
    cases h
    exact ⟨(List.take_append_drop n b).symm, by simp [hn]⟩
  · cases h

theorem readU32_inv {b : Bytes} {x : Nat × Bytes} (h : readU32 b = .ok x) : b = be 4 x.1 ++ x.2 := by
  unfold readU32 at h
  obtain ⟨r, h1, h2⟩ := Res.bind_eq_ok.1 h
  cases h2
  obtain ⟨e, hl⟩ := readExact_inv h1
  have := be_beNat r.1
  rw [hl] at this
  simp only [this]
  exact e

theorem readU64_inv {b : Bytes} {x : Nat × Bytes} (h : readU64 b = .ok x) : b = be 8 x.1 ++ x.2 := by
  unfold readU64 at h
  obtain ⟨r, h1, h2⟩ := Res.bind_eq_ok.1 h
  cases h2
  obtain ⟨e, hl⟩ := readExact_inv h1
  have := be_beNat r.1
  rw [hl] at this
  simp only [this]
  exact e

theorem readU32_lt {b : Bytes} {x : Nat × Bytes} (h : readU32 b = .ok x) : x.1 < 2 ^ 32 := by
  unfold readU32 at h
  obtain ⟨r, h1, h2⟩ := Res.bind_eq_ok.1 h
  cases h2
  obtain ⟨_, hl⟩ := readExact_inv h1
  have : ∀ l : Bytes, beNat l < 256 ^ l.length := by
    intro l
    induction l using List.reverseRecOn with
    | nil => simp [beNat]
    | append_singleton l x ih =>
      rw [beNat_append]
      have hx : x.toNat < 256 := x.toNat_lt
      simp only [beNat, List.length_append, List.length_singleton, List.foldl_cons, List.foldl_nil,
        Nat.pow_succ] at ih ⊢
      omega
  have := this r.1
  rw [hl] at this
  exact this

theorem ofU32_keyCode {n : Nat} {k : MetaKey} (h : MetaKey.ofU32 n = .ok k) : n = keyCode k := by
  unfold MetaKey.ofU32 at h
  split at h <;> first | (cases h; rfl) | cases h

theorem readMetaEntry_inv {b : Bytes} {x : (MetaKey × Str) × Bytes} (h : readMetaEntry b = .ok x) :
    b = entryBytes x.1 ++ x.2 := by
  unfold readMetaEntry at h
  obtain ⟨r, h1, h⟩ := Res.bind_eq_ok.1 h
  obtain ⟨k, hk, h⟩ := Res.bind_eq_ok.1 h
  obtain ⟨l, h2, h⟩ := Res.bind_eq_ok.1 h
  obtain ⟨v, h3, h⟩ := Res.bind_eq_ok.1 h
  obtain ⟨s, h4, h⟩ := Res.bind_eq_ok.1 h
  cases h
  have h4 := utf8Encode_decode (Res.ofOption_eq_ok.1 h4)
  obtain ⟨h3, hl⟩ := readExact_inv h3
  unfold entryBytes
  simp only [h4, hl, ← ofU32_keyCode hk]
  rw [List.append_assoc, List.append_assoc, ← h3, ← readU32_inv h2]
  exact readU32_inv h1

theorem readMetaEntries_inv {n : Nat} {m : BlockMeta} {b : Bytes} {x : BlockMeta × Bytes}
    (h : readMetaEntries n m b = .ok x) :
    ∃ es : List (MetaKey × Str), es.length = n ∧ b = es.flatMap entryBytes ++ x.2 ∧ x.1 = hmExtend m es := by
  induction n generalizing m b with
  | zero => cases h; exact ⟨[], rfl, rfl, rfl⟩
  | succ n ih =>
    rw [readMetaEntries] at h
    obtain ⟨e, h1, h⟩ := Res.bind_eq_ok.1 h
    obtain ⟨es, hl, hb, hm⟩ := ih h
    refine ⟨e.1 :: es, by simp [hl], ?_, hm⟩
    rw [List.flatMap_cons, List.append_assoc, ← hb]
    exact readMetaEntry_inv h1

theorem readMeta_inv {b : Bytes} {x : BlockMeta × Bytes} (h : readMeta true b = .ok x) :
    ∃ es, b = metaBytes es ++ x.2 ∧ ∀ k, hmGet k x.1 = lastValue k es := by
  unfold readMeta at h
  rw [if_neg (by simp)] at h
  obtain ⟨n, h1, h⟩ := Res.bind_eq_ok.1 h
  obtain ⟨es, hl, hb, hm⟩ := readMetaEntries_inv h
  refine ⟨es, ?_, fun k => ?_⟩
  · unfold metaBytes
    rw [List.append_assoc, ← hb, hl]
    exact readU32_inv h1
  · rw [hm]
    exact lastValue_eq k es

/-! ## What does not crash -/

theorem readExact_np (n : Nat) (b : Bytes) : readExact n b ≠ .panic := by
  unfold readExact; split <;> simp

theorem readU32_np (b : Bytes) : readU32 b ≠ .panic := by
  unfold readU32; exact bind_ne_panic (readExact_np _ _) (by simp)

theorem readU64_np (b : Bytes) : readU64 b ≠ .panic := by
  unfold readU64; exact bind_ne_panic (readExact_np _ _) (by simp)

theorem metaKey_np (n : Nat) : MetaKey.ofU32 n ≠ .panic := by
  unfold MetaKey.ofU32; split <;> simp

theorem readMetaEntries_np (n : Nat) (m : BlockMeta) (b : Bytes) : readMetaEntries n m b ≠ .panic := by
  induction n generalizing m b with
  | zero => simp [readMetaEntries]
  | succ n ih =>
    rw [readMetaEntries]
    refine bind_ne_panic ?_ (fun _ => ih _ _)
    unfold readMetaEntry
    refine bind_ne_panic (readU32_np _) (fun _ => bind_ne_panic (metaKey_np _) (fun _ =>
      bind_ne_panic (readU32_np _) (fun _ => bind_ne_panic (readExact_np _ _) (fun _ =>
        bind_ne_panic ofOption_ne_panic (by simp)))))

theorem readMeta_np (p : Bool) (b : Bytes) : readMeta p b ≠ .panic := by
  unfold readMeta
  split
  · simp
  · exact bind_ne_panic (readU32_np _) (fun _ => readMetaEntries_np _ _ _)

theorem readLogVersion_np (b : Bytes) : readLogVersion b ≠ .panic := by
  unfold readLogVersion
  refine bind_ne_panic (readU32_np _) (fun r => bind_ne_panic ?_ (by simp))
  unfold LogVersion.ofU32; split <;> simp

theorem readBlockType_np (v : LogVersion) (b : Bytes) : readBlockType v b ≠ .panic := by
  unfold readBlockType
  split
  · simp
  · refine bind_ne_panic (readU32_np _) (fun r => bind_ne_panic ?_ (by simp))
    unfold BlockType.ofU32; split <;> simp

theorem readTotalLength_np (v : LogVersion) (b : Bytes) : readTotalLength v b ≠ .panic := by
  unfold readTotalLength
  split
  · simp
  · exact bind_ne_panic (readU64_np _) (by simp)

/-! ## The content of a block -/

theorem readRecord_cases {C : Codec} {s : C.Schema} {b : Bytes} :
    (readRecord C s b = .panic → ∃ d, C.datum s d = .panic) ∧
    ∀ x, readRecord C s b = .ok x → IsDatum C s x.1 := by
  unfold readRecord
  constructor
  · intro h
    rcases bind_eq_panic.1 (mapErr_panic.1 h) with h | ⟨n, _, h⟩
    · exact absurd h (readU32_np _)
    rcases bind_eq_panic.1 h with h | ⟨v, _, h⟩
    · exact ⟨_, h⟩
    · cases h
  · intro x h
    obtain ⟨n, _, h⟩ := Res.bind_eq_ok.1 (mapErr_eq_ok.1 h)
    obtain ⟨v, h1, h⟩ := Res.bind_eq_ok.1 h
    cases h
    exact ⟨_, _, h1⟩

theorem readRecords_cases {C : Codec} {s : C.Schema} {n : Nat} {b : Bytes} :
    (readRecords C s n b = .panic → ∃ d, C.datum s d = .panic) ∧
    ∀ x, readRecords C s n b = .ok x → ∀ v ∈ x.1, IsDatum C s v := by
  induction n generalizing b with
  | zero => exact ⟨fun h => (by cases h), fun x h => by cases h; simp⟩
  | succ n ih =>
    rw [readRecords]
    constructor
    · intro h
      rcases bind_eq_panic.1 h with h | ⟨v, _, h⟩
      · exact readRecord_cases.1 h
      rcases bind_eq_panic.1 h with h | ⟨v, _, h⟩
      · exact ih.1 h
      · cases h
    · intro x h
      obtain ⟨v, h1, h⟩ := Res.bind_eq_ok.1 h
      obtain ⟨vs, h2, h⟩ := Res.bind_eq_ok.1 h
      cases h
      intro w hw
      rcases List.mem_cons.1 hw with rfl | hw
      · exact readRecord_cases.2 _ h1
      · exact ih.2 _ h2 w hw

theorem readBatches_cases {C : Codec} {s : C.Schema} {ns : List Nat} {b : Bytes} :
    (readBatches C s ns b = .panic → DecoderCrash C s) ∧
    ∀ x, readBatches C s ns b = .ok x → ∀ y ∈ x.1, ∃ vs, (∀ v ∈ vs, IsDatum C s v) ∧ C.toBatch s vs = .ok y := by
  induction ns generalizing b with
  | nil => exact ⟨fun h => (by cases h), fun x h => by cases h; simp⟩
  | cons n ns ih =>
    rw [readBatches]
    constructor
    · intro h
      rcases bind_eq_panic.1 h with h | ⟨v, h1, h⟩
      · exact .inr (.inl (readRecords_cases.1 h))
      rcases bind_eq_panic.1 h with h | ⟨w, _, h⟩
      · exact .inr (.inr ⟨_, readRecords_cases.2 _ h1, mapErr_panic.1 h⟩)
      rcases bind_eq_panic.1 h with h | ⟨w, _, h⟩
      · exact ih.1 h
      · cases h
    · intro x h
      obtain ⟨v, h1, h⟩ := Res.bind_eq_ok.1 h
      obtain ⟨w, h2, h⟩ := Res.bind_eq_ok.1 h
      obtain ⟨r, h3, h⟩ := Res.bind_eq_ok.1 h
      cases h
      intro y hy
      rcases List.mem_cons.1 hy with rfl | hy
      · exact ⟨_, readRecords_cases.2 _ h1, mapErr_eq_ok.1 h2⟩
      · exact ih.2 _ h3 y hy

theorem decodeAvro_cases {C : Codec} {s : C.Schema} {b : Bytes} :
    (decodeAvro C s b = .panic → DecoderCrash C s) ∧
    ∀ x, decodeAvro C s b = .ok x → ∀ y ∈ x.1, ∃ vs, (∀ v ∈ vs, IsDatum C s v) ∧ C.toBatch s vs = .ok y := by
  unfold decodeAvro
  constructor
  · intro h
    rcases bind_eq_panic.1 h with h | ⟨v, _, h⟩
    · exact absurd h (readU32_np _)
    split at h
    · cases h
    rcases bind_eq_panic.1 h with h | ⟨n, _, h⟩
    · exact absurd h (readU32_np _)
    rcases bind_eq_panic.1 h with h | ⟨n, _, h⟩
    · exact .inl h
    · exact readBatches_cases.1 h
  · intro x h
    obtain ⟨v, _, h⟩ := Res.bind_eq_ok.1 h
    split at h
    · cases h
    obtain ⟨n, _, h⟩ := Res.bind_eq_ok.1 h
    obtain ⟨u, _, h⟩ := Res.bind_eq_ok.1 h
    exact readBatches_cases.2 x h

theorem decodeByType_cases {C : Codec} {ty : BlockType} {m : BlockMeta} {b : Bytes} {es : List (MetaKey × Str)}
    (hm : ∀ k, hmGet k m = lastValue k es) {bytes : Bytes} (hh : HasHeader bytes es) {pre post : Bytes}
    (hb : bytes = pre ++ (b ++ post)) :
    (decodeByType C ty m b = .panic → LogCrash C bytes) ∧
    ∀ x, decodeByType C ty m b = .ok x → ∀ y ∈ x.1, BatchIn C bytes y := by
  unfold decodeByType
  cases ty with
  | avroData =>
    constructor
    · intro h
      rcases bind_eq_panic.1 h with h | ⟨text, h1, h⟩
      · exact absurd h ofOption_ne_panic
      rcases bind_eq_panic.1 h with h | ⟨s, h2, h⟩
      · exact absurd h ofOption_ne_panic
      have h1 := Res.ofOption_eq_ok.1 h1
      rw [hm] at h1
      exact .decoder s ⟨es, text, hh, h1, Res.ofOption_eq_ok.1 h2⟩ (decodeAvro_cases.1 h)
    · intro x h y hy
      obtain ⟨text, h1, h⟩ := Res.bind_eq_ok.1 h
      obtain ⟨s, h2, h⟩ := Res.bind_eq_ok.1 h
      have h1 := Res.ofOption_eq_ok.1 h1
      rw [hm] at h1
      obtain ⟨vs, hv, hvs⟩ := decodeAvro_cases.2 x h y hy
      exact .avro s vs ⟨es, text, hh, h1, Res.ofOption_eq_ok.1 h2⟩ hv hvs
  | parquetData =>
    simp only [decodeParquet]
    constructor
    · intro h
      rcases bind_eq_panic.1 h with h | ⟨_, _, h⟩
      · exact .parquet pre b post hb h
      · cases h
    · intro x h y hy
      obtain ⟨bs, h1, h⟩ := Res.bind_eq_ok.1 h
      cases h
      exact .parquet pre b post bs hb h1 hy
  | command => exact ⟨fun h => (by cases h), fun x h y hy => by cases h; cases hy⟩
  | delete => exact ⟨fun h => (by cases h), fun x h => by cases h⟩
  | corrupted => exact ⟨fun h => (by cases h), fun x h => by cases h⟩
  | hfileData => exact ⟨fun h => (by cases h), fun x h => by cases h⟩
  | cdcData => exact ⟨fun h => (by cases h), fun x h => by cases h⟩

theorem decodeContent_cases {C : Codec} {v : LogVersion} {f : Nat} {ty : BlockType} {m : BlockMeta} {b : Bytes}
    {es : List (MetaKey × Str)} (hm : ∀ k, hmGet k m = lastValue k es) {bytes : Bytes} (hh : HasHeader bytes es)
    {pre : Bytes} (hb : bytes = pre ++ b) :
    (decodeContent C v f ty m b = .panic → LogCrash C bytes) ∧
    ∀ x, decodeContent C v f ty m b = .ok x →
      (∀ y ∈ x.1, BatchIn C bytes y) ∧ ∃ p, b = p ++ x.2 := by
  have hlen : ∀ n, readContentLength v f b = .ok n → ∃ p, b = p ++ n.2 := by
    intro n h
    unfold readContentLength at h
    split at h
    · exact ⟨_, readU64_inv h⟩
    · cases h; exact ⟨[], rfl⟩
  have hpiece : ∀ n, readContentLength v f b = .ok n →
      ∃ p, bytes = p ++ (n.2.take n.1 ++ n.2.drop n.1) := by
    intro n h
    obtain ⟨p, hp⟩ := hlen n h
    exact ⟨pre ++ p, by rw [List.take_append_drop, List.append_assoc, ← hp]; exact hb⟩
  unfold decodeContent limited
  constructor
  · intro h
    rcases bind_eq_panic.1 h with h | ⟨n, h1, h⟩
    · unfold readContentLength at h
      split at h
      · exact absurd h (readU64_np _)
      · cases h
    obtain ⟨p, hp⟩ := hpiece n h1
    rcases bind_eq_panic.1 h with h | ⟨r, _, h⟩
    · exact (decodeByType_cases hm hh hp).1 h
    · cases h
  · intro x h
    obtain ⟨n, h1, h⟩ := Res.bind_eq_ok.1 h
    obtain ⟨p, hp⟩ := hpiece n h1
    obtain ⟨r, h2, h⟩ := Res.bind_eq_ok.1 h
    cases h
    refine ⟨(decodeByType_cases hm hh hp).2 r h2, ?_⟩
    obtain ⟨q, hq⟩ := hlen n h1
    refine ⟨q ++ n.2.take ((n.2.take n.1).length - r.2.length), ?_⟩
    simp only
    rw [List.append_assoc, List.take_append_drop]
    exact hq

/-! ## Blocks and files -/

theorem isInRange_crash {ltz : LocalTz} {r : InstantRange} {ts tz : Str} (h : r.isInRange ltz ts tz = .panic) :
    ¬ Cuttable ts ∨ ∃ x, (r.start = some x ∨ r.stop = some x) ∧ ¬ Cuttable x := by
  unfold InstantRange.isInRange at h
  rcases bind_eq_panic.1 h with h | ⟨a, _, h⟩
  · exact .inl (parse_crash.1 h)
  rcases bind_eq_panic.1 h with h | ⟨s, _, h⟩
  · obtain ⟨x, hx, hc⟩ := parseOpt_crash h
    exact .inr ⟨x, .inl hx, hc⟩
  split at h
  · cases h
  rcases bind_eq_panic.1 h with h | ⟨s, _, h⟩
  · obtain ⟨x, hx, hc⟩ := parseOpt_crash h
    exact .inr ⟨x, .inr hx, hc⟩
  · cases h

/-- The outcome of reading blocks from the rest of a file: crashing has a cause, and the batches read are in the
file. -/
theorem readBlockBody_cases {C : Codec} {ltz : LocalTz} {tz : Str} {range : InstantRange} {b bytes pre : Bytes}
    (hb : bytes = pre ++ (logMagic ++ b)) :
    (readBlockBody C ltz tz range b = .panic →
      LogCrash C bytes ∨ ∃ x, (range.start = some x ∨ range.stop = some x) ∧ ¬ Cuttable x) ∧
    ∀ x, readBlockBody C ltz tz range b = .ok x → (∀ y ∈ x.1.batches, BatchIn C bytes y) ∧ ∃ p, b = p ++ x.2 := by
  have head : ∀ {len v ty hd}, readU64 b = .ok len → readLogVersion len.2 = .ok v →
      readBlockType v.1 v.2 = .ok ty → readMeta v.1.hasHeader ty.2 = .ok hd →
      ∃ es, HasHeader bytes es ∧ (∀ k, hmGet k hd.1 = lastValue k es) ∧ ∃ p, b = p ++ hd.2 := by
    intro len v ty hd h1 h2 h3 h4
    have e1 := readU64_inv h1
    unfold readLogVersion at h2
    obtain ⟨n2, h21, h2⟩ := Res.bind_eq_ok.1 h2
    obtain ⟨v2, _, h2⟩ := Res.bind_eq_ok.1 h2
    cases h2
    have e2 := readU32_inv h21
    unfold readBlockType at h3
    split at h3
    · cases h3
    rename_i hv
    obtain ⟨n3, h31, h3⟩ := Res.bind_eq_ok.1 h3
    obtain ⟨v3, _, h3⟩ := Res.bind_eq_ok.1 h3
    cases h3
    have e3 := readU32_inv h31
    have hhd : v2.hasHeader = true := by
      unfold LogVersion.hasBlockType at hv
      unfold LogVersion.hasHeader
      simpa using hv
    simp only [hhd] at h4
    obtain ⟨es, e4, hm⟩ := readMeta_inv h4
    simp only at e3 e4
    have e : b = be 8 len.1 ++ (be 4 n2.1 ++ (be 4 n3.1 ++ (metaBytes es ++ hd.2))) := by
      rw [← e4, ← e3, ← e2]; exact e1
    refine ⟨es, ⟨pre, len.1, n2.1, n3.1, hd.2, ?_⟩, hm, be 8 len.1 ++ (be 4 n2.1 ++ (be 4 n3.1 ++ metaBytes es)), ?_⟩
    · rw [← e]; exact hb
    · rw [e]; simp only [List.append_assoc]
  unfold readBlockBody
  constructor
  · intro h
    rcases bind_eq_panic.1 h with h | ⟨len, h1, h⟩
    · exact absurd h (readU64_np _)
    rcases bind_eq_panic.1 h with h | ⟨v, h2, h⟩
    · exact absurd h (readLogVersion_np _)
    rcases bind_eq_panic.1 h with h | ⟨ty, h3, h⟩
    · exact absurd h (readBlockType_np _ _)
    rcases bind_eq_panic.1 h with h | ⟨hd, h4, h⟩
    · exact absurd h (readMeta_np _ _)
    obtain ⟨es, hh, hm, p, hp⟩ := head h1 h2 h3 h4
    rcases bind_eq_panic.1 h with h | ⟨sk, _, h⟩
    · unfold shouldSkip at h
      rcases bind_eq_panic.1 h with h | ⟨ts, h5, h⟩
      · exact absurd h ofOption_ne_panic
      have h5 := Res.ofOption_eq_ok.1 h5
      rw [hm] at h5
      unfold InstantRange.notInRange at h
      rcases bind_eq_panic.1 h with h | ⟨_, _, h⟩
      · rcases isInRange_crash h with h | h
        · exact .inl (.time es ts hh h5 h)
        · exact .inr h
      · cases h
    rcases bind_eq_panic.1 h with h | ⟨ct, _, h⟩
    · refine .inl ((decodeContent_cases hm hh (pre := pre ++ (logMagic ++ p)) ?_).1 h)
      rw [hb, hp]; simp only [List.append_assoc]
    rcases bind_eq_panic.1 h with h | ⟨ft, _, h⟩
    · exact absurd h (readMeta_np _ _)
    rcases bind_eq_panic.1 h with h | ⟨rest, _, h⟩
    · exact absurd h (readTotalLength_np _ _)
    · cases h
  · intro x h
    obtain ⟨len, h1, h⟩ := Res.bind_eq_ok.1 h
    obtain ⟨v, h2, h⟩ := Res.bind_eq_ok.1 h
    obtain ⟨ty, h3, h⟩ := Res.bind_eq_ok.1 h
    obtain ⟨hd, h4, h⟩ := Res.bind_eq_ok.1 h
    obtain ⟨es, hh, hm, p, hp⟩ := head h1 h2 h3 h4
    obtain ⟨sk, _, h⟩ := Res.bind_eq_ok.1 h
    obtain ⟨ct, h5, h⟩ := Res.bind_eq_ok.1 h
    obtain ⟨ft, h6, h⟩ := Res.bind_eq_ok.1 h
    obtain ⟨rest, h7, h⟩ := Res.bind_eq_ok.1 h
    cases h
    obtain ⟨hy, q, hq⟩ := (decodeContent_cases hm hh (pre := pre ++ (logMagic ++ p)) (by
      rw [hb, hp]; simp only [List.append_assoc])).2 ct h5
    have h6 : ∃ q, ct.2 = q ++ ft.2 := by
      cases hf : v.1.hasFooter with
      | false => rw [hf] at h6; cases h6; exact ⟨[], rfl⟩
      | true =>
        rw [hf] at h6
        obtain ⟨es, e, _⟩ := readMeta_inv h6
        exact ⟨_, e⟩
    have h7 : ∃ q, ft.2 = q ++ rest := by
      unfold readTotalLength at h7
      split at h7
      · cases h7; exact ⟨[], rfl⟩
      · obtain ⟨r, h71, h7⟩ := Res.bind_eq_ok.1 h7
        cases h7
        exact ⟨_, readU64_inv h71⟩
    obtain ⟨q1, e1⟩ := h6
    obtain ⟨q2, e2⟩ := h7
    refine ⟨hy, p ++ (q ++ (q1 ++ q2)), ?_⟩
    rw [hp, hq, e1, e2]
    simp only [List.append_assoc]

theorem readNextBlock_cases {C : Codec} {ltz : LocalTz} {tz : Str} {range : InstantRange} {b bytes pre : Bytes}
    (hb : bytes = pre ++ b) :
    (readNextBlock C ltz tz range b = .panic →
      LogCrash C bytes ∨ ∃ x, (range.start = some x ∨ range.stop = some x) ∧ ¬ Cuttable x) ∧
    ∀ x, readNextBlock C ltz tz range b = .ok (some x) →
      (∀ y ∈ x.1.batches, BatchIn C bytes y) ∧ ∃ p, b = p ++ x.2 := by
  have hmagic : ∀ r, readMagic b = .ok (true, r) → b = logMagic ++ r := by
    intro r h
    unfold readMagic at h
    split at h
    · rename_i m b' hx
      split at h
      · cases h
      · rename_i hm
        cases h
        have := (readExact_inv hx).1
        simp only [ne_eq, Decidable.not_not] at hm
        rw [hm] at this
        exact this
    · cases h
  have hnp : readMagic b ≠ .panic := by
    unfold readMagic
    split
    · split <;> simp
    · simp
  unfold readNextBlock
  constructor
  · intro h
    rcases bind_eq_panic.1 h with h | ⟨⟨f, r⟩, h1, h⟩
    · exact absurd h hnp
    cases f with
    | false => cases h
    | true =>
      rcases bind_eq_panic.1 h with h | ⟨r', _, h⟩
      · exact (readBlockBody_cases (by rw [← hmagic r h1]; exact hb)).1 h
      · cases h
  · intro x h
    obtain ⟨⟨f, r⟩, h1, h⟩ := Res.bind_eq_ok.1 h
    cases f with
    | false => cases h
    | true =>
      obtain ⟨r', h2, h⟩ := Res.bind_eq_ok.1 h
      cases h
      obtain ⟨hy, p, hp⟩ := (readBlockBody_cases (bytes := bytes) (pre := pre) (by rw [← hmagic r h1]; exact hb)).2 _ h2
      exact ⟨hy, logMagic ++ p, by rw [hmagic r h1]; simp only at hp; rw [List.append_assoc, ← hp]⟩

theorem readLoop_cases {C : Codec} {ltz : LocalTz} {tz : Str} {range : InstantRange} {fuel : Nat}
    {b bytes pre : Bytes} (hb : bytes = pre ++ b) :
    (readLoop C ltz tz range fuel b = .panic →
      LogCrash C bytes ∨ ∃ x, (range.start = some x ∨ range.stop = some x) ∧ ¬ Cuttable x) ∧
    ∀ blks, readLoop C ltz tz range fuel b = .ok blks → ∀ k ∈ blks, ∀ y ∈ k.batches, BatchIn C bytes y := by
  induction fuel generalizing b pre with
  | zero => exact ⟨fun h => (by cases h), fun blks h => by cases h; simp⟩
  | succ fuel ih =>
    rw [readLoop]
    constructor
    · intro h
      rcases bind_eq_panic.1 h with h | ⟨x, h1, h⟩
      · exact (readNextBlock_cases hb).1 h
      cases x with
      | none => cases h
      | some x =>
        obtain ⟨_, p, hp⟩ := (readNextBlock_cases hb).2 x h1
        rcases bind_eq_panic.1 h with h | ⟨r, _, h⟩
        · exact (ih (pre := pre ++ p) (by rw [List.append_assoc, ← hp]; exact hb)).1 h
        · cases h
    · intro blks h
      obtain ⟨x, h1, h⟩ := Res.bind_eq_ok.1 h
      cases x with
      | none => cases h; simp
      | some x =>
        obtain ⟨hy, p, hp⟩ := (readNextBlock_cases hb).2 x h1
        obtain ⟨r, h2, h⟩ := Res.bind_eq_ok.1 h
        have hr := (ih (pre := pre ++ p) (by rw [List.append_assoc, ← hp]; exact hb)).2 r h2
        cases h
        intro k hk
        split at hk
        · exact hr k hk
        · rcases List.mem_cons.1 hk with rfl | hk
          · exact hy
          · exact hr k hk

end Hudi
