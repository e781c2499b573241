import Verif.Lemmas.Order
import Verif.Spec.Timestamp

/-! # C04: textual order of timestamps agrees with time order -/

namespace Hudi

open Spec

theorem natOfDigits_sixty {s : Str} (hl : s.length = 2) (hd : s.all isDigit = true)
    (h : natOfDigits s = 60) : s = c!"60" := by
  match s, hl with
  | [a, b], _ =>
    simp only [List.all_cons, List.all_nil, Bool.and_true, Bool.and_eq_true] at hd
    have ha := isDigit_iff.1 hd.1
    have hb := isDigit_iff.1 hd.2
    simp only [natOfDigits, List.foldl_cons, List.foldl_nil, digitVal] at h
    have h1 : a = '6' := Char.toNat_inj.1 (by show a.toNat = 54; omega)
    have h2 : b = '0' := Char.toNat_inj.1 (by show b.toNat = 48; omega)
    rw [h1, h2]

theorem civil_bounds {y : Int} {mo d h mi s : Nat} {dt : DateTime}
    (hc : civilToDateTime y mo d h mi s = some dt) (hs : s ≠ 60) :
    1 ≤ mo ∧ mo ≤ 12 ∧ 1 ≤ d ∧ d ≤ daysInMonth y mo ∧ h ≤ 23 ∧ mi ≤ 59 ∧ s ≤ 59 ∧
      dt = ⟨daysFromCivil y mo d * 86400 + ((h * 3600 + mi * 60 + s : Nat) : Int), 0⟩ := by
  unfold civilToDateTime at hc
  split at hc
  · rename_i hb
    simp only [hs, if_false, Option.some.injEq] at hc
    exact ⟨hb.1, hb.2.1, hb.2.2.1, hb.2.2.2.1, hb.2.2.2.2.1, hb.2.2.2.2.2.1, by omega, hc.symm⟩
  · cases hc

/-- The number spelled by the six fields of a timestamp. -/
def fieldsNum (y m d h i e : Nat) : Nat :=
  y * 10000000000 + (m * 100000000 + (d * 1000000 + (h * 10000 + (i * 100 + e))))

/-- What a 14-digit timestamp means: its order as text is its order as a number of seconds. -/
theorem head_order {a b : Str} {da db : DateTime} (ha : a.all isDigit = true)
    (hb : b.all isDigit = true) (hla : a.length = 14) (hlb : b.length = 14)
    (h6a : (a.drop 12).take 2 ≠ c!"60") (h6b : (b.drop 12).take 2 ≠ c!"60")
    (hpa : chronoParse a = some da) (hpb : chronoParse b = some db) :
    da.nanos = 0 ∧ db.nanos = 0 ∧ compare a b = compare da.secs db.secs := by
  have split : ∀ s : Str, s.length = 14 → ∃ y m d h i e : Str, s = y ++ (m ++ (d ++ (h ++ (i ++ e)))) ∧
      y.length = 4 ∧ m.length = 2 ∧ d.length = 2 ∧ h.length = 2 ∧ i.length = 2 ∧ e.length = 2 ∧
      (s.drop 12).take 2 = e := by
    intro s hs
    match s, hs with
    | [c0, c1, c2, c3, c4, c5, c6, c7, c8, c9, c10, c11, c12, c13], _ =>
      exact ⟨[c0, c1, c2, c3], [c4, c5], [c6, c7], [c8, c9], [c10, c11], [c12, c13], rfl, rfl, rfl,
        rfl, rfl, rfl, rfl, rfl⟩
  obtain ⟨y, m, d, h, i, e, rfl, ly, lm, ld, lh, li, le, he⟩ := split a hla
  obtain ⟨y', m', d', h', i', e', rfl, ly', lm', ld', lh', li', le', he'⟩ := split b hlb
  rw [he] at h6a
  rw [he'] at h6b
  rw [chronoParse_digits ly lm ld lh li le ha] at hpa
  rw [chronoParse_digits ly' lm' ld' lh' li' le' hb] at hpb
  have hda := ha
  have hdb := hb
  simp only [List.all_append, Bool.and_eq_true] at hda hdb
  obtain ⟨by0, bm0, bd0, bh0, bi0, be0⟩ := hda
  obtain ⟨by1, bm1, bd1, bh1, bi1, be1⟩ := hdb
  have qa := civil_bounds hpa (fun h => h6a (natOfDigits_sixty le be0 h))
  have qb := civil_bounds hpb (fun h => h6b (natOfDigits_sixty le' be1 h))
  obtain ⟨p1, p2, p3, p4, p5, p6, p7, rfl⟩ := qa
  obtain ⟨r1, r2, r3, r4, r5, r6, r7, rfl⟩ := qb
  refine ⟨rfl, rfl, ?_⟩
  rw [compare_digits (by omega) ha hb]
  simp only [natOfDigits_append, List.length_append, lm, ld, lh, li, le, lm', ld', lh', li', le']
  generalize natOfDigits y = y0 at *
  generalize natOfDigits m = m0 at *
  generalize natOfDigits d = d0 at *
  generalize natOfDigits h = h0 at *
  generalize natOfDigits i = i0 at *
  generalize natOfDigits e = e0 at *
  generalize natOfDigits y' = y1 at *
  generalize natOfDigits m' = m1 at *
  generalize natOfDigits d' = d1 at *
  generalize natOfDigits h' = h1 at *
  generalize natOfDigits i' = i1 at *
  generalize natOfDigits e' = e1 at *
  have dm : ∀ (y : Int) (m : Nat), daysInMonth y m ≤ 31 := by
    intro y m; unfold daysInMonth; split <;> (try split) <;> omega
  have dma := dm y0 m0
  have dmb := dm y1 m1
  have lt_case : ∀ {y0 m0 d0 h0 i0 e0 y1 m1 d1 h1 i1 e1 : Nat},
      1 ≤ m0 → m0 ≤ 12 → d0 ≤ daysInMonth y0 m0 → h0 ≤ 23 → i0 ≤ 59 → e0 ≤ 59 →
      1 ≤ m1 → m1 ≤ 12 → 1 ≤ d1 → d1 ≤ 31 → h1 ≤ 23 → i1 ≤ 59 → e1 ≤ 59 →
      fieldsNum y0 m0 d0 h0 i0 e0 < fieldsNum y1 m1 d1 h1 i1 e1 →
      daysFromCivil y0 m0 d0 * 86400 + ((h0 * 3600 + i0 * 60 + e0 : Nat) : Int) <
        daysFromCivil y1 m1 d1 * 86400 + ((h1 * 3600 + i1 * 60 + e1 : Nat) : Int) := by
    intro y0 m0 d0 h0 i0 e0 y1 m1 d1 h1 i1 e1 a1 a2 a3 a4 a5 a6 b1 b2 b3 b3' b4 b5 b6 hlt
    have a3' := dm y0 m0
    unfold fieldsNum at hlt
    by_cases hdate : y0 = y1 ∧ m0 = m1 ∧ d0 = d1
    · obtain ⟨rfl, rfl, rfl⟩ := hdate
      omega
    · have : daysFromCivil y0 m0 d0 < daysFromCivil y1 m1 d1 :=
        daysFromCivil_lt a1 b1 a2 b2 a3 b3 (by omega)
      omega
  show compare (fieldsNum y0 m0 d0 h0 i0 e0) (fieldsNum y1 m1 d1 h1 i1 e1) = _
  rcases Nat.lt_trichotomy (fieldsNum y0 m0 d0 h0 i0 e0) (fieldsNum y1 m1 d1 h1 i1 e1)
    with hlt | heq | hgt
  · rw [Nat.compare_eq_lt.2 hlt]
    exact (Int.compare_eq_lt.2 (lt_case p1 p2 p4 p5 p6 p7 r1 r2 r3 (by omega) r5 r6 r7 hlt)).symm
  · rw [Nat.compare_eq_eq.2 heq]
    unfold fieldsNum at heq
    have e1 : y0 = y1 ∧ m0 = m1 ∧ d0 = d1 ∧ h0 = h1 ∧ i0 = i1 ∧ e0 = e1 := by omega
    obtain ⟨rfl, rfl, rfl, rfl, rfl, rfl⟩ := e1
    exact (Int.compare_eq_eq.2 rfl).symm
  · rw [Nat.compare_eq_gt.2 hgt]
    exact (Int.compare_eq_gt.2 (lt_case r1 r2 r4 r5 r6 r7 p1 p2 p3 (by omega) p5 p6 p7 hgt)).symm

/-- A writer's timestamp is a 14-digit head and an empty or three-digit tail. -/
theorem writer_split {ts : Str} {d : DateTime} (hw : WriterTimestamp ts)
    (h : parseNaive ts = .ok d) :
    ∃ H T dh, ts = H ++ T ∧ H.all isDigit = true ∧ T.all isDigit = true ∧ H.length = 14 ∧
      (H.drop 12).take 2 ≠ c!"60" ∧ (T.length = 0 ∨ T.length = 3) ∧ chronoParse H = some dh ∧
      d = { dh with nanos := natOfDigits T * 1000000 } := by
  obtain ⟨hd, hl, h6⟩ := hw
  have hbl := byteLen_digits hd
  unfold parseNaive at h
  split at h
  · cases h
  rename_i H T hs
  obtain ⟨rfl, hH⟩ := splitAtByte_eq_some.1 hs
  simp only [List.all_append, Bool.and_eq_true] at hd
  have hHl : H.length = 14 := by rw [← byteLen_digits hd.1]; exact hH
  have h6' : (H.drop 12).take 2 ≠ c!"60" := by
    intro h
    apply h6
    rw [List.drop_append_of_le_length (by omega), List.take_append_of_le_length]
    · exact h
    · simp; omega
  split at h
  · cases h
  rename_i dh hc
  rw [hbl] at h
  simp only [List.length_append, hHl] at hl h
  split at h
  · rename_i h17
    have hT3 : T.length = 3 := by omega
    have hpu : parseUnsigned u32Bound T = some (natOfDigits T) := by
      have hlt := natOfDigits_lt hd.2
      rw [hT3] at hlt
      have hsp : stripPlus T = T := by
        unfold stripPlus
        split
        · simp only [List.all_cons, Bool.and_eq_true] at hd
          exact absurd hd.2.1 (by decide)
        · rfl
      have hTne : T ≠ [] := by rintro rfl; simp at hT3
      have hb : natOfDigits T < u32Bound := by unfold u32Bound; omega
      simp only [parseUnsigned, hsp, hTne, ne_eq, not_false_eq_true, hd.2, and_self, if_true, hb]
    rw [hpu] at h
    cases h
    exact ⟨H, T, dh, rfl, hd.1, hd.2, hHl, h6', .inr hT3, hc, rfl⟩
  · have hT0 : T.length = 0 := by omega
    have hT : T = [] := List.length_eq_zero_iff.1 hT0
    subst hT
    cases h
    refine ⟨H, [], d, rfl, hd.1, rfl, hHl, h6', .inl rfl, hc, ?_⟩
    have := (head_order hd.1 hd.1 hHl hHl h6' h6' hc hc).1
    cases d
    simp only at this
    subst this
    rfl

theorem tail_ms {T : Str} (h : T.all isDigit = true) (hl : T.length = 0 ∨ T.length = 3) :
    natOfDigits T < 1000 := by
  have := natOfDigits_lt h
  rcases hl with hl | hl <;> rw [hl] at this <;> omega

/-- Text order of two writer timestamps in terms of the parsed times. -/
theorem writer_order {a b : Str} {da db : DateTime} (ha : WriterTimestamp a)
    (hb : WriterTimestamp b) (hpa : parseNaive a = .ok da) (hpb : parseNaive b = .ok db) :
    (da.epochMillis < db.epochMillis → compare a b = .lt) ∧
    (a.length = b.length → compare a b = compare da.epochMillis db.epochMillis) ∧
    (da.epochMillis = db.epochMillis → da = db) := by
  obtain ⟨H, T, dh, rfl, h1, h2, h3, h4, h5, h6, rfl⟩ := writer_split ha hpa
  obtain ⟨H', T', dh', rfl, h1', h2', h3', h4', h5', h6', rfl⟩ := writer_split hb hpb
  obtain ⟨_, _, hcmp⟩ := head_order h1 h1' h3 h3' h4 h4' h6 h6'
  have hm := tail_ms h2 h5
  have hm' := tail_ms h2' h5'
  rw [compare_append (by omega), hcmp]
  simp only [DateTime.epochMillis]
  have e : ∀ n : Nat, (n * 1000000 / 1000000 : Nat) = n := fun n => by omega
  rw [e, e]
  refine ⟨?_, ?_, ?_⟩
  · intro hlt
    rcases Int.lt_or_le dh.secs dh'.secs with h | h
    · rw [Int.compare_eq_lt.2 h]; rfl
    · have heq : dh.secs = dh'.secs := by omega
      rw [Int.compare_eq_eq.2 heq]
      show compare T T' = .lt
      rcases h5 with h5 | h5 <;> rcases h5' with h5' | h5'
      · rw [List.length_eq_zero_iff] at h5 h5'; subst h5; subst h5'; omega
      · rw [List.length_eq_zero_iff] at h5; subst h5
        cases T' with
        | nil => simp at h5'
        | cons x xs => rfl
      · rw [List.length_eq_zero_iff] at h5'; subst h5'
        simp only [natOfDigits, List.foldl_nil] at hlt; omega
      · rw [compare_digits (by omega) h2 h2', Nat.compare_eq_lt]; omega
  · intro hlen
    simp only [List.length_append] at hlen
    rw [compare_digits (by omega) h2 h2']
    rcases Int.lt_trichotomy dh.secs dh'.secs with h | h | h
    · rw [Int.compare_eq_lt.2 h]
      exact (Int.compare_eq_lt.2 (by omega)).symm
    · rw [Int.compare_eq_eq.2 h]
      show compare (natOfDigits T) (natOfDigits T') = _
      rcases Nat.lt_trichotomy (natOfDigits T) (natOfDigits T') with g | g | g
      · rw [Nat.compare_eq_lt.2 g]; exact (Int.compare_eq_lt.2 (by omega)).symm
      · rw [Nat.compare_eq_eq.2 g]; exact (Int.compare_eq_eq.2 (by omega)).symm
      · rw [Nat.compare_eq_gt.2 g]; exact (Int.compare_eq_gt.2 (by omega)).symm
    · rw [Int.compare_eq_gt.2 h]
      exact (Int.compare_eq_gt.2 (by omega)).symm
  · intro heq
    have h7 : dh.secs = dh'.secs := by omega
    have h8 : natOfDigits T = natOfDigits T' := by omega
    rw [h7, h8]

/-- **C04 is false**: `20240103153000` and `20240103153000000` denote the same time but differ as
text; and with a leap second the two orders are opposite. -/
theorem C04_false (ltz : LocalTz) :
    (∃ a b d, parseDatetime ltz a c!"utc" = .ok d ∧ parseDatetime ltz b c!"utc" = .ok d ∧
      WriterTimestamp a ∧ WriterTimestamp b ∧ compare a b = .lt) ∧
    (∃ a b da db, parseDatetime ltz a c!"utc" = .ok da ∧ parseDatetime ltz b c!"utc" = .ok db ∧
      compare a b = .lt ∧ db.epochMillis < da.epochMillis) :=
  ⟨⟨c!"20240103153000", c!"20240103153000000", _, rfl, rfl, by decide, by decide, by decide⟩,
    ⟨c!"20161231235959999", c!"20161231235960000", _, _, rfl, rfl, by decide, by decide⟩⟩

theorem naive_of_datetime {ltz : LocalTz} {ts tz : Str} {d : DateTime}
    (h : parseDatetime ltz ts tz = .ok d) :
    ∃ n, parseNaive ts = .ok n ∧
      ((Tz.fromStr tz = .ok .utc ∧ d = n) ∨ (Tz.fromStr tz = .ok .loc ∧ ltz n = some d)) := by
  unfold parseDatetime convertToTimezone at h
  obtain ⟨n, h1, h2⟩ := Res.bind_eq_ok.1 h
  obtain ⟨z, h3, h4⟩ := Res.bind_eq_ok.1 h2
  refine ⟨n, h1, ?_⟩
  cases z with
  | utc => cases h4; exact .inl ⟨h3, rfl⟩
  | loc =>
    refine .inr ⟨h3, ?_⟩
    cases hl : ltz n with
    | none => simp [hl, Res.ofOption] at h4
    | some x => simp [hl] at h4; rw [h4]

/-- **C04, partial.**  For timestamps as writers produce them, of any mix of the two widths and in
either timeline time zone: an earlier time is also earlier as text.  Missing: timestamps denoting the
same time in different widths, leap seconds, and lenient spellings with spaces or signs, for which
the claim is false (`C04_false`). -/
theorem C04_earlier_time_is_earlier_text_partial (ltz : LocalTz) (hmono : MonotoneTz ltz)
    (tz a b : Str) (da db : DateTime) (ha : WriterTimestamp a) (hb : WriterTimestamp b)
    (hpa : parseDatetime ltz a tz = .ok da) (hpb : parseDatetime ltz b tz = .ok db)
    (h : da.epochMillis < db.epochMillis) : compare a b = .lt := by
  obtain ⟨na, h1, h2⟩ := naive_of_datetime hpa
  obtain ⟨nb, h3, h4⟩ := naive_of_datetime hpb
  have ho := writer_order ha hb h1 h3
  have ho' := writer_order hb ha h3 h1
  rcases h2 with ⟨hz, rfl⟩ | ⟨hz, hl⟩ <;> rcases h4 with ⟨hz', rfl⟩ | ⟨hz', hl'⟩
  · exact ho.1 h
  · rw [hz] at hz'; cases hz'
  · rw [hz] at hz'; cases hz'
  · apply ho.1
    rcases Int.lt_trichotomy na.epochMillis nb.epochMillis with g | g | g
    · exact g
    · rw [ho.2.2 g, hl'] at hl
      cases hl
      omega
    · have := hmono _ _ _ _ hl' hl g
      omega

/-- **C04, partial.**  For two writer timestamps of the same width the two orders are the same.  Missing: as in
`C04_earlier_time_is_earlier_text_partial`. -/
theorem C04_same_width_partial (ltz : LocalTz) (hmono : MonotoneTz ltz)
    (tz a b : Str) (da db : DateTime) (ha : WriterTimestamp a) (hb : WriterTimestamp b)
    (hlen : a.length = b.length)
    (hpa : parseDatetime ltz a tz = .ok da) (hpb : parseDatetime ltz b tz = .ok db) :
    compare a b = compare da.epochMillis db.epochMillis := by
  obtain ⟨na, h1, h2⟩ := naive_of_datetime hpa
  obtain ⟨nb, h3, h4⟩ := naive_of_datetime hpb
  have ho := writer_order ha hb h1 h3
  rcases h2 with ⟨hz, rfl⟩ | ⟨hz, hl⟩ <;> rcases h4 with ⟨hz', rfl⟩ | ⟨hz', hl'⟩
  · exact ho.2.1 hlen
  · rw [hz] at hz'; cases hz'
  · rw [hz] at hz'; cases hz'
  · rw [ho.2.1 hlen]
    rcases Int.lt_trichotomy na.epochMillis nb.epochMillis with g | g | g
    · rw [Int.compare_eq_lt.2 g]
      exact (Int.compare_eq_lt.2 (hmono _ _ _ _ hl hl' g)).symm
    · rw [Int.compare_eq_eq.2 g]
      have : na = nb := ho.2.2 g
      subst this
      rw [hl] at hl'
      cases hl'
      exact (Int.compare_eq_eq.2 rfl).symm
    · rw [Int.compare_eq_gt.2 g]
      exact (Int.compare_eq_gt.2 (hmono _ _ _ _ hl' hl g)).symm

/-- Both theorems apply, for instance, to these timestamps, and to a process in UTC. -/
example : WriterTimestamp c!"20240229235959" ∧ WriterTimestamp c!"20240301000000001" ∧
    MonotoneTz some ∧
    (∃ d, parseDatetime some c!"20240229235959" c!"utc" = .ok d) ∧
    (∃ d, parseDatetime some c!"20240301000000001" c!"utc" = .ok d) :=
  ⟨by decide, by decide, fun a b a' b' h h' hlt => by cases h; cases h'; exact hlt, ⟨_, rfl⟩, ⟨_, rfl⟩⟩

end Hudi
