import Verif.Lemmas.Calendar
import Verif.Props.Instants

/-! # C61: a timestamp denotes the time it spells -/

namespace Hudi

open Spec

theorem fields_split (s : Str) (hs : s.length = 14 ∨ s.length = 17) :
    ∃ y m d h i e T : Str, s = (y ++ (m ++ (d ++ (h ++ (i ++ e))))) ++ T ∧
      y.length = 4 ∧ m.length = 2 ∧ d.length = 2 ∧ h.length = 2 ∧ i.length = 2 ∧ e.length = 2 ∧
      (T.length = 0 ∨ T.length = 3) ∧
      dateOf s = ⟨natOfDigits y, natOfDigits m, natOfDigits d⟩ ∧ hourOf s = natOfDigits h ∧
      minuteOf s = natOfDigits i ∧ secondOf s = natOfDigits e ∧ millisOf s = natOfDigits T := by
  match s, hs with
  | c0 :: c1 :: c2 :: c3 :: c4 :: c5 :: c6 :: c7 :: c8 :: c9 :: c10 :: c11 :: c12 :: c13 :: T, hs =>
    refine ⟨[c0, c1, c2, c3], [c4, c5], [c6, c7], [c8, c9], [c10, c11], [c12, c13], T, rfl, rfl, rfl,
        rfl, rfl, rfl, rfl, by simp only [List.length_cons] at hs; omega, ?_, placeValue_eq _,
        placeValue_eq _, placeValue_eq _, placeValue_eq _⟩
    simp only [dateOf, placeValue_eq]
    rfl

/-- The first step of parsing: the fields, and the milliseconds. -/
theorem parseNaive_fields {y m d h i e T : Str} (hy : y.length = 4) (hm : m.length = 2)
    (hd : d.length = 2) (hh : h.length = 2) (hi : i.length = 2) (he : e.length = 2)
    (hT : T.length = 0 ∨ T.length = 3)
    (ha : ((y ++ (m ++ (d ++ (h ++ (i ++ e))))) ++ T).all isDigit = true) :
    parseNaive ((y ++ (m ++ (d ++ (h ++ (i ++ e))))) ++ T) =
      match civilToDateTime (natOfDigits y) (natOfDigits m) (natOfDigits d) (natOfDigits h)
        (natOfDigits i) (natOfDigits e) with
      | none => .err .timeline
      | some dt => .ok (if T = [] then dt else { dt with nanos := natOfDigits T * 1000000 }) := by
  have hbl := byteLen_digits ha
  have ha' := ha
  rw [List.all_append, Bool.and_eq_true] at ha'
  have hbh := byteLen_digits ha'.1
  have hs : splitAtByte 14 ((y ++ (m ++ (d ++ (h ++ (i ++ e))))) ++ T) =
      some (y ++ (m ++ (d ++ (h ++ (i ++ e)))), T) :=
    splitAtByte_eq_some.2 ⟨rfl, by rw [hbh]; simp [hy, hm, hd, hh, hi, he]⟩
  unfold parseNaive
  rw [hs]
  simp only
  rw [chronoParse_digits hy hm hd hh hi he ha'.1]
  cases civilToDateTime (natOfDigits y) (natOfDigits m) (natOfDigits d) (natOfDigits h)
        (natOfDigits i) (natOfDigits e) with
  | none => rfl
  | some dt =>
    simp only
    rw [hbl]
    simp only [List.length_append, hy, hm, hd, hh, hi, he]
    rcases hT with hT | hT
    · rw [List.length_eq_zero_iff] at hT
      subst hT
      simp
    · have hTne : T ≠ [] := by rintro rfl; simp at hT
      have hpu : parseUnsigned u32Bound T = some (natOfDigits T) := by
        have hlt := natOfDigits_lt ha'.2
        rw [hT] at hlt
        have hsp : stripPlus T = T := by
          unfold stripPlus
          split
          · have := ha'.2
            simp only [List.all_cons, Bool.and_eq_true] at this
            exact absurd this.1 (by decide)
          · rfl
        have hb : natOfDigits T < u32Bound := by unfold u32Bound; omega
        simp only [parseUnsigned, hsp, hTne, ne_eq, not_false_eq_true, ha'.2, and_self, if_true, hb]
      rw [hpu]
      simp [hT, hTne]

/-- The time spelled by a timestamp that names one. -/
theorem naive_time {ts : Str} (hd : ts.all isDigit = true) (hl : ts.length = 14 ∨ ts.length = 17)
    (hdate : (dateOf ts).Exists) (hh : hourOf ts ≤ 23) (hm : minuteOf ts ≤ 59) (hs : secondOf ts ≤ 59) :
    ∃ d, parseNaive ts = .ok d ∧ d.epochMillis =
      (((dayNum (dateOf ts) * 24 + hourOf ts) * 60 + minuteOf ts) * 60 + secondOf ts) * 1000
        + millisOf ts := by
  obtain ⟨y, m, d, h, i, e, T, rfl, ly, lm, ld, lh, li, le, lT, q1, q2, q3, q4, q5⟩ := fields_split ts hl
  rw [q1] at hdate
  rw [q2] at hh
  rw [q3] at hm
  rw [q4] at hs
  obtain ⟨h1, h2, h3, h4⟩ := (exists_iff _).1 hdate
  simp only at h1 h2 h3 h4
  rw [parseNaive_fields ly lm ld lh li le lT hd, q1, q2, q3, q4, q5]
  unfold civilToDateTime
  rw [if_pos ⟨h1, h2, h3, h4, hh, hm, by omega⟩]
  refine ⟨_, rfl, ?_⟩
  have e1 : ¬ natOfDigits e = 60 := by omega
  simp only [e1, if_false, dayNum]
  generalize daysFromCivil (natOfDigits y) (natOfDigits m) (natOfDigits d) = n
  split
  · rename_i hT
    subst hT
    simp only [DateTime.epochMillis, natOfDigits, List.foldl_nil]
    omega
  · simp only [DateTime.epochMillis]
    have := Nat.mul_div_cancel (natOfDigits T) (by decide : 0 < 1000000)
    rw [this]
    omega

/-- **C61.**  A timestamp of 14 or 17 digits that names an existing date and time is accepted, and in
UTC it denotes that time: the number of whole days since 1970-01-01 times 24 hours, plus the hours,
minutes, seconds and milliseconds it spells. -/
theorem C61_timestamp_denotes_its_time (ltz : LocalTz) (ts tz : Str) (hd : ts.all isDigit = true)
    (hl : ts.length = 14 ∨ ts.length = 17) (hdate : (dateOf ts).Exists) (hh : hourOf ts ≤ 23)
    (hm : minuteOf ts ≤ 59) (hs : secondOf ts ≤ 59) (htz : tz = c!"utc" ∨ tz = c!"UTC") :
    ∃ n d, DaysSince1970 n (dateOf ts) ∧ (∀ n', DaysSince1970 n' (dateOf ts) → n' = n) ∧
      parseDatetime ltz ts tz = .ok d ∧
      d.epochMillis =
        (((n * 24 + hourOf ts) * 60 + minuteOf ts) * 60 + secondOf ts) * 1000 + millisOf ts := by
  obtain ⟨d, h1, h2⟩ := naive_time hd hl hdate hh hm hs
  refine ⟨dayNum (dateOf ts), d, daysSince_dayNum hdate, fun n' h => (daysSince_exists h).2.symm, ?_, h2⟩
  unfold parseDatetime convertToTimezone
  rw [h1]
  have e : Tz.fromStr tz = .ok .utc := by rcases htz with rfl | rfl <;> rfl
  simp only [Res.ok_bind, e]

/-- **C61.**  In a table whose timeline is in local time, the same text denotes what the process's time
zone makes of that time, and nothing if the zone has no such time. -/
theorem C61_local_time (ltz : LocalTz) (ts tz : Str) (hd : ts.all isDigit = true)
    (hl : ts.length = 14 ∨ ts.length = 17) (hdate : (dateOf ts).Exists) (hh : hourOf ts ≤ 23)
    (hm : minuteOf ts ≤ 59) (hs : secondOf ts ≤ 59) (htz : tz = c!"local" ∨ tz = c!"LOCAL") :
    ∃ n d, DaysSince1970 n (dateOf ts) ∧
      d.epochMillis =
        (((n * 24 + hourOf ts) * 60 + minuteOf ts) * 60 + secondOf ts) * 1000 + millisOf ts ∧
      (∀ e, parseDatetime ltz ts tz = .ok e ↔ ltz d = some e) ∧
      (parseDatetime ltz ts tz = .err .timeline ↔ ltz d = none) := by
  obtain ⟨d, h1, h2⟩ := naive_time hd hl hdate hh hm hs
  refine ⟨dayNum (dateOf ts), d, daysSince_dayNum hdate, h2, ?_⟩
  have e : Tz.fromStr tz = .ok .loc := by rcases htz with rfl | rfl <;> rfl
  have : parseDatetime ltz ts tz = Res.ofOption .timeline (ltz d) := by
    unfold parseDatetime convertToTimezone
    rw [h1]
    simp only [Res.ok_bind, e]
  rw [this]
  cases ltz d with
  | none => simp [Res.ofOption]
  | some x => simp

/-- **C61.**  A timestamp of 14 or 17 digits that names no existing date or no time of day is refused.
(Second 60, a leap second, is accepted.) -/
theorem C61_no_such_time_is_refused (ltz : LocalTz) (ts tz : Str) (hd : ts.all isDigit = true)
    (hl : ts.length = 14 ∨ ts.length = 17)
    (hno : ¬ (dateOf ts).Exists ∨ 23 < hourOf ts ∨ 59 < minuteOf ts ∨ 60 < secondOf ts) :
    parseDatetime ltz ts tz = .err .timeline := by
  obtain ⟨y, m, d, h, i, e, T, rfl, ly, lm, ld, lh, li, le, lT, q1, q2, q3, q4, q5⟩ := fields_split ts hl
  rw [q1, q2, q3, q4] at hno
  unfold parseDatetime
  rw [parseNaive_fields ly lm ld lh li le lT hd]
  unfold civilToDateTime
  rw [if_neg]
  · rfl
  · rintro ⟨h1, h2, h3, h4, h5, h6, h7⟩
    rcases hno with g | g | g | g
    · exact g ((exists_iff _).2 ⟨h1, h2, h3, h4⟩)
    all_goals omega

/-- **C61.**  The instant read from a timeline file `<timestamp>.<suffix>` carries the timestamp and the
time it denotes. -/
theorem C61_instant_time (ltz : LocalTz) (ts tz : Str) (a : Action) (st : State)
    (hd : ts.all isDigit = true) (hl : ts.length = 14 ∨ ts.length = 17) (hdate : (dateOf ts).Exists)
    (hh : hourOf ts ≤ 23) (hm : minuteOf ts ≤ 59) (hs : secondOf ts ≤ 59)
    (htz : tz = c!"utc" ∨ tz = c!"UTC") :
    ∃ n i, DaysSince1970 n (dateOf ts) ∧
      Instant.fromFileName ltz (ts ++ c!"." ++ suffix a st) tz = .ok i ∧
      i.timestamp = ts ∧ i.action = a ∧ i.state = st ∧
      i.epochMillis =
        (((n * 24 + hourOf ts) * 60 + minuteOf ts) * 60 + secondOf ts) * 1000 + millisOf ts := by
  obtain ⟨n, d, h1, _, h2, h3⟩ := C61_timestamp_denotes_its_time ltz ts tz hd hl hdate hh hm hs htz
  have hb := byteLen_digits hd
  obtain ⟨r1, r2, _⟩ := C01_instant_name_roundtrip ltz tz ts a st d (by rw [hb]; exact hl) h2
  exact ⟨n, _, h1, by rw [← r1]; exact r2, rfl, rfl, rfl, h3⟩

/-- The hypotheses hold of a leap day, of the day before the epoch and of the last day of 2000; and
counting days does reach them. -/
example : (∀ ts ∈ [c!"20240229235959999", c!"19691231000000", c!"20001231123456"],
      ts.all isDigit = true ∧ (ts.length = 14 ∨ ts.length = 17) ∧ hourOf ts ≤ 23 ∧ minuteOf ts ≤ 59 ∧
      secondOf ts ≤ 59) ∧
    (dateOf c!"20240229235959999").Exists ∧ (dateOf c!"19691231000000").Exists ∧
    (dateOf c!"20001231123456").Exists ∧
    DaysSince1970 (-1) (dateOf c!"19691231000000") ∧ DaysSince1970 2 ⟨1970, 1, 3⟩ :=
  ⟨by decide, (exists_iff _).2 (by decide), (exists_iff _).2 (by decide), (exists_iff _).2 (by decide),
    .earlier ((exists_iff _).2 (by decide)) .epoch, .later (.later .epoch)⟩

/-- 29 February 2023, 31 April, month 13 and hour 24 do not exist. -/
example : ¬ (dateOf c!"20230229000000").Exists ∧ ¬ (dateOf c!"20240431000000").Exists ∧
    ¬ (dateOf c!"20241301000000").Exists ∧ 23 < hourOf c!"20240101240000" :=
  ⟨fun h => absurd ((exists_iff _).1 h) (by decide), fun h => absurd ((exists_iff _).1 h) (by decide),
    fun h => absurd ((exists_iff _).1 h) (by decide), by decide⟩

end Hudi
