import Verif.Lemmas.Str
import Verif.Model.Time

/-! Lemmas about timestamp parsing. -/

namespace Hudi

theorem trimStart_split (s : Str) : ∃ w, s = w ++ trimStart s ∧ w.all isWs = true :=
  ⟨s.takeWhile isWs, by simp [trimStart], by simp [List.all_takeWhile]⟩

theorem scanNumber_split {max n : Nat} {s r : Str} (h : scanNumber max s = some (n, r)) :
    ∃ ds, s = ds ++ r ∧ ds.all isDigit = true ∧ ds ≠ [] ∧ ds.length ≤ max ∧ n = natOfDigits ds := by
  unfold scanNumber at h
  simp only at h
  split at h
  · cases h
  · rename_i hne
    simp only [Option.some.injEq, Prod.mk.injEq] at h
    refine ⟨(s.take max).takeWhile isDigit, ?_, by simp [List.all_takeWhile], hne, ?_, h.1.symm⟩
    · have h1 : (s.take max).takeWhile isDigit = s.take ((s.take max).takeWhile isDigit).length := by
        have h2 := (List.takeWhile_prefix isDigit (l := s.take max)).trans (List.take_prefix max s)
        exact (List.prefix_iff_eq_take.1 h2)
      rw [← h.2]
      conv => lhs; rw [← List.take_append_drop ((s.take max).takeWhile isDigit).length s]
      rw [← h1]
    · have := (List.takeWhile_prefix isDigit (l := s.take max)).length_le
      simp only [List.length_take] at this
      omega

/-- The characters that can occur in the first 14 bytes of an accepted timestamp. -/
def tsChar (c : Char) : Bool := isDigit c || isWs c || c == '+' || c == '-'

theorem tsChar_of_digits {s : Str} (h : s.all isDigit = true) : s.all tsChar = true := by
  rw [List.all_eq_true] at *
  intro c hc; simp [tsChar, h c hc]

theorem tsChar_of_ws {s : Str} (h : s.all isWs = true) : s.all tsChar = true := by
  rw [List.all_eq_true] at *
  intro c hc; simp [tsChar, h c hc]

theorem parseTwo_split {n : Nat} {s r : Str} (h : parseTwo s = some (n, r)) :
    ∃ p, s = p ++ r ∧ p.all tsChar = true := by
  obtain ⟨w, h1, h2⟩ := trimStart_split s
  obtain ⟨ds, h3, h4, _⟩ := scanNumber_split h
  refine ⟨w ++ ds, ?_, ?_⟩
  · rw [List.append_assoc, ← h3]; exact h1
  · simp [List.all_append, tsChar_of_ws h2, tsChar_of_digits h4]

theorem parseYear_split {y : Int} {s r : Str} (h : parseYear s = some (y, r)) :
    ∃ p, s = p ++ r ∧ p.all tsChar = true := by
  obtain ⟨w, h1, h2⟩ := trimStart_split s
  unfold parseYear at h
  split at h
  · rename_i t ht
    simp only [Option.map_eq_some_iff] at h
    obtain ⟨⟨n, r'⟩, h5, h6⟩ := h
    obtain ⟨ds, h3, h4, _⟩ := scanNumber_split h5
    cases h6
    refine ⟨w ++ '-' :: ds, ?_, ?_⟩
    · rw [h1, ht, h3]; simp
    · simp only [List.all_append, List.all_cons, tsChar_of_ws h2, tsChar_of_digits h4]; decide
  · rename_i t ht
    simp only [Option.map_eq_some_iff] at h
    obtain ⟨⟨n, r'⟩, h5, h6⟩ := h
    obtain ⟨ds, h3, h4, _⟩ := scanNumber_split h5
    cases h6
    refine ⟨w ++ '+' :: ds, ?_, ?_⟩
    · rw [h1, ht, h3]; simp
    · simp only [List.all_append, List.all_cons, tsChar_of_ws h2, tsChar_of_digits h4]; decide
  · simp only [Option.map_eq_some_iff] at h
    obtain ⟨⟨n, r'⟩, h5, h6⟩ := h
    obtain ⟨ds, h3, h4, _⟩ := scanNumber_split h5
    cases h6
    refine ⟨w ++ ds, ?_, ?_⟩
    · rw [h1, h3]; simp
    · simp only [List.all_append, tsChar_of_ws h2, tsChar_of_digits h4]; decide

theorem chronoParse_chars {s : Str} {d : DateTime} (h : chronoParse s = some d) :
    s.all tsChar = true := by
  unfold chronoParse at h
  split at h
  · cases h
  rename_i y s1 e1
  split at h
  · cases h
  rename_i mo s2 e2
  split at h
  · cases h
  rename_i da s3 e3
  split at h
  · cases h
  rename_i ho s4 e4
  split at h
  · cases h
  rename_i mi s5 e5
  split at h
  · cases h
  rename_i se s6 e6
  split at h
  · rename_i hr
    obtain ⟨p1, a1, b1⟩ := parseYear_split e1
    obtain ⟨p2, a2, b2⟩ := parseTwo_split e2
    obtain ⟨p3, a3, b3⟩ := parseTwo_split e3
    obtain ⟨p4, a4, b4⟩ := parseTwo_split e4
    obtain ⟨p5, a5, b5⟩ := parseTwo_split e5
    obtain ⟨p6, a6, b6⟩ := parseTwo_split e6
    rw [a1, a2, a3, a4, a5, a6, hr]
    simp [List.all_append, b1, b2, b3, b4, b5, b6]
  · cases h

theorem parseUnsigned_no_dot {b n : Nat} {s : Str} (h : parseUnsigned b s = some n) : '.' ∉ s := by
  have key : ∀ t : Str, t.all isDigit = true → '.' ∉ t := by
    intro t ht hm
    have := List.all_eq_true.1 ht _ hm
    revert this; decide
  unfold parseUnsigned at h
  simp only at h
  split at h
  · rename_i hd
    have h1 := key _ hd.2
    intro hm
    apply h1
    unfold stripPlus
    split
    · simpa using hm
    · exact hm
  · cases h

/-- A timestamp of an accepted length that parses contains no dot. -/
theorem parseNaive_no_dot {ts : Str} {d : DateTime}
    (hl : byteLen ts = 14 ∨ byteLen ts = 17) (h : parseNaive ts = .ok d) : '.' ∉ ts := by
  unfold parseNaive at h
  split at h
  · cases h
  rename_i head tail hs
  have hs' := splitAtByte_eq_some.1 hs
  split at h
  · cases h
  rename_i dt hc
  have hh := chronoParse_chars hc
  have h1 : '.' ∉ head := by
    intro hm
    have := List.all_eq_true.1 hh _ hm
    revert this; decide
  have h2 : '.' ∉ tail := by
    rcases hl with hl | hl
    · rw [hs'.1, byteLen_append, hs'.2] at hl
      cases tail with
      | nil => simp
      | cons x xs =>
        simp only [byteLen] at hl
        have := Char.utf8Size_pos x
        omega
    · simp only [hl, if_true] at h
      split at h
      · cases h
      · rename_i ms hm
        intro hmem
        exact parseUnsigned_no_dot hm hmem
  rw [hs'.1]
  simp [h1, h2]

theorem parseDatetime_ok {ltz : LocalTz} {ts tz : Str} {d : DateTime}
    (h : parseDatetime ltz ts tz = .ok d) : ∃ n, parseNaive ts = .ok n := by
  unfold parseDatetime at h
  obtain ⟨n, h1, _⟩ := Res.bind_eq_ok.1 h
  exact ⟨n, h1⟩

theorem parseDatetime_no_dot {ltz : LocalTz} {ts tz : Str} {d : DateTime}
    (hl : byteLen ts = 14 ∨ byteLen ts = 17) (h : parseDatetime ltz ts tz = .ok d) : '.' ∉ ts := by
  obtain ⟨n, hn⟩ := parseDatetime_ok h
  exact parseNaive_no_dot hl hn

end Hudi
