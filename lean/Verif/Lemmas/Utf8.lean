import Verif.Base.Utf8
import Mathlib.Tactic.Common

/-! # Lemmas on UTF-8 and percent-encoding -/

namespace Hudi

theorem toNat_ofNat_lt {n : Nat} (h : n < 256) : (UInt8.ofNat n).toNat = n := by
  simp [UInt8.toNat_ofNat]; omega

theorem charOfNat?_toNat (c : Char) : charOfNat? c.toNat = some c := by
  unfold charOfNat?
  have h : c.toNat.isValidChar := c.valid
  rw [dif_pos h]
  rfl

theorem char_lt (c : Char) : c.toNat < 1114112 := by
  have h : c.toNat.isValidChar := c.valid
  unfold Nat.isValidChar at h
  omega

theorem utf8Decode_char (c : Char) (r : List UInt8) :
    utf8Decode (utf8Char c ++ r) = (utf8Decode r).map (c :: ·) := by
  have hlt := char_lt c
  have hc := charOfNat?_toNat c
  generalize hn : c.toNat = n at *
  unfold utf8Char
  simp only [hn]
  split
  · rename_i h
    rw [List.singleton_append, utf8Decode.eq_def]
    simp only [toNat_ofNat_lt (show n < 256 by omega)]
    simp [h, hc]
    cases utf8Decode r <;> rfl
  split
  · rename_i h h2
    rw [List.cons_append, List.singleton_append, utf8Decode.eq_def]
    simp only [toNat_ofNat_lt (show 192 + n / 64 < 256 by omega),
      toNat_ofNat_lt (show 128 + n % 64 < 256 by omega), isCont]
    rw [if_neg (by omega), if_neg (by omega), if_pos (by omega)]
    have e : (192 + n / 64) % 32 * 64 + (128 + n % 64) % 64 = n := by omega
    rw [e, if_pos ⟨by simp; omega, by omega⟩, hc]
    cases utf8Decode r <;> rfl
  split
  · rename_i h h2 h3
    rw [List.cons_append, List.cons_append, List.singleton_append, utf8Decode.eq_def]
    simp only [toNat_ofNat_lt (show 224 + n / 4096 < 256 by omega),
      toNat_ofNat_lt (show 128 + n / 64 % 64 < 256 by omega),
      toNat_ofNat_lt (show 128 + n % 64 < 256 by omega), isCont]
    rw [if_neg (by omega), if_neg (by omega), if_neg (by omega), if_pos (by omega)]
    have e : (224 + n / 4096) % 16 * 4096 + (128 + n / 64 % 64) % 64 * 64 + (128 + n % 64) % 64
        = n := by omega
    rw [e, if_pos ⟨by simp; omega, by simp; omega, by omega⟩, hc]
    cases utf8Decode r <;> rfl
  · rename_i h h2 h3
    rw [List.cons_append, List.cons_append, List.cons_append, List.singleton_append,
      utf8Decode.eq_def]
    simp only [toNat_ofNat_lt (show 240 + n / 262144 < 256 by omega),
      toNat_ofNat_lt (show 128 + n / 4096 % 64 < 256 by omega),
      toNat_ofNat_lt (show 128 + n / 64 % 64 < 256 by omega),
      toNat_ofNat_lt (show 128 + n % 64 < 256 by omega), isCont]
    rw [if_neg (by omega), if_neg (by omega), if_neg (by omega), if_neg (by omega),
      if_pos (by omega)]
    have e : (240 + n / 262144) % 8 * 262144 + (128 + n / 4096 % 64) % 64 * 4096 +
        (128 + n / 64 % 64) % 64 * 64 + (128 + n % 64) % 64 = n := by omega
    rw [e, if_pos ⟨by simp; omega, by simp; omega, by simp; omega, by omega⟩, hc]
    cases utf8Decode r <;> rfl

theorem utf8Encode_cons (c : Char) (s : Str) : utf8Encode (c :: s) = utf8Char c ++ utf8Encode s := by
  simp [utf8Encode]

theorem utf8Encode_append (a b : Str) : utf8Encode (a ++ b) = utf8Encode a ++ utf8Encode b := by
  simp [utf8Encode]

/-- Decoding the bytes of a text gives the text. -/
theorem utf8Decode_encode (s : Str) : utf8Decode (utf8Encode s) = some s := by
  induction s with
  | nil => rfl
  | cons c s ih => rw [utf8Encode_cons, utf8Decode_char, ih]; rfl

theorem percentDecode_cons {a : UInt8} (h : a.toNat ≠ 37) (r : List UInt8) :
    percentDecode (a :: r) = a :: percentDecode r := by
  match r with
  | [] => rfl
  | [b] => rfl
  | b :: c :: r => simp [percentDecode, h]

theorem utf8Char_ascii {c : Char} (h : c.toNat < 128) : utf8Char c = [UInt8.ofNat c.toNat] := by
  simp [utf8Char, h]

theorem utf8Char_no_percent {c : Char} (h : c.toNat ≠ 37) : ∀ b ∈ utf8Char c, b.toNat ≠ 37 := by
  have hlt := char_lt c
  generalize hn : c.toNat = n at *
  unfold utf8Char
  simp only [hn]
  intro b hb
  split at hb
  · simp only [List.mem_singleton] at hb
    rw [hb, toNat_ofNat_lt (by omega)]; exact h
  split at hb
  · simp only [List.mem_cons, List.not_mem_nil, or_false] at hb
    rcases hb with hb | hb <;> rw [hb, toNat_ofNat_lt (by omega)] <;> omega
  split at hb
  · simp only [List.mem_cons, List.not_mem_nil, or_false] at hb
    rcases hb with hb | hb | hb <;> rw [hb, toNat_ofNat_lt (by omega)] <;> omega
  · simp only [List.mem_cons, List.not_mem_nil, or_false] at hb
    rcases hb with hb | hb | hb | hb <;> rw [hb, toNat_ofNat_lt (by omega)] <;> omega

theorem percentDecode_append {l : List UInt8} (h : ∀ b ∈ l, b.toNat ≠ 37) (r : List UInt8) :
    percentDecode (l ++ r) = l ++ percentDecode r := by
  induction l with
  | nil => rfl
  | cons a l ih =>
    rw [List.cons_append, percentDecode_cons (h a List.mem_cons_self),
      ih (fun b hb => h b (List.mem_cons_of_mem _ hb))]
    rfl

theorem percentDecode_plain {s : Str} (h : '%' ∉ s) (r : List UInt8) :
    percentDecode (utf8Encode s ++ r) = utf8Encode s ++ percentDecode r := by
  apply percentDecode_append
  intro b hb
  unfold utf8Encode at hb
  rw [List.mem_flatMap] at hb
  obtain ⟨c, hc, hb⟩ := hb
  refine utf8Char_no_percent ?_ b hb
  intro h37
  have : c = '%' := Char.toNat_inj.1 (by rw [h37]; rfl)
  exact h (this ▸ hc)

theorem charOfNat?_some {n : Nat} {c : Char} (h : charOfNat? n = some c) : c.toNat = n := by
  unfold charOfNat? at h
  split at h
  · rename_i hv
    cases h
    rw [Char.ofNatAux]
    show (UInt32.ofNatLT n _).toNat = n
    simp
  · cases h

theorem utf8_char_case {r s : List UInt8} {n : Nat} {t : Str} (ih : ∀ u, utf8Decode s = some u → utf8Encode u = s)
    (h : (do let c ← charOfNat? n; return c :: (← utf8Decode s)) = some t)
    (hr : ∀ c : Char, c.toNat = n → utf8Char c ++ s = r) : utf8Encode t = r := by
  cases hc : charOfNat? n with
  | none => rw [hc] at h; cases h
  | some c =>
    rw [hc] at h
    cases hd : utf8Decode s with
    | none => rw [hd] at h; cases h
    | some u =>
      rw [hd] at h
      cases h
      rw [utf8Encode_cons, ih u hd, hr c (charOfNat?_some hc)]

theorem ofNat_toNat_eq {a : UInt8} {n : Nat} (h : n = a.toNat) : UInt8.ofNat n = a := by
  subst h; simp

/-- Bytes that decode to a text are the bytes of the text. -/
theorem utf8Encode_decode {l : List UInt8} {s : Str} (h : utf8Decode l = some s) : utf8Encode s = l := by
  have key : ∀ m (l : List UInt8), l.length ≤ m → ∀ s, utf8Decode l = some s → utf8Encode s = l := by
    intro m
    induction m with
    | zero =>
      intro l hl s h
      cases l with
      | nil => cases h; rfl
      | cons a r => simp at hl
    | succ m ih =>
      intro l hl s h
      cases l with
      | nil => cases h; rfl
      | cons a r1 =>
        have ha := a.toNat_lt
        simp only [List.length_cons] at hl
        rw [utf8Decode.eq_def] at h
        simp only at h
        split at h
        · rename_i h1
          refine utf8_char_case (fun u => ih r1 (by omega) u) h (fun c hc => ?_)
          simp only [utf8Char, hc, if_pos h1]
          simp
        split at h
        · cases h
        split at h
        · rename_i h1 h2 h3
          cases r1 with
          | nil => cases h
          | cons b r2 =>
            have hb := b.toNat_lt
            simp only [List.length_cons] at hl h
            split at h
            · rename_i h4
              obtain ⟨h5, h6⟩ := h4
              simp only [isCont, Bool.and_eq_true, decide_eq_true_eq] at h5
              refine utf8_char_case (fun u => ih r2 (by omega) u) h (fun c hc => ?_)
              simp only [utf8Char, hc]
              rw [if_neg (by omega), if_pos (by omega), ofNat_toNat_eq (a := a) (by omega),
                ofNat_toNat_eq (a := b) (by omega)]
              rfl
            · cases h
        split at h
        · rename_i h1 h2 h3 h3'
          rcases r1 with _ | ⟨b, _ | ⟨c, r2⟩⟩
          · cases h
          · cases h
          · have hb := b.toNat_lt
            have hc' := c.toNat_lt
            simp only [List.length_cons] at hl h
            split at h
            · rename_i h4
              obtain ⟨h5, h5', h6⟩ := h4
              simp only [isCont, Bool.and_eq_true, decide_eq_true_eq] at h5 h5'
              refine utf8_char_case (fun u => ih r2 (by omega) u) h (fun d hc => ?_)
              simp only [utf8Char, hc]
              rw [if_neg (by omega), if_neg (by omega), if_pos (by omega), ofNat_toNat_eq (a := a) (by omega),
                ofNat_toNat_eq (a := b) (by omega), ofNat_toNat_eq (a := c) (by omega)]
              rfl
            · cases h
        split at h
        · rename_i h1 h2 h3 h3' h3''
          rcases r1 with _ | ⟨b, _ | ⟨c, _ | ⟨d, r2⟩⟩⟩
          · cases h
          · cases h
          · cases h
          · have hb := b.toNat_lt
            have hc' := c.toNat_lt
            have hd := d.toNat_lt
            simp only [List.length_cons] at hl h
            split at h
            · rename_i h4
              obtain ⟨h5, h5', h5'', h6⟩ := h4
              simp only [isCont, Bool.and_eq_true, decide_eq_true_eq] at h5 h5' h5''
              refine utf8_char_case (fun u => ih r2 (by omega) u) h (fun e hc => ?_)
              simp only [utf8Char, hc]
              rw [if_neg (by omega), if_neg (by omega), if_neg (by omega), ofNat_toNat_eq (a := a) (by omega),
                ofNat_toNat_eq (a := b) (by omega), ofNat_toNat_eq (a := c) (by omega),
                ofNat_toNat_eq (a := d) (by omega)]
              rfl
            · cases h
        · cases h
  exact key _ l (Nat.le_refl _) s h
end Hudi
