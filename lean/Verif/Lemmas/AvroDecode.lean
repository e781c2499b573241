import Verif.Spec.Avro
import Verif.Lemmas.Utf8
import Mathlib.Tactic.Common
import Mathlib.Tactic.Ring

/-! # Decoding what was encoded -/

namespace Hudi
namespace Avro
open Spec

@[simp] theorem Out.ok_bind {α β : Type} (a : α) (r : Bytes) (f : α → Bytes → Out β) :
    (Out.ok a r).bind f = f a r := rfl

theorem ofNat_toNat {n : Nat} (h : n < 256) : (UInt8.ofNat n).toNat = n := by
  simp [UInt8.toNat_ofNat', Nat.mod_eq_of_lt h]

theorem varint_bytes (m : Nat) : ∀ (fuel j i : Nat) (rest : Bytes), i < 2 ^ (7 * j) →
    i + m * 2 ^ (7 * j) < 2 ^ 64 → m < 128 ^ fuel → 0 < fuel →
    varint fuel j i (varintBytes m ++ rest) = .ok (i + m * 2 ^ (7 * j)) rest := by
  induction m using Nat.strongRecOn with
  | ind m ih =>
    intro fuel j i rest hi hlt hf hpos
    obtain ⟨fuel, rfl⟩ := Nat.exists_eq_succ_of_ne_zero (Nat.pos_iff_ne_zero.1 hpos)
    rw [varintBytes]
    by_cases hm : m < 128
    · rw [if_pos hm]
      simp only [List.singleton_append, varint]
      rw [ofNat_toNat (by omega), if_pos hm, Nat.mod_eq_of_lt hm, Nat.mod_eq_of_lt hlt]
    · rw [if_neg hm]
      simp only [List.cons_append, varint]
      have h1 : 128 + m % 128 < 256 := by omega
      rw [ofNat_toNat h1, if_neg (by omega)]
      have h2 : (128 + m % 128) % 128 = m % 128 := by omega
      have hp : 2 ^ (7 * (j + 1)) = 128 * 2 ^ (7 * j) := by
        rw [show 7 * (j + 1) = 7 + 7 * j by ring, Nat.pow_add]
      have h3 : i + m % 128 * 2 ^ (7 * j) + m / 128 * 2 ^ (7 * (j + 1)) = i + m * 2 ^ (7 * j) := by
        rw [hp]
        conv => rhs; rw [← Nat.mod_add_div m 128]
        ring
      have h4 : i + m % 128 * 2 ^ (7 * j) < 2 ^ 64 := by
        refine Nat.lt_of_le_of_lt ?_ hlt
        rw [← h3]; exact Nat.le_add_right _ _
      rw [h2, Nat.mod_eq_of_lt h4]
      have hfuel : 0 < fuel := by
        rcases Nat.eq_zero_or_pos fuel with h | h
        · subst h; simp at hf; omega
        · exact h
      rw [ih (m / 128) (Nat.div_lt_self (by omega) (by omega)) fuel (j + 1) _ rest ?_ ?_ ?_ hfuel, h3]
      · rw [hp]
        have : m % 128 < 128 := Nat.mod_lt _ (by omega)
        have h5 : m % 128 * 2 ^ (7 * j) ≤ 127 * 2 ^ (7 * j) := Nat.mul_le_mul_right _ (by omega)
        have : 128 * 2 ^ (7 * j) = 127 * 2 ^ (7 * j) + 2 ^ (7 * j) := by ring
        omega
      · rw [h3]; exact hlt
      · rw [Nat.div_lt_iff_lt_mul (by omega)]
        rw [Nat.pow_succ] at hf; exact hf

theorem varint_zero {m : Nat} (h : m < 2 ^ 64) (rest : Bytes) :
    varint 10 0 0 (varintBytes m ++ rest) = .ok m rest := by
  have := varint_bytes m 10 0 0 rest (by simp) (by simpa using h)
    (Nat.lt_trans h (by decide)) (by decide)
  simpa using this

theorem zagI64_long {i : Int} (h : Fits64 i) (rest : Bytes) :
    zagI64 (longBytes i ++ rest) = .ok i rest := by
  obtain ⟨h1, h2⟩ := h
  unfold zagI64 longBytes
  have hz : zigzag i < 2 ^ 64 := by unfold zigzag; split <;> omega
  rw [varint_zero hz]
  simp only [Out.ok_bind]
  congr 1
  unfold zigzag
  split <;> split <;> omega

theorem zagI32_long {i : Int} (h : Fits32 i) (rest : Bytes) :
    zagI32 (longBytes i ++ rest) = .ok i rest := by
  unfold zagI32
  have h' : Fits64 i := by unfold Fits32 at h; unfold Fits64; omega
  rw [zagI64_long h']
  simp only [Out.ok_bind]
  exact if_pos h

theorem lenOk_int64 {n : Nat} (h : LenOk n) : Fits64 n := by
  unfold LenOk at h; unfold Fits64; omega

theorem decodeLen_long {n : Nat} (h : LenOk n) (rest : Bytes) :
    decodeLen (longBytes n ++ rest) = .ok n rest := by
  unfold decodeLen
  rw [zagI64_long (lenOk_int64 h)]
  simp only [Out.ok_bind]
  have : n ≤ maxAllocation := h
  rw [if_pos (by simpa using this)]
  simp

theorem take_append {b rest : Bytes} : take b.length (b ++ rest) = .ok b rest := by
  unfold take
  rw [if_pos (by simp)]
  simp

theorem take_append' {n : Nat} {b rest : Bytes} (h : b.length = n) :
    take n (b ++ rest) = .ok b rest := by
  subst h; exact take_append

theorem decodeBytes_len {x : Bytes} (h : LenOk x.length) (rest : Bytes) :
    decodeBytes (lenBytes x ++ rest) = .ok x rest := by
  unfold decodeBytes lenBytes
  rw [List.append_assoc, decodeLen_long h, Out.ok_bind, take_append]

theorem decodeString_len {x : Str} (h : LenOk (utf8Encode x).length) (rest : Bytes) :
    decodeString (lenBytes (utf8Encode x) ++ rest) = .ok (.string x) rest := by
  unfold decodeString lenBytes
  rw [List.append_assoc, decodeLen_long h, Out.ok_bind]
  unfold readString
  rw [take_append]
  simp only [utf8Decode_encode]

theorem le_length (k n : Nat) : (le k n).length = k := by
  induction k generalizing n with
  | zero => rfl
  | succ k ih => simp [le, ih]

theorem leNat_le (k n : Nat) (h : n < 256 ^ k) : leNat (le k n) = n := by
  induction k generalizing n with
  | zero => simp at h; subst h; rfl
  | succ k ih =>
    simp only [le, leNat]
    rw [ih (n / 256) (by rw [Nat.div_lt_iff_lt_mul (by omega)]; rw [Nat.pow_succ] at h; exact h),
      ofNat_toNat (Nat.mod_lt _ (by omega))]
    omega

theorem decodeSeqLen_pos {n : Nat} (h : LenOk n) (rest : Bytes) :
    decodeSeqLen (longBytes n ++ rest) = .ok n rest := by
  unfold decodeSeqLen
  rw [zagI64_long (lenOk_int64 h)]
  simp only [Out.ok_bind]
  have : n ≤ maxAllocation := h
  rcases Nat.eq_zero_or_pos n with hn | hn
  · subst hn; simp
  · rw [if_neg (by omega), if_pos (by omega), if_pos (by simpa using this)]
    simp

theorem decodeSeqLen_neg {n : Nat} (h : LenOk n) (hn : 0 < n) {k : Int} (hk : Fits64 k)
    (rest : Bytes) :
    decodeSeqLen (longBytes (-(n : Int)) ++ (longBytes k ++ rest)) = .ok n rest := by
  unfold decodeSeqLen
  have h64 : Fits64 (-(n : Int)) := by unfold LenOk at h; unfold Fits64; omega
  rw [zagI64_long h64]
  simp only [Out.ok_bind]
  rw [if_neg (by omega), if_neg (by omega), zagI64_long hk]
  simp only [Out.ok_bind]
  have : n ≤ maxAllocation := h
  unfold LenOk at h
  rw [if_neg (by omega), if_pos (by simpa using this)]
  simp

theorem times_items {α : Type} {P : α → Bytes → Prop} {d : Bytes → Out α}
    (hd : ∀ v b rest, P v b → d (b ++ rest) = .ok v rest) {vs : List α} {b : Bytes}
    (h : Items P vs b) (rest : Bytes) : times d vs.length (b ++ rest) = .ok vs rest := by
  induction h with
  | nil => rfl
  | cons h1 h2 ih =>
    simp only [List.length_cons, times, List.append_assoc]
    rw [hd _ _ _ h1]
    simp only [Out.ok_bind]
    rw [ih]
    rfl

theorem varintBytes_pos (n : Nat) : 0 < (varintBytes n).length := by
  rw [varintBytes]; split <;> simp

theorem blocks_enc {α : Type} {P : α → Bytes → Prop} {d : Bytes → Out α}
    (hd : ∀ v b rest, P v b → d (b ++ rest) = .ok v rest) {vs : List α} {b : Bytes}
    (h : Spec.Blocks P vs b) (rest : Bytes) (fuel : Nat) (hf : b.length < fuel) :
    blocks d fuel (b ++ rest) = .ok vs rest := by
  induction h generalizing fuel with
  | done =>
    obtain ⟨fuel, rfl⟩ := Nat.exists_eq_succ_of_ne_zero (Nat.pos_iff_ne_zero.1 (Nat.zero_lt_of_lt hf))
    simp only [blocks]
    rw [show longBytes 0 = longBytes ((0 : Nat) : Int) from rfl, decodeSeqLen_pos (by simp [LenOk])]
    simp
  | @block vs ws b bs hne hok hit _ ih =>
    obtain ⟨fuel, rfl⟩ := Nat.exists_eq_succ_of_ne_zero (Nat.pos_iff_ne_zero.1 (Nat.zero_lt_of_lt hf))
    simp only [blocks, List.append_assoc]
    rw [decodeSeqLen_pos hok]
    simp only [Out.ok_bind]
    rw [if_neg (by simpa using hne), times_items hd hit]
    simp only [Out.ok_bind]
    have := varintBytes_pos (zigzag (vs.length : Int))
    rw [ih fuel (by simp [longBytes] at hf; omega)]
    rfl
  | @sized vs ws b bs hne hok hit hk _ ih =>
    obtain ⟨fuel, rfl⟩ := Nat.exists_eq_succ_of_ne_zero (Nat.pos_iff_ne_zero.1 (Nat.zero_lt_of_lt hf))
    simp only [blocks, List.append_assoc]
    rw [decodeSeqLen_neg hok (List.length_pos_iff.2 hne) hk]
    simp only [Out.ok_bind]
    rw [if_neg (by simpa using hne), times_items hd hit]
    simp only [Out.ok_bind]
    have := varintBytes_pos (zigzag (-(vs.length : Int)))
    rw [ih fuel (by simp [longBytes] at hf; omega)]
    rfl

theorem decodeEntry_enc {P : AvroValue → Bytes → Prop} {d : Bytes → Out AvroValue}
    (hd : ∀ v b rest, P v b → d (b ++ rest) = .ok v rest) (e : Str × AvroValue) (b rest : Bytes)
    (h : EncEntry P e b) : decodeEntry d (b ++ rest) = .ok e rest := by
  obtain ⟨h1, c, h2, rfl⟩ := h
  unfold decodeEntry
  rw [List.append_assoc, decodeString_len h1]
  simp only [Out.ok_bind]
  rw [hd _ _ _ h2]
  rfl

mutual
theorem decode_enc (s : AvroSchema) (v : AvroValue) (b rest : Bytes) (h : Enc s v b) :
    decode s (b ++ rest) = .ok v rest := by
  cases s with
  | null => obtain ⟨rfl, rfl⟩ := h; rfl
  | boolean => obtain ⟨x, rfl, rfl⟩ := h; cases x <;> rfl
  | int => obtain ⟨i, rfl, hi, rfl⟩ := h; simp [decode, zagI32_long hi]
  | long => obtain ⟨i, rfl, hi, rfl⟩ := h; simp [decode, zagI64_long hi]
  | float =>
    obtain ⟨n, rfl, hn, rfl⟩ := h
    rw [decode, take_append' (le_length 4 n)]
    simp only [Out.ok_bind]
    rw [leNat_le _ _ (by simpa using hn)]
  | double =>
    obtain ⟨n, rfl, hn, rfl⟩ := h
    rw [decode, take_append' (le_length 8 n)]
    simp only [Out.ok_bind]
    rw [leNat_le _ _ (by simpa using hn)]
  | bytes => obtain ⟨x, rfl, hx, rfl⟩ := h; simp [decode, decodeBytes_len hx]
  | string => obtain ⟨x, rfl, hx, rfl⟩ := h; simp [decode, decodeString_len hx]
  | array s =>
    obtain ⟨vs, rfl, hb⟩ := h
    rw [decode, blocks_enc (fun v b rest h => decode_enc s v b rest h) hb rest _ (by simp; omega)]
    rfl
  | map s =>
    obtain ⟨vs, rfl, hb⟩ := h
    rw [decode, blocks_enc (fun e b rest h => decodeEntry_enc
      (fun v b rest h => decode_enc s v b rest h) e b rest h) hb rest _ (by simp; omega)]
    rfl
  | union ss =>
    obtain ⟨k, w, c, rfl, hk, hv, rfl⟩ := h
    rw [decode, List.append_assoc, zagI64_long hk]
    simp only
    rw [if_neg (by omega), Int.toNat_natCast, decodeVariant_enc ss k w c rest hv]
    rfl
  | record fs =>
    obtain ⟨vs, rfl, hb⟩ := h
    rw [decode, decodeFields_enc fs vs b rest hb]
    rfl
  | enum syms =>
    obtain ⟨k, x, rfl, hx, hk, rfl⟩ := h
    rw [decode, zagI32_long hk]
    simp only [Out.ok_bind]
    rw [if_neg (by omega), Int.toNat_natCast, hx]
  | fixed n => obtain ⟨rfl, hn⟩ := h; rw [decode, take_append' hn]; rfl
  | decimal f p sc =>
    cases f with
    | none => obtain ⟨x, rfl, hx, rfl⟩ := h; simp [decode, decodeBytes_len hx]
    | some n => obtain ⟨rfl, hn⟩ := h; rw [decode, take_append' hn]; rfl
  | bigDecimal => obtain ⟨x, rfl, hx, rfl⟩ := h; simp [decode, decodeBytes_len hx]
  | uuid => obtain ⟨x, rfl, hx, rfl⟩ := h; simp [decode, decodeBytes_len hx]
  | date => obtain ⟨i, rfl, hi, rfl⟩ := h; simp [decode, zagI32_long hi]
  | timeMillis => obtain ⟨i, rfl, hi, rfl⟩ := h; simp [decode, zagI32_long hi]
  | timeMicros => obtain ⟨i, rfl, hi, rfl⟩ := h; simp [decode, zagI64_long hi]
  | timestampMillis => obtain ⟨i, rfl, hi, rfl⟩ := h; simp [decode, zagI64_long hi]
  | timestampMicros => obtain ⟨i, rfl, hi, rfl⟩ := h; simp [decode, zagI64_long hi]
  | timestampNanos => obtain ⟨i, rfl, hi, rfl⟩ := h; simp [decode, zagI64_long hi]
  | localTimestampMillis => obtain ⟨i, rfl, hi, rfl⟩ := h; simp [decode, zagI64_long hi]
  | localTimestampMicros => obtain ⟨i, rfl, hi, rfl⟩ := h; simp [decode, zagI64_long hi]
  | localTimestampNanos => obtain ⟨i, rfl, hi, rfl⟩ := h; simp [decode, zagI64_long hi]
  | duration => obtain ⟨rfl, hn⟩ := h; rw [decode, take_append' hn]; rfl
  | ref n => exact h.elim
termination_by structural s
theorem decodeVariant_enc (ss : List AvroSchema) (k : Nat) (v : AvroValue) (b rest : Bytes)
    (h : EncVariant ss k v b) : decodeVariant ss k (b ++ rest) = .ok v rest := by
  match ss with
  | [] => exact h.elim
  | s :: ss =>
    cases k with
    | zero => exact decode_enc s v b rest h
    | succ k => exact decodeVariant_enc ss k v b rest h
termination_by structural ss
theorem decodeFields_enc (fs : List (Str × AvroSchema)) (vs : List (Str × AvroValue))
    (b rest : Bytes) (h : EncFields fs vs b) : decodeFields fs (b ++ rest) = .ok vs rest := by
  match fs with
  | [] => obtain ⟨rfl, rfl⟩ := h; rfl
  | (n, s) :: fs =>
    obtain ⟨v, ws, c, d, rfl, h1, h2, rfl⟩ := h
    rw [decodeFields, List.append_assoc, decode_enc s v c (d ++ rest) h1]
    simp only [Out.ok_bind]
    rw [decodeFields_enc fs ws d rest h2]
    rfl
termination_by structural fs
end

end Avro
end Hudi
