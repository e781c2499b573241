import Verif.Spec.DataFusion
import Verif.Lemmas.Store
import Verif.Lemmas.LeafDirs
import Verif.Lemmas.Utf8
import Mathlib.Tactic.Common

/-! Lemmas about url and object paths. -/

namespace Hudi
open Spec

theorem hexVal_hexUpper {n : Nat} (h : n < 16) :
    (hexUpper n).toNat < 128 ∧ hexVal (UInt8.ofNat (hexUpper n).toNat) = some n := by
  have : ∀ m : Fin 16, (hexUpper m).toNat < 128 ∧
      hexVal (UInt8.ofNat (hexUpper m).toNat) = some m.val := by decide
  exact this ⟨n, h⟩

theorem percentDecode_byte (b : UInt8) (r : List UInt8) :
    percentDecode (utf8Encode ['%', hexUpper (b.toNat / 16), hexUpper (b.toNat % 16)] ++ r) =
      b :: percentDecode r := by
  have hb := b.toNat_lt
  obtain ⟨a1, a2⟩ := hexVal_hexUpper (show b.toNat / 16 < 16 by omega)
  obtain ⟨b1, b2⟩ := hexVal_hexUpper (show b.toNat % 16 < 16 by omega)
  simp only [utf8Encode, List.flatMap_cons, List.flatMap_nil, utf8Char_ascii a1, utf8Char_ascii b1,
    List.append_nil, List.nil_append, List.cons_append,
    utf8Char_ascii (show '%'.toNat < 128 by decide)]
  rw [percentDecode, if_pos (by decide)]
  rw [a2, b2]
  simp only
  congr 1
  have : 16 * (b.toNat / 16) + b.toNat % 16 = b.toNat := by omega
  rw [this]
  exact ofNat_toNat_eq rfl

theorem percentDecode_bytes (bs : List UInt8) (r : List UInt8) :
    percentDecode (utf8Encode (bs.flatMap (fun b =>
      ['%', hexUpper (b.toNat / 16), hexUpper (b.toNat % 16)])) ++ r) = bs ++ percentDecode r := by
  induction bs with
  | nil => rfl
  | cons b bs ih =>
    rw [List.flatMap_cons, utf8Encode_append, List.append_assoc, percentDecode_byte, ih]
    rfl

/-- Decoding undoes the encoding, for every text. -/
theorem percentDecode_pctEncode {enc : Char → Bool} (he : enc '%' = true) (s : Str) (r : List UInt8) :
    percentDecode (utf8Encode (pctEncode enc s) ++ r) = utf8Encode s ++ percentDecode r := by
  induction s with
  | nil => rfl
  | cons c s ih =>
    have hcons : pctEncode enc (c :: s) = (if enc c then
        (utf8Char c).flatMap (fun b => ['%', hexUpper (b.toNat / 16), hexUpper (b.toNat % 16)])
        else [c]) ++ pctEncode enc s := by simp [pctEncode]
    rw [hcons, utf8Encode_append, List.append_assoc]
    cases hc : enc c with
    | true =>
      rw [if_pos rfl, percentDecode_bytes, ih, utf8Encode_cons, List.append_assoc]
    | false =>
      have hp : '%' ∉ [c] := by
        intro hm
        have : '%' = c := by simpa using hm
        rw [← this, he] at hc; cases hc
      rw [if_neg (by simp), percentDecode_plain hp, ih, utf8Encode_cons]
      simp [utf8Encode]

/-- A slash is not part of an escape. -/
theorem percentDecode_slash (l r : List UInt8) :
    percentDecode (l ++ 47 :: r) = percentDecode l ++ 47 :: percentDecode r := by
  have hs : percentDecode (47 :: r) = 47 :: percentDecode r := percentDecode_cons (by decide) r
  fun_induction percentDecode l with
  | case1 a h l t ha x y hx hy ih =>
    rw [List.cons_append, List.cons_append, List.cons_append, percentDecode, if_pos ha, hx, hy]
    simp only
    rw [ih, List.cons_append]
  | case2 a h l t ha hne ih =>
    rw [List.cons_append, List.cons_append, List.cons_append, percentDecode, if_pos ha]
    split
    · rename_i x y hx hy; exact absurd hy (hne x y hx)
    · rw [← List.cons_append, ← List.cons_append, ih]; rfl
  | case3 a h l t ha ih =>
    rw [List.cons_append, List.cons_append, List.cons_append, percentDecode, if_neg ha]
    rw [← List.cons_append, ← List.cons_append, ih]; rfl
  | case4 l hl =>
    match l with
    | [] => exact hs
    | [a] =>
      by_cases ha : a.toNat = 37
      · cases r with
        | nil => simp [percentDecode]
        | cons b r =>
          rw [List.singleton_append, percentDecode, if_pos ha]
          have : hexVal 47 = none := by decide
          rw [this]
          simp only
          rw [hs]; rfl
      · rw [List.singleton_append, percentDecode_cons ha, hs]; rfl
    | [a, b] =>
      have h47 : hexVal 47 = none := by decide
      have key : percentDecode (b :: 47 :: r) = b :: 47 :: percentDecode r := by
        by_cases hb : b.toNat = 37
        · cases r with
          | nil => simp [percentDecode]
          | cons x r =>
            rw [percentDecode, if_pos hb, h47]
            simp only
            rw [hs]
        · rw [percentDecode_cons hb, hs]
      by_cases ha : a.toNat = 37
      · rw [List.cons_append, List.singleton_append, percentDecode, if_pos ha, h47]
        split
        · rename_i h; cases h
        · rw [key]; rfl
      · rw [List.cons_append, List.singleton_append, percentDecode_cons ha, key]; rfl
    | a :: b :: c :: t => exact absurd rfl (hl a b c t)

theorem utf8Encode_slash (s : Str) : utf8Encode ('/' :: s) = 47 :: utf8Encode s := by
  rw [utf8Encode_cons]; rfl

theorem joinWith_cons {c : Char} {a : Str} {as : List Str} :
    c :: joinWith c (a :: as) = (a :: as).flatMap (fun s => c :: s) := by
  induction as generalizing a with
  | nil => simp [joinWith]
  | cons b bs ih =>
    rw [joinWith, List.flatMap_cons, ← ih]
    rfl

theorem slash_join {ns : List Str} (h : ns ≠ []) :
    '/' :: joinWith '/' ns = ns.flatMap (fun s => '/' :: s) := by
  cases ns with
  | nil => exact absurd rfl h
  | cons a as => exact joinWith_cons

/-- Joining a relative path made of normal names. -/
theorem urlJoin_normal {base : Str} {ns : List Str} (hne : ns ≠ []) (h : ∀ n ∈ ns, NormalName n) :
    urlJoin base (joinWith '/' ns) =
      (if base.getLast? = some '/' then base.dropLast else base) ++
        ns.flatMap (fun s => '/' :: pctEncode urlEncodes s) := by
  unfold urlJoin
  rw [splitAll_joinWith hne (fun p hp => (h p hp).2.1), map_urlSegment h, List.filter_eq_self.2]
  intro s hs
  have := h s hs
  simp [this.1, this.2.2.1, this.2.2.2.1]

theorem percentDecode_flat (l : List UInt8) (ns : List Str) :
    percentDecode (l ++ utf8Encode (ns.flatMap (fun s => '/' :: pctEncode urlEncodes s))) =
      percentDecode l ++ utf8Encode (ns.flatMap (fun s => '/' :: s)) := by
  induction ns generalizing l with
  | nil => simp [utf8Encode]
  | cons n ns ih =>
    rw [List.flatMap_cons, List.flatMap_cons, utf8Encode_append, utf8Encode_append,
      utf8Encode_slash, utf8Encode_slash, List.cons_append, percentDecode_slash,
      percentDecode_pctEncode (by decide)]
    have := ih []
    simp only [List.nil_append] at this
    rw [this]
    have : percentDecode [] = [] := by simp [percentDecode]
    rw [this]
    simp

theorem joinWith_getLast {ns : List Str} (hn : ns ≠ []) (h : ∀ n ∈ ns, NormalName n) :
    (joinWith '/' ns).getLast? ≠ some '/' := by
  induction ns with
  | nil => exact absurd rfl hn
  | cons a as ih =>
    cases as with
    | nil =>
      intro hc
      exact (h a (by simp)).2.1 (List.mem_of_getLast? hc)
    | cons b bs =>
      have := ih (by simp) (fun n hn => h n (by simp [hn]))
      intro hc
      apply this
      have e : joinWith '/' (a :: b :: bs) = (a ++ ['/']) ++ joinWith '/' (b :: bs) := by
        simp [joinWith]
      rw [e, List.getLast?_append] at hc
      cases hx : (joinWith '/' (b :: bs)).getLast? with
      | some y => rw [hx] at hc; exact hc
      | none =>
        have := List.getLast?_eq_none_iff.1 hx
        have hb := (h b (by simp)).1
        cases bs <;> simp [joinWith, hb] at this

theorem objPathParse_normal {ns : List Str} (hne : ns ≠ []) (h : ∀ n ∈ ns, NormalName n) :
    objPathParse ('/' :: joinWith '/' ns) = .ok (joinWith '/' ns) := by
  have hj : joinWith '/' ns ≠ [] := by
    cases ns with
    | nil => exact absurd rfl hne
    | cons a as =>
      have := (h a (by simp)).1
      cases as <;> simp [joinWith, this]
  have hl := joinWith_getLast hne h
  unfold objPathParse
  simp only [List.head?_cons, if_true, List.drop_succ_cons, List.drop_zero, hj, if_false, hl]
  rw [if_neg]
  rw [splitAll_joinWith hne (fun p hp => (h p hp).2.1), List.any_eq_true]
  rintro ⟨p, hp, hx⟩
  obtain ⟨h1, _, h3, h4, h5⟩ := h p hp
  simp only [h1, h3, h4, false_or, decide_eq_true_eq, List.any_eq_true] at hx
  obtain ⟨c, hc, hx⟩ := hx
  have := h5 c hc
  unfold isControl at hx
  simp at hx
  omega

end Hudi
