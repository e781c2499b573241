import Verif.Base.Str

/-!
# UTF-8

Rust's `str::as_bytes` and `str::from_utf8` (std).
-/

namespace Hudi

/-- The UTF-8 bytes of one character. -/
def utf8Char (c : Char) : List UInt8 :=
  let n := c.toNat
  if n < 128 then [.ofNat n]
  else if n < 2048 then [.ofNat (192 + n / 64), .ofNat (128 + n % 64)]
  else if n < 65536 then
    [.ofNat (224 + n / 4096), .ofNat (128 + n / 64 % 64), .ofNat (128 + n % 64)]
  else
    [.ofNat (240 + n / 262144), .ofNat (128 + n / 4096 % 64), .ofNat (128 + n / 64 % 64),
     .ofNat (128 + n % 64)]

/-- `str::as_bytes` (std). -/
def utf8Encode (s : Str) : List UInt8 := s.flatMap utf8Char

/-- Is the byte a continuation byte? -/
def isCont (b : UInt8) : Bool := 128 ≤ b.toNat && b.toNat < 192

/-- The character with the given code point, if there is one. -/
def charOfNat? (n : Nat) : Option Char := if h : n.isValidChar then some (Char.ofNatAux n h) else none

/-- `str::from_utf8` (std): overlong forms, surrogates and stray continuation bytes are rejected. -/
def utf8Decode : List UInt8 → Option Str
  | [] => some []
  | a :: r1 =>
    if a.toNat < 128 then do
      let c ← charOfNat? a.toNat
      return c :: (← utf8Decode r1)
    else if a.toNat < 192 then none
    else if a.toNat < 224 then
      match r1 with
      | b :: r2 =>
        let n := a.toNat % 32 * 64 + b.toNat % 64
        if isCont b = true ∧ 128 ≤ n then do
          let c ← charOfNat? n
          return c :: (← utf8Decode r2)
        else none
      | [] => none
    else if a.toNat < 240 then
      match r1 with
      | b :: c :: r2 =>
        let n := a.toNat % 16 * 4096 + b.toNat % 64 * 64 + c.toNat % 64
        if isCont b = true ∧ isCont c = true ∧ 2048 ≤ n then do
          let c ← charOfNat? n
          return c :: (← utf8Decode r2)
        else none
      | _ => none
    else if a.toNat < 248 then
      match r1 with
      | b :: c :: d :: r2 =>
        let n := a.toNat % 8 * 262144 + b.toNat % 64 * 4096 + c.toNat % 64 * 64 + d.toNat % 64
        if isCont b = true ∧ isCont c = true ∧ isCont d = true ∧ 65536 ≤ n then do
          let c ← charOfNat? n
          return c :: (← utf8Decode r2)
        else none
      | _ => none
    else none

/-- The value of a hexadecimal digit. -/
def hexVal (b : UInt8) : Option Nat :=
  let n := b.toNat
  if 48 ≤ n ∧ n ≤ 57 then some (n - 48)
  else if 65 ≤ n ∧ n ≤ 70 then some (n - 55)
  else if 97 ≤ n ∧ n ≤ 102 then some (n - 87)
  else none

/-- `percent_encoding::percent_decode` (percent-encoding crate): a `%` followed by two hexadecimal
digits is the byte they denote, any other `%` stands for itself. -/
def percentDecode : List UInt8 → List UInt8
  | a :: h :: l :: r =>
    if a.toNat = 37 then
      match hexVal h, hexVal l with
      | some x, some y => .ofNat (16 * x + y) :: percentDecode r
      | _, _ => a :: percentDecode (h :: l :: r)
    else a :: percentDecode (h :: l :: r)
  | r => r

end Hudi
