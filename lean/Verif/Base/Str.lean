/-!
# Strings

A Rust `String` / `&str` is modelled by the list of its characters.  Rust compares strings
bytewise; on UTF-8 this coincides with comparing the code points lexicographically, which is what
`compare` does on `List Char`.
-/

namespace Hudi

/-- A Rust string: the list of its characters. -/
abbrev Str := List Char

/-- `c!"abc"` is the literal `['a', 'b', 'c']`. -/
macro:max "c!" s:str : term => do
  let cs := s.getString.toList.map (fun c => Lean.Syntax.mkCharLit c)
  let arr : Lean.TSyntaxArray `term := (cs.map (fun c => (⟨c.raw⟩ : Lean.TSyntax `term))).toArray
  `(([$arr,*] : Str))

/-- Rust's `str::split_once(char)` (std): split at the first occurrence. -/
def splitOnce (c : Char) : Str → Option (Str × Str)
  | [] => none
  | x :: xs =>
    if x = c then some ([], xs)
    else match splitOnce c xs with
      | some (a, b) => some (x :: a, b)
      | none => none

/-- Rust's `str::rsplit_once(char)` (std): split at the last occurrence. -/
def rsplitOnce (c : Char) : Str → Option (Str × Str)
  | [] => none
  | x :: xs =>
    match rsplitOnce c xs with
    | some (a, b) => some (x :: a, b)
    | none => if x = c then some ([], xs) else none

/-- Rust's `str::split(char)` (std), collected: always at least one part. -/
def splitAll (c : Char) : Str → List Str
  | [] => [[]]
  | x :: xs =>
    if x = c then [] :: splitAll c xs
    else match splitAll c xs with
      | [] => [[x]]
      | p :: ps => (x :: p) :: ps

/-- Join parts with a separator. -/
def joinWith (c : Char) : List Str → Str
  | [] => []
  | [p] => p
  | p :: q :: ps => p ++ c :: joinWith c (q :: ps)

/-- Rust's `str::len` (std): the number of UTF-8 bytes. -/
def byteLen : Str → Nat
  | [] => 0
  | c :: cs => c.utf8Size + byteLen cs

/-- Rust's byte slicing `(&s[..n], &s[n..])` (std); `none` is the panic for an index past the end
or not on a character boundary. -/
def splitAtByte : Nat → Str → Option (Str × Str)
  | 0, s => some ([], s)
  | _ + 1, [] => none
  | n + 1, c :: cs =>
    if c.utf8Size ≤ n + 1 then
      match splitAtByte (n + 1 - c.utf8Size) cs with
      | some (a, b) => some (c :: a, b)
      | none => none
    else none

/-- Rust's `str::starts_with(&str)` (std). -/
def startsWith (p s : Str) : Bool := p.isPrefixOf s

/-- Rust's `str::ends_with(&str)` (std). -/
def endsWith (p s : Str) : Bool := p.isSuffixOf s

/-- The Unicode `White_Space` property, as used by Rust's `str::trim` family (std). -/
def isWs (c : Char) : Bool :=
  let n := c.toNat
  (9 ≤ n && n ≤ 13) || n == 32 || n == 0x85 || n == 0xA0 || n == 0x1680
    || (0x2000 ≤ n && n ≤ 0x200A) || n == 0x2028 || n == 0x2029 || n == 0x202F
    || n == 0x205F || n == 0x3000

/-- Rust's `str::trim_start` (std). -/
def trimStart (s : Str) : Str := s.dropWhile isWs

/-- Rust's `str::trim_end` (std). -/
def trimEnd (s : Str) : Str := (s.reverse.dropWhile isWs).reverse

/-- Rust's `str::trim` (std). -/
def trim (s : Str) : Str := trimEnd (trimStart s)

/-- An ASCII decimal digit. -/
def isDigit (c : Char) : Bool := 48 ≤ c.toNat && c.toNat ≤ 57

/-- The value of an ASCII digit character. -/
def digitVal (c : Char) : Nat := c.toNat - 48

/-- The number denoted by a list of decimal digits, most significant first. -/
def natOfDigits (s : Str) : Nat := s.foldl (fun acc c => acc * 10 + digitVal c) 0

/-- Drop a leading `+`. -/
def stripPlus : Str → Str
  | '+' :: rest => rest
  | s => s

/-- Rust's `u32::from_str` / `usize::from_str` (std) with a given upper bound: an optional leading
`+`, at least one digit, nothing else, no overflow. -/
def parseUnsigned (bound : Nat) (s : Str) : Option Nat :=
  let t := stripPlus s
  if t ≠ [] ∧ t.all isDigit = true then
    if natOfDigits t < bound then some (natOfDigits t) else none
  else none

/-- `u32::MAX + 1`. -/
abbrev u32Bound : Nat := 4294967296

/-- Rust's `str::to_ascii_lowercase` (std) on one character. -/
def lowerChar (c : Char) : Char :=
  if 65 ≤ c.toNat ∧ c.toNat ≤ 90 then Char.ofNat (c.toNat + 32) else c

/-- Rust's `str::to_ascii_lowercase` (std). -/
def lower (s : Str) : Str := s.map lowerChar

end Hudi
