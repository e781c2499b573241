import Verif.Model.Partition

/-!
# Specification: filters and partition paths
-/

namespace Hudi.Spec

/-- The relation an operator token stands for. -/
def rel {α : Type} [LT α] [LE α] (token : Str) (a b : α) : Prop :=
  (token = c!"=" ∧ a = b) ∨ (token = c!"!=" ∧ a ≠ b) ∨ (token = c!"<" ∧ a < b) ∨
  (token = c!"<=" ∧ a ≤ b) ∨ (token = c!">" ∧ b < a) ∨ (token = c!">=" ∧ b ≤ a)

/-- The relation an operator token stands for, in terms of how its operands compare. -/
def relOrd (token : Str) (o : Ordering) : Prop :=
  (token = c!"=" ∧ o = .eq) ∨ (token = c!"!=" ∧ o ≠ .eq) ∨ (token = c!"<" ∧ o = .lt) ∨
  (token = c!"<=" ∧ o ≠ .gt) ∨ (token = c!">" ∧ o = .gt) ∨ (token = c!">=" ∧ o ≠ .lt)

/-- Two values of one type stand in the relation named by the token.  The order is the type's own:
numeric for integers, lexicographic for texts, `false < true`, and whatever order arrow gives the
types that the model leaves open. -/
inductive Related (A : Arrow) (token : Str) : Val → Val → Prop
  | int (a b : Int) : rel token a b → Related A token (.int a) (.int b)
  | str (a b : Str) : rel token a b → Related A token (.str a) (.str b)
  | bool (a b : Bool) : rel token a b → Related A token (.bool a) (.bool b)
  | opq (a b : Str) : relOrd token (A.cmpOther a b) → Related A token (.opq a) (.opq b)

/-- The text of a path segment for a field and a value's text. -/
def segmentText (hive : Bool) (name value : Str) : Str :=
  if hive then name ++ c!"=" ++ value else value

/-- The text reads as the value of the column type.  Texts read as themselves, the usual words for yes and
no and their beginnings as booleans, decimal digits after at most one sign as integers that fit the type;
for the types the model leaves open, what arrow reads. -/
inductive TextReads (A : Arrow) : DType → Str → Val → Prop
  | utf8 (s : Str) : TextReads A .utf8 s (.str s)
  | yes (s : Str) : lower (trim s) ∈ [c!"t", c!"tr", c!"tru", c!"true", c!"y", c!"ye", c!"yes", c!"on", c!"1"] →
      TextReads A .boolean s (.bool true)
  | no (s : Str) : lower (trim s) ∈ [c!"f", c!"fa", c!"fal", c!"fals", c!"false", c!"n", c!"no", c!"of",
      c!"off", c!"0"] → TextReads A .boolean s (.bool false)
  | nat (signed : Bool) (bits : Nat) (s ds : Str) : (s = ds ∨ s = '+' :: ds) → ds ≠ [] →
      (∀ c ∈ ds, isDigit c = true) → natOfDigits ds < (if signed then 2 ^ (bits - 1) else 2 ^ bits) →
      TextReads A (.int signed bits) s (.int (natOfDigits ds))
  | neg (signed : Bool) (bits : Nat) (ds : Str) : ds ≠ [] → (∀ c ∈ ds, isDigit c = true) →
      natOfDigits ds ≤ (if signed then 2 ^ (bits - 1) else 0) →
      TextReads A (.int signed bits) ('-' :: ds) (.int (-natOfDigits ds))
  | other (d s t : Str) : A.castOther d t = some s → TextReads A (.other d) t (.opq s)

/-- The partition path (with url-encoding undone, if the table uses it) is, segment by segment, made
of the texts of the given values for the fields of the schema. -/
def PathReads (A : Arrow) (schema : Schema) (hive url : Bool) (path : Str) (vals : List Val) : Prop :=
  ∃ (plain : Str) (texts : List Str),
    (url = false → plain = path) ∧
    (url = true → utf8Decode (percentDecode (utf8Encode path)) = some plain) ∧
    texts.length = schema.length ∧ vals.length = schema.length ∧ schema ≠ [] ∧
    (∀ t ∈ texts, '/' ∉ t) ∧
    plain = joinWith '/' ((schema.zip texts).map (fun e => segmentText hive e.1.name e.2)) ∧
    ∀ (i : Nat) (f : Field) (t : Str) (v : Val), schema[i]? = some f → texts[i]? = some t →
      vals[i]? = some v → TextReads A f.dtype t v

/-- The values of a partition satisfy a filter: the value of the filter's field stands in the
filter's relation to the filter's value. -/
def Passes (A : Arrow) (schema : Schema) (vals : List Val) (f : Filter) : Prop :=
  ∀ (i : Nat) (fld : Field) (v w : Val), schema[i]? = some fld → fld.name = f.field →
    vals[i]? = some v → TextReads A fld.dtype f.value w → Related A f.op.token v w

/-- A hexadecimal digit, upper case. -/
def hexDigit (n : Nat) : Char := if n < 10 then Char.ofNat (48 + n) else Char.ofNat (55 + n)

/-- Percent-encoding of the characters in a set. -/
def percentEncode (enc : Char → Bool) (s : Str) : Str :=
  s.flatMap (fun c => if enc c then ['%', hexDigit (c.toNat / 16), hexDigit (c.toNat % 16)] else [c])

/-- A set of characters a writer may choose to percent-encode: ASCII only, and including `%`
itself. -/
def Encoder (enc : Char → Bool) : Prop := (∀ c, enc c = true → c.toNat < 128) ∧ enc '%' = true

/-- The path a writer builds for a partition from the texts of the partition's values. -/
def writePath (hive url : Bool) (enc : Char → Bool) (schema : Schema) (texts : List Str) : Str :=
  joinWith '/' ((schema.zip texts).map
    (fun e => segmentText hive e.1.name (if url then percentEncode enc e.2 else e.2)))

/-- Decimal digits of a number. -/
def decimal (n : Nat) : Str :=
  if n < 10 then [Char.ofNat (48 + n)] else decimal (n / 10) ++ [Char.ofNat (48 + n % 10)]
decreasing_by omega

/-- The text a writer uses for a value of a column type: the text itself, decimal digits with a sign
if negative, or `true`/`false`; for the types the model leaves open, a text that arrow reads as the
value. -/
inductive TextOf (A : Arrow) : DType → Val → Str → Prop
  | utf8 (s : Str) : TextOf A .utf8 (.str s) s
  | bool (b : Bool) : TextOf A .boolean (.bool b) (if b then c!"true" else c!"false")
  | nat (signed : Bool) (bits n : Nat) : n < (if signed then 2 ^ (bits - 1) else 2 ^ bits) →
      TextOf A (.int signed bits) (.int n) (decimal n)
  | neg (bits n : Nat) : 0 < n → n ≤ 2 ^ (bits - 1) →
      TextOf A (.int true bits) (.int (-n)) ('-' :: decimal n)
  | other (d s t : Str) : A.castOther d t = some s → TextOf A (.other d) (.opq s) t

end Hudi.Spec
