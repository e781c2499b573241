import Verif.Base.Str
import Verif.Base.Res

/-!
# Timestamps

Models `Instant::parse_datetime` and what it uses of the `chrono` crate
(crates/core/src/timeline/instant.rs:160-190).
-/

namespace Hudi

/-- A chrono `NaiveDateTime` / `DateTime<Utc>`: whole seconds since 1970-01-01T00:00:00 and the
nanosecond fraction.  chrono represents a leap second (`:60`) as second 59 with a fraction of at
least 10^9; this is kept. Used at crates/core/src/timeline/instant.rs:165-190. -/
structure DateTime where
  secs : Int
  nanos : Nat
  deriving DecidableEq, Repr

/-- chrono's order on `DateTime<Utc>`: date, second of day, then fraction.
Used at crates/core/src/timeline/selector.rs:108-126. -/
def DateTime.cmp (a b : DateTime) : Ordering :=
  (compare a.secs b.secs).then (compare a.nanos b.nanos)

/-- `a < b` in chrono's order. Used at crates/core/src/timeline/selector.rs:108-126. -/
def DateTime.lt (a b : DateTime) : Bool := a.cmp b == .lt

/-- `a <= b` in chrono's order. Used at crates/core/src/timeline/selector.rs:108-126. -/
def DateTime.le (a b : DateTime) : Bool := (a.cmp b).isLE

/-- chrono's `DateTime::timestamp_millis`.
Used at crates/core/src/timeline/instant.rs:146. -/
def DateTime.epochMillis (d : DateTime) : Int := d.secs * 1000 + (d.nanos / 1000000 : Nat)

/-- Gregorian leap years. Used at crates/core/src/timeline/instant.rs:166. -/
def isLeap (y : Int) : Bool := (y % 4 == 0 && y % 100 != 0) || y % 400 == 0

/-- Days of the months before month `m` in a common year.
Used at crates/core/src/timeline/instant.rs:166. -/
def cumDays (m : Nat) : Nat :=
  match m with
  | 1 => 0 | 2 => 31 | 3 => 59 | 4 => 90 | 5 => 120 | 6 => 151
  | 7 => 181 | 8 => 212 | 9 => 243 | 10 => 273 | 11 => 304 | 12 => 334
  | _ => 0

/-- The number of days of a month. Used at crates/core/src/timeline/instant.rs:166. -/
def daysInMonth (y : Int) (m : Nat) : Nat :=
  match m with
  | 1 => 31 | 2 => if isLeap y then 29 else 28 | 3 => 31 | 4 => 30 | 5 => 31 | 6 => 30
  | 7 => 31 | 8 => 31 | 9 => 30 | 10 => 31 | 11 => 30 | 12 => 31
  | _ => 0

/-- Days from 0001-01-01 to the first day of year `y` (proleptic Gregorian calendar).
Used at crates/core/src/timeline/instant.rs:166. -/
def daysBeforeYear (y : Int) : Int :=
  365 * (y - 1) + (y - 1) / 4 - (y - 1) / 100 + (y - 1) / 400

/-- Days from 1970-01-01 to the given date.
Used at crates/core/src/timeline/instant.rs:166. -/
def daysFromCivil (y : Int) (m d : Nat) : Int :=
  daysBeforeYear y + (cumDays m : Int) + (if 2 < m ∧ isLeap y = true then 1 else 0)
    + (d : Int) - 1 - 719162

/-- chrono's `format::scan::number(s, 1, max)`: between one and `max` ASCII digits, greedily.
Used at crates/core/src/timeline/instant.rs:166. -/
def scanNumber (max : Nat) (s : Str) : Option (Nat × Str) :=
  let ds := (s.take max).takeWhile isDigit
  if ds = [] then none else some (natOfDigits ds, s.drop ds.length)

/-- chrono's parsing of an unsigned numeric item of width two (`%m %d %H %M %S`): skip white space,
then one or two digits. Used at crates/core/src/timeline/instant.rs:166. -/
def parseTwo (s : Str) : Option (Nat × Str) := scanNumber 2 (trimStart s)

/-- chrono's parsing of `%Y`: skip white space; an explicit sign allows any number of digits,
otherwise at most four.  (With 14 bytes in total the value stays far inside chrono's range of
years, so the range check is not modelled.).
Used at crates/core/src/timeline/instant.rs:166. -/
def parseYear (s : Str) : Option (Int × Str) :=
  match trimStart s with
  | '-' :: t => (scanNumber t.length t).map (fun p => (-(p.1 : Int), p.2))
  | '+' :: t => (scanNumber t.length t).map (fun p => ((p.1 : Int), p.2))
  | t => (scanNumber 4 t).map (fun p => ((p.1 : Int), p.2))

/-- chrono's `Parsed::to_naive_datetime_with_offset(0)` from the six fields: `none` when a field is
out of range; second 60 is a leap second. Used at crates/core/src/timeline/instant.rs:166. -/
def civilToDateTime (y : Int) (mo d h mi s : Nat) : Option DateTime :=
  if 1 ≤ mo ∧ mo ≤ 12 ∧ 1 ≤ d ∧ d ≤ daysInMonth y mo ∧ h ≤ 23 ∧ mi ≤ 59 ∧ s ≤ 60 then
    let s' := if s = 60 then 59 else s
    some {
      secs := daysFromCivil y mo d * 86400 + ((h * 3600 + mi * 60 + s' : Nat) : Int)
      nanos := if s = 60 then 1000000000 else 0 }
  else none

/-- chrono's `NaiveDateTime::parse_from_str(s, "%Y%m%d%H%M%S")`; trailing characters are an
error. Used at crates/core/src/timeline/instant.rs:166. -/
def chronoParse (s : Str) : Option DateTime :=
  match parseYear s with
  | none => none
  | some (y, s) =>
    match parseTwo s with
    | none => none
    | some (mo, s) =>
      match parseTwo s with
      | none => none
      | some (d, s) =>
        match parseTwo s with
        | none => none
        | some (h, s) =>
          match parseTwo s with
          | none => none
          | some (mi, s) =>
            match parseTwo s with
            | none => none
            | some (sec, rest) => if rest = [] then civilToDateTime y mo d h mi sec else none

/-- `Instant::parse_naive_datetime` (crates/core/src/timeline/instant.rs:165-179).  The slice
`&timestamp[..14]` panics when there is no character boundary at byte 14.  Milliseconds are read
only when the length is exactly 17 bytes; any other tail is ignored.  `with_nanosecond` replaces
the fraction, so a leap second followed by milliseconds becomes second 59; three bytes are at most
999, so `with_nanosecond` never fails. -/
def parseNaive (ts : Str) : Res DateTime :=
  match splitAtByte 14 ts with
  | none => .panic
  | some (head, tail) =>
    match chronoParse head with
    | none => .err .timeline
    | some dt =>
      if byteLen ts = 17 then
        match parseUnsigned u32Bound tail with
        | none => .err .timeline
        | some ms => .ok { dt with nanos := ms * 1000000 }
      else .ok dt

/-- `TimelineTimezoneValue` (crates/core/src/config/table.rs:315-322). -/
inductive Tz | utc | loc
  deriving DecidableEq, Repr

/-- `TimelineTimezoneValue::from_str` (crates/core/src/config/table.rs:330-340). -/
def Tz.fromStr (s : Str) : Res Tz :=
  if lower s = c!"utc" then .ok .utc
  else if lower s = c!"local" then .ok .loc
  else .err .config

/-- `TimelineTimezoneValue::as_ref` (crates/core/src/config/table.rs:316-322). -/
def Tz.str : Tz → Str
  | .utc => c!"utc"
  | .loc => c!"local"

/-- The process's local time zone: chrono's `Local.from_local_datetime(_).single()`, an arbitrary
partial function (undefined in a gap, ambiguous in an overlap).
Used at crates/core/src/timeline/instant.rs:185. -/
abbrev LocalTz := DateTime → Option DateTime

/-- `Instant::convert_to_timezone` (crates/core/src/timeline/instant.rs:181-190). -/
def convertToTimezone (ltz : LocalTz) (dt : DateTime) (tz : Str) : Res DateTime := do
  match ← Tz.fromStr tz with
  | .utc => .ok dt
  | .loc => Res.ofOption .timeline (ltz dt)

/-- `Instant::parse_datetime` (crates/core/src/timeline/instant.rs:160-163). -/
def parseDatetime (ltz : LocalTz) (ts tz : Str) : Res DateTime := do
  let naive ← parseNaive ts
  convertToTimezone ltz naive tz

end Hudi
