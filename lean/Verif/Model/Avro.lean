import Verif.Model.Log

/-!
# Avro data

The Avro schemas, values and decoder of the `apache_avro` crate (version 0.17) that
crates/core/src/file_group/log_file/avro.rs:60 calls as `from_avro_datum(schema, reader, None)`.
A reader is the list of bytes not yet read.
-/

namespace Hudi

/-- `apache_avro::Schema` after parsing: names of named types, aliases, defaults, sort orders and the
documentation of types are left out.  `docs` holds the documentation of the fields of a record, by
position.  A decimal is stored as bytes (`none`) or as a fixed of some size.
Used at crates/core/src/file_group/log_file/content.rs:69. -/
inductive AvroSchema
  | null | boolean | int | long | float | double | bytes | string
  | array (items : AvroSchema)
  | map (values : AvroSchema)
  | union (variants : List AvroSchema)
  | record (fields : List (Str × AvroSchema)) (docs : List (Option Str) := [])
  | enum (symbols : List Str)
  | fixed (size : Nat)
  | decimal (fixedSize : Option Nat) (precision scale : Nat)
  | bigDecimal | uuid | date | timeMillis | timeMicros
  | timestampMillis | timestampMicros | timestampNanos
  | localTimestampMillis | localTimestampMicros | localTimestampNanos
  | duration
  | ref (name : Str)

/-- `apache_avro::types::Value`.  Floating-point numbers are given by their bits; big decimals, UUIDs
and durations by the bytes they were decoded from; a map by its entries in the order read.
Used at crates/core/src/file_group/log_file/avro.rs:46-62. -/
inductive AvroValue
  | null
  | boolean (b : Bool)
  | int (i : Int) | long (i : Int)
  | float (bits : Nat) | double (bits : Nat)
  | bytes (b : Bytes) | string (s : Str)
  | fixed (size : Nat) (b : Bytes)
  | enum (index : Nat) (symbol : Str)
  | union (index : Nat) (v : AvroValue)
  | array (vs : List AvroValue)
  | map (kvs : List (Str × AvroValue))
  | record (fields : List (Str × AvroValue))
  | date (i : Int) | timeMillis (i : Int) | timeMicros (i : Int)
  | timestampMillis (i : Int) | timestampMicros (i : Int) | timestampNanos (i : Int)
  | localTimestampMillis (i : Int) | localTimestampMicros (i : Int) | localTimestampNanos (i : Int)
  | decimal (b : Bytes) | bigDecimal (b : Bytes) | uuid (b : Bytes) | duration (b : Bytes)

namespace Avro

/-- The outcome of reading from a stream: a value, the end of the stream, or another failure.  Three
places of the decoder treat the end of the stream specially.  When the end is met, everything has been
read. Used at crates/core/src/file_group/log_file/avro.rs:60. -/
inductive Out (α : Type)
  | ok (a : α) (rest : Bytes)
  | eof
  | bad

/-- `?`. Used at crates/core/src/file_group/log_file/avro.rs:60. -/
def Out.bind {α β : Type} (r : Out α) (f : α → Bytes → Out β) : Out β :=
  match r with
  | .ok a rest => f a rest
  | .eof => .eof
  | .bad => .bad

/-- `Read::read_exact` (std): when fewer bytes are left they are read nonetheless.
Used at crates/core/src/file_group/log_file/avro.rs:60. -/
def take (n : Nat) (b : Bytes) : Out Bytes :=
  if n ≤ b.length then .ok (b.take n) (b.drop n) else .eof

/-- The loop of `decode_variable` (apache_avro util.rs): little-endian groups of seven bits, at most
ten of them; `j` groups have been read with value `i`.  The number is a `u64`: bits shifted out are
lost. Used at crates/core/src/file_group/log_file/avro.rs:60. -/
def varint : Nat → Nat → Nat → Bytes → Out Nat
  | 0, _, _, _ => .bad
  | _ + 1, _, _, [] => .eof
  | fuel + 1, j, i, x :: b =>
    let i' := (i + (x.toNat % 128) * 2 ^ (7 * j)) % 2 ^ 64
    if x.toNat < 128 then .ok i' b else varint fuel (j + 1) i' b

/-- `zag_i64` (apache_avro util.rs): zigzag.
Used at crates/core/src/file_group/log_file/avro.rs:60. -/
def zagI64 (b : Bytes) : Out Int :=
  (varint 10 0 0 b).bind fun z rest =>
    .ok (if z % 2 = 0 then (z / 2 : Int) else -((z / 2 : Int) + 1)) rest

/-- `zag_i32` (apache_avro util.rs).
Used at crates/core/src/file_group/log_file/avro.rs:60. -/
def zagI32 (b : Bytes) : Out Int :=
  (zagI64 b).bind fun i rest => if -2147483648 ≤ i ∧ i < 2147483648 then .ok i rest else .bad

/-- `MAX_ALLOCATION_BYTES` (apache_avro util.rs).
Used at crates/core/src/file_group/log_file/avro.rs:60. -/
def maxAllocation : Nat := 536870912

/-- `decode_len` (apache_avro decode.rs): a length that is not negative and not above the limit.
Used at crates/core/src/file_group/log_file/avro.rs:60. -/
def decodeLen (b : Bytes) : Out Nat :=
  (zagI64 b).bind fun i rest =>
    if 0 ≤ i ∧ i.toNat ≤ maxAllocation then .ok i.toNat rest else .bad

/-- `decode_seq_len` (apache_avro decode.rs): a negative count is followed by the size of the block in
bytes, which is ignored. Used at crates/core/src/file_group/log_file/avro.rs:60. -/
def decodeSeqLen (b : Bytes) : Out Nat :=
  (zagI64 b).bind fun i rest =>
    if i = 0 then .ok 0 rest
    else if 0 < i then if i.toNat ≤ maxAllocation then .ok i.toNat rest else .bad
    else (zagI64 rest).bind fun _ rest' =>
      if i = -9223372036854775808 then .bad
      else if (-i).toNat ≤ maxAllocation then .ok (-i).toNat rest' else .bad

/-- Repeating a decoder. Used at crates/core/src/file_group/log_file/avro.rs:60. -/
def times {α : Type} (d : Bytes → Out α) : Nat → Bytes → Out (List α)
  | 0, b => .ok [] b
  | n + 1, b => (d b).bind fun v rest => (times d n rest).bind fun vs rest' => .ok (v :: vs) rest'

/-- The blocks of an array or a map, up to the block of length zero.  Every block takes at least one
byte, so the fuel (one more than the number of bytes) is never used up.
Used at crates/core/src/file_group/log_file/avro.rs:60. -/
def blocks {α : Type} (d : Bytes → Out α) : Nat → Bytes → Out (List α)
  | 0, _ => .bad
  | fuel + 1, b => (decodeSeqLen b).bind fun n rest =>
    if n = 0 then .ok [] rest
    else (times d n rest).bind fun vs rest' =>
      (blocks d fuel rest').bind fun ws rest'' => .ok (vs ++ ws) rest''

/-- The end of the stream stands for a value (in three places of `decode_internal`).
Used at crates/core/src/file_group/log_file/avro.rs:60. -/
def Out.orEof {α : Type} (r : Out α) (a : α) : Out α :=
  match r with
  | .eof => .ok a []
  | r => r

/-- Little-endian number. Used at crates/core/src/file_group/log_file/avro.rs:60. -/
def leNat : Bytes → Nat
  | [] => 0
  | x :: l => x.toNat + 256 * leNat l

/-- A string of a given length: when the stream ends first, the value is `Null`.
Used at crates/core/src/file_group/log_file/avro.rs:60. -/
def readString (n : Nat) (b : Bytes) : Out AvroValue :=
  match take n b with
  | .ok s rest => match utf8Decode s with
    | some t => .ok (.string t) rest
    | none => .bad
  | .eof => .ok .null []
  | .bad => .bad

/-- `Schema::String` of `decode_internal` (apache_avro decode.rs).
Used at crates/core/src/file_group/log_file/avro.rs:60. -/
def decodeString (b : Bytes) : Out AvroValue := (decodeLen b).bind readString

/-- `Schema::Bytes` of `decode_internal` (apache_avro decode.rs).
Used at crates/core/src/file_group/log_file/avro.rs:60. -/
def decodeBytes (b : Bytes) : Out Bytes := (decodeLen b).bind take

/-- An entry of a map: a string key and a value (apache_avro decode.rs).
Used at crates/core/src/file_group/log_file/avro.rs:60. -/
def decodeEntry (d : Bytes → Out AvroValue) (b : Bytes) : Out (Str × AvroValue) :=
  (decodeString b).bind fun k rest =>
    match k with
    | .string s => (d rest).bind fun v rest' => .ok (s, v) rest'
    | _ => .bad

mutual
/-- `decode_internal` (apache_avro decode.rs).  Simplifications: the text of a UUID is not checked and
a big decimal is not taken apart (neither can be converted to Arrow); references to named types are
not followed (a schema with one is refused before anything is decoded,
crates/core/src/avro_to_arrow/schema.rs:64). -/
def decode : AvroSchema → Bytes → Out AvroValue
  | .null, b => .ok .null b
  | .boolean, b =>
    ((take 1 b).bind fun x rest =>
      if x = [0] then .ok (.boolean false) rest
      else if x = [1] then .ok (.boolean true) rest
      else .bad).orEof .null
  | .int, b => (zagI32 b).bind fun i rest => .ok (.int i) rest
  | .long, b => (zagI64 b).bind fun i rest => .ok (.long i) rest
  | .float, b => (take 4 b).bind fun x rest => .ok (.float (leNat x)) rest
  | .double, b => (take 8 b).bind fun x rest => .ok (.double (leNat x)) rest
  | .bytes, b => (decodeBytes b).bind fun x rest => .ok (.bytes x) rest
  | .string, b => decodeString b
  | .array items, b => (blocks (decode items) (b.length + 1) b).bind fun vs rest => .ok (.array vs) rest
  | .map values, b =>
    (blocks (decodeEntry (decode values)) (b.length + 1) b).bind fun vs rest => .ok (.map vs) rest
  | .union variants, b =>
    match zagI64 b with
    | .ok i rest =>
      if i < 0 then .bad
      else (decodeVariant variants i.toNat rest).bind fun v rest' => .ok (.union i.toNat v) rest'
    | .eof => .ok (.union 0 .null) []
    | .bad => .bad
  | .record fields _, b => (decodeFields fields b).bind fun vs rest => .ok (.record vs) rest
  | .enum symbols, b =>
    (zagI32 b).bind fun i rest =>
      if i < 0 then .bad
      else match symbols[i.toNat]? with
        | some s => .ok (.enum i.toNat s) rest
        | none => .bad
  | .fixed n, b => (take n b).bind fun x rest => .ok (.fixed n x) rest
  | .decimal none _ _, b => (decodeBytes b).bind fun x rest => .ok (.decimal x) rest
  | .decimal (some n) _ _, b => (take n b).bind fun x rest => .ok (.decimal x) rest
  | .bigDecimal, b => (decodeBytes b).bind fun x rest => .ok (.bigDecimal x) rest
  | .uuid, b => (decodeBytes b).bind fun x rest => .ok (.uuid x) rest
  | .date, b => (zagI32 b).bind fun i rest => .ok (.date i) rest
  | .timeMillis, b => (zagI32 b).bind fun i rest => .ok (.timeMillis i) rest
  | .timeMicros, b => (zagI64 b).bind fun i rest => .ok (.timeMicros i) rest
  | .timestampMillis, b => (zagI64 b).bind fun i rest => .ok (.timestampMillis i) rest
  | .timestampMicros, b => (zagI64 b).bind fun i rest => .ok (.timestampMicros i) rest
  | .timestampNanos, b => (zagI64 b).bind fun i rest => .ok (.timestampNanos i) rest
  | .localTimestampMillis, b => (zagI64 b).bind fun i rest => .ok (.localTimestampMillis i) rest
  | .localTimestampMicros, b => (zagI64 b).bind fun i rest => .ok (.localTimestampMicros i) rest
  | .localTimestampNanos, b => (zagI64 b).bind fun i rest => .ok (.localTimestampNanos i) rest
  | .duration, b => (take 12 b).bind fun x rest => .ok (.duration x) rest
  | .ref _, _ => .bad
/-- The variant of a union with an index (apache_avro decode.rs).
Used at crates/core/src/file_group/log_file/avro.rs:60. -/
def decodeVariant : List AvroSchema → Nat → Bytes → Out AvroValue
  | [], _, _ => .bad
  | s :: _, 0, b => decode s b
  | _ :: ss, n + 1, b => decodeVariant ss n b
/-- The fields of a record in order (apache_avro decode.rs).
Used at crates/core/src/file_group/log_file/avro.rs:60. -/
def decodeFields : List (Str × AvroSchema) → Bytes → Out (List (Str × AvroValue))
  | [], b => .ok [] b
  | (n, s) :: fs, b => (decode s b).bind fun v rest =>
    (decodeFields fs rest).bind fun vs rest' => .ok ((n, v) :: vs) rest'
end

/-- `from_avro_datum(schema, reader, None)` (apache_avro reader.rs) with the number of bytes read.
Used at crates/core/src/file_group/log_file/avro.rs:60. -/
def datum (s : AvroSchema) (b : Bytes) : Res (AvroValue × Nat) :=
  match decode s b with
  | .ok v rest => .ok (v, b.length - rest.length)
  | .eof => .err .avro
  | .bad => .err .avro

end Avro
end Hudi
