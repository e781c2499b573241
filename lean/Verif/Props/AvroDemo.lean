import Verif.Props.Avro

/-! # Concrete Avro blocks -/

namespace Hudi
open Spec Avro
namespace Demo

/-- Formats in which the text `schema` names a record of a key and an optional name. -/
def formats : Formats where
  parseSchema t :=
    if t = c!"schema" then some (.record [(c!"k", .string), (c!"name", .union [.null, .string])])
    else none
  parquet _ := .err .parquet
  raw _ := []
  typeName _ := c!"other"
  render _ := c!"value"

def personFields : List (Str × AvroSchema) :=
  [(c!"k", .string), (c!"name", .union [.null, .string])]

def ann : AvroValue := .record [(c!"k", .string c!"a"), (c!"name", .union 1 (.string c!"Ann"))]
def bob : AvroValue := .record [(c!"k", .string c!"b"), (c!"name", .union 0 .null)]

/-- An Avro block with two records, in a format version with or without a trailer. -/
def people (v : LogVersion) : WBlock :=
  ⟨v, [(.instantTime, t1), (.schema, c!"schema")],
   .avro [[2, 98, 0], [2, 97, 2, 6, 65, 110, 110]], [], 0, 0⟩

theorem people_wf (v : LogVersion) (hv : v ≠ .v0) : (people v).WF where
  version := hv
  header := by
    change MetaFits [(.instantTime, t1), (.schema, c!"schema")]
    unfold MetaFits; decide
  footer := by intro _; change MetaFits []; unfold MetaFits; decide
  content := by
    change (contentBytes (.avro [[2, 98, 0], [2, 97, 2, 6, 65, 110, 110]])).length < 2 ^ 64
    decide
  records := by intro rs h; cases h; decide
  other := by intro t b h; cases h

theorem longBytes_nat (n : Nat) (h : n < 64) : longBytes (n : Int) = [UInt8.ofNat (2 * n)] := by
  have e : zigzag (n : Int) = 2 * n := by unfold zigzag; simp
  exact longBytes_small (by omega) (by rw [e])

theorem enc_str {s : Str} (h : (utf8Encode s).length < 64) :
    Enc .string (.string s) (UInt8.ofNat (2 * (utf8Encode s).length) :: utf8Encode s) :=
  ⟨s, rfl, by unfold LenOk; omega, by unfold lenBytes; rw [longBytes_nat _ h]; rfl⟩

theorem bob_enc : Enc (.record personFields) bob [2, 98, 0] :=
  ⟨_, rfl, _, _, [2, 98], [0], rfl, enc_str (s := c!"b") (by decide),
    ⟨_, _, [0], [], rfl, ⟨0, .null, [], rfl, by unfold Fits64; decide, ⟨rfl, rfl⟩,
      by rw [longBytes_nat 0 (by decide)]; rfl⟩, ⟨rfl, rfl⟩, rfl⟩, rfl⟩

theorem ann_enc : Enc (.record personFields) ann [2, 97, 2, 6, 65, 110, 110] :=
  ⟨_, rfl, _, _, [2, 97], [2, 6, 65, 110, 110], rfl, enc_str (s := c!"a") (by decide),
    ⟨_, _, [2, 6, 65, 110, 110], [], rfl, ⟨1, .string c!"Ann", [6, 65, 110, 110], rfl,
      by unfold Fits64; decide, enc_str (s := c!"Ann") (by decide),
      by rw [longBytes_nat 1 (by decide)]; rfl⟩, ⟨rfl, rfl⟩, rfl⟩, rfl⟩

theorem person_readable : FaithfulRecord personFields := by
  refine ⟨by simp [personFields], ⟨⟨⟨by decide, by decide⟩, trivial, ⟨by decide, by decide⟩,
    ⟨trivial, trivial, trivial⟩, trivial⟩, by decide⟩, ?_⟩
  simp [FaithfulFields, personFields, Faithful, Place.opt, FaithfulOpt, isNullSchema]

theorem people_block (v : LogVersion) : AvroBlock formats (people v) personFields [bob, ann] where
  content := ⟨_, rfl, .cons bob_enc (.cons ann_enc .nil)⟩
  schema := ⟨c!"schema", _, rfl, rfl⟩

theorem people_selects (v : LogVersion) :
    Selects some c!"utc" upToT3 (fun _ => true) [people v] := by
  intro w hw
  simp only [List.mem_singleton] at hw
  subst hw
  refine ⟨t1, _, rfl, rfl, iff_of_true rfl ⟨(by intro s hs; cases hs), ?_⟩⟩
  intro e he
  cases he
  exact ⟨_, rfl, .inl (.inl (by decide))⟩

/-- The hypotheses of `C57_avro_rows_are_the_records_partial` are met, and this is what is read. -/
example : RangeParses some upToT3 ∧ (∀ w ∈ [people .v1], w.WF ∧ FaithfulRecord personFields ∧
      AvroBlock formats w personFields [bob, ann]) ∧
    Selects some c!"utc" upToT3 (fun _ => true) [people .v1] ∧
    readAllBlocks formats.codec some c!"utc" upToT3 (logBytes [people .v1]) =
      .ok [⟨.v1, .avroData, (people .v1).header,
        [⟨[⟨c!"k", .utf8, false⟩, ⟨c!"name", .utf8, true⟩],
          [[some (.str c!"b"), none], [some (.str c!"a"), some (.str c!"Ann")]]⟩], [], false⟩] := by
  refine ⟨upTo_parses _ ⟨_, rfl⟩, ?_, people_selects _, by decide +kernel⟩
  intro w hw
  simp only [List.mem_singleton] at hw
  subst hw
  exact ⟨people_wf _ (by decide), person_readable, people_block _⟩

end Demo

open Demo in
/-- **C35 as stated is false.**  A well-formed Avro block in a format without a trailer is cut inside
the last string: the file is read without an error, and yields a block in which the name that was being
written is null. -/
theorem C35_false : ∃ (F : Formats) (ltz : LocalTz) (tz : Str) (r : InstantRange) (w : WBlock)
    (p : Bytes) (b : LogBlock) (fs : List (Str × AvroSchema)) (vs : List AvroValue),
    RangeParses ltz r ∧ w.WF ∧ Selects ltz tz r (fun _ => true) [w] ∧ AvroBlock F w fs vs ∧
    FaithfulRecord fs ∧ p <+: logBytes [w] ∧ p ≠ logBytes [w] ∧
    readAllBlocks F.codec ltz tz r p = .ok [b] ∧
    b.batches.map (·.rows) = [[[some (.str c!"b"), none], [some (.str c!"a"), none]]] ∧
    vs.map arrowCell = [some (.struct [some (.str c!"b"), none]),
      some (.struct [some (.str c!"a"), some (.str c!"Ann")])] := by
  refine ⟨formats, some, c!"utc", upToT3, people .v3, (logBytes [people .v3]).dropLast,
    ⟨.v3, .avroData, (people .v3).header,
        [⟨[⟨c!"k", .utf8, false⟩, ⟨c!"name", .utf8, true⟩],
          [[some (.str c!"b"), none], [some (.str c!"a"), none]]⟩], [], false⟩,
    personFields, [bob, ann],
    upTo_parses _ ⟨_, rfl⟩, people_wf _ (by decide), people_selects _, people_block _, person_readable,
    List.dropLast_prefix _, by decide, ?_, rfl, ?_⟩
  · decide +kernel
  · simp [arrowCell, fieldCells, bob, ann]

namespace Demo

/-- An optional list of booleans. -/
def flagFields : List (Str × AvroSchema) := [(c!"flags", .union [.null, .array .boolean])]

/-- An optional list of optional records. -/
def partFields : List (Str × AvroSchema) :=
  [(c!"parts", .union [.null, .array (.union [.null, .record [(c!"n", .int)]])])]

/-- The same with records that are not optional. -/
def itemFields : List (Str × AvroSchema) :=
  [(c!"items", .union [.null, .array (.record [(c!"n", .int)])])]

end Demo

open Demo in
/-- **C57 as stated is false.**  An optional list of booleans: the value `true` is read as `false`.
An optional list of optional records: after a row without a list, the row with the list `[{n: 1}]`
reads as the list `[null]`.  An optional list of records: a row without a list makes reading panic. -/
theorem C57_false :
    (∃ v, HasType (.record flagFields) v ∧
      arrowCell v = some (.struct [some (.list [some (.bool true)])]) ∧
      ∃ fields, toABatch (.record flagFields) [v] = .ok ⟨fields, [[some (.list [some (.bool false)])]]⟩) ∧
    (∃ v w, HasType (.record partFields) v ∧ HasType (.record partFields) w ∧
      arrowCell w = some (.struct [some (.list [some (.struct [some (.int 1)])])]) ∧
      ∃ fields, toABatch (.record partFields) [v, w] = .ok ⟨fields, [[none], [some (.list [none])]]⟩) ∧
    ∃ v w, HasType (.record itemFields) v ∧ HasType (.record itemFields) w ∧
      toABatch (.record itemFields) [v, w] = .panic := by
  have hnull : ∀ n s, HasType (.record [(n, .union [.null, s])])
      (.record [(n, .union 0 .null)]) := fun n s =>
    ⟨_, _, rfl, _, _, _, _, rfl, ⟨0, .null, [], rfl, by unfold Fits64; decide, ⟨rfl, rfl⟩, rfl⟩,
      ⟨rfl, rfl⟩, rfl⟩
  have hsome : ∀ n s v, HasType s v → HasType (.record [(n, .union [.null, s])])
      (.record [(n, .union 1 v)]) := fun n s v ⟨b, h⟩ =>
    ⟨_, _, rfl, _, _, _, _, rfl, ⟨1, v, b, rfl, by unfold Fits64; decide, h, rfl⟩,
      ⟨rfl, rfl⟩, rfl⟩
  have hlist : ∀ s v, HasType s v → HasType (.array s) (.array [v]) := fun s v ⟨b, h⟩ =>
    ⟨_, _, rfl, .block (vs := [v]) (ws := []) (by simp) (by unfold LenOk; simp) (.cons h .nil) .done⟩
  have hrec : HasType (.record [(c!"n", .int)]) (.record [(c!"n", .int 1)]) :=
    ⟨_, _, rfl, _, _, _, _, rfl, ⟨1, rfl, by unfold Fits32; decide, rfl⟩, ⟨rfl, rfl⟩, rfl⟩
  have hopt : HasType (.union [.null, .record [(c!"n", .int)]])
      (.union 1 (.record [(c!"n", .int 1)])) :=
    ⟨_, 1, _, _, rfl, by unfold Fits64; decide, hrec.choose_spec, rfl⟩
  refine ⟨⟨.record [(c!"flags", .union 1 (.array [.boolean true]))],
      hsome _ _ _ (hlist _ _ ⟨_, true, rfl, rfl⟩), ?_, _, rfl⟩,
    ⟨.record [(c!"parts", .union 0 .null)],
      .record [(c!"parts", .union 1 (.array [.union 1 (.record [(c!"n", .int 1)])]))],
      hnull _ _, hsome _ _ _ (hlist _ _ hopt), ?_, _, rfl⟩,
    .record [(c!"items", .union 0 .null)],
    .record [(c!"items", .union 1 (.array [.record [(c!"n", .int 1)]]))], hnull _ _,
    hsome _ _ _ (hlist _ _ hrec), rfl⟩
  · simp [arrowCell, fieldCells, cellsOf]
  · simp [arrowCell, fieldCells, cellsOf]

end Hudi
