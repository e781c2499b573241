import Verif.Props.Merge
import Verif.Props.LogFiles

/-! # A concrete codec and concrete log files, for the examples -/

namespace Hudi
open Spec
namespace Demo

/-- The row encoded by four bytes: sequence number, key, name, precombine value. -/
def rowOfBytes : Bytes → List Cell
  | [a, b, c, d] => mRow [Char.ofNat a.toNat] [Char.ofNat b.toNat] [Char.ofNat c.toNat] d.toNat
  | _ => mRow [] [] [] 0

/-- A toy codec: a datum is a length byte followed by that many bytes, a parquet file holds one row
between the bytes `P` and `E`. -/
def codec : Codec where
  Schema := Unit
  Value := Bytes
  parseSchema t := if t = c!"schema" then some () else none
  checkSchema _ := .ok ()
  datum _ l := match l with
    | [] => .err .avro
    | n :: r => if n.toNat ≤ r.length then .ok (r.take n.toNat, n.toNat + 1) else .err .avro
  toBatch _ vs := .ok ⟨mSchema, vs.map rowOfBytes⟩
  parquet l := match l with
    | [80, a, b, c, d, 69] => .ok [⟨mSchema, [rowOfBytes [a, b, c, d]]⟩]
    | _ => .err .parquet
  raw _ := []

theorem codec_streaming : Streaming codec := by
  intro s l v k h p hp hlt x hx
  cases l with
  | nil => cases h
  | cons n r =>
    unfold codec at h hx
    simp only at h hx
    split at h
    · cases h
      cases p with
      | nil => cases hx
      | cons m q =>
        obtain ⟨t, ht⟩ := hp
        rw [List.cons_append] at ht
        injection ht with h1 h2
        subst h1
        simp only at hx
        simp only [List.length_cons] at hlt
        rw [if_neg (by omega)] at hx
        cases hx
    · cases h

def t1 : Str := c!"20240101000000000"
def t2 : Str := c!"20240102000000000"
def t3 : Str := c!"20240103000000000"

/-- An Avro block with two records. -/
def w1 : WBlock :=
  ⟨.v1, [(.instantTime, t1), (.schema, c!"schema")], .avro [[4, 50, 65, 120, 9], [4, 51, 66, 121, 1]],
   [], 7, 0⟩

/-- A parquet block. -/
def w2 : WBlock := ⟨.v1, [(.instantTime, t2)], .parquet [80, 52, 67, 122, 3, 69], [], 0, 0⟩

/-- A rollback of the first block. -/
def w3 : WBlock :=
  ⟨.v1, [(.instantTime, t3), (.targetInstantTime, t1), (.commandBlockType, c!"0")], .command, [], 0, 0⟩

/-- A delete block. -/
def w4 : WBlock := ⟨.v1, [(.instantTime, t3)], .other .delete [1, 2, 3], [], 0, 0⟩

def upToT3 : InstantRange := ⟨c!"utc", none, some t3, false, true⟩
def upToT2 : InstantRange := ⟨c!"utc", none, some t2, false, true⟩

def w1Batch : Batch := ⟨mSchema, [rowOfBytes [50, 65, 120, 9], rowOfBytes [51, 66, 121, 1]]⟩
def w2Batch : Batch := ⟨mSchema, [rowOfBytes [52, 67, 122, 3]]⟩

theorem w1_wf : w1.WF where
  version := by decide
  header := by unfold MetaFits; decide
  footer := by intro _; unfold MetaFits; decide
  content := by decide
  records := by intro rs h; cases h; decide
  other := by intro t b h; cases h

theorem w2_wf : w2.WF where
  version := by decide
  header := by unfold MetaFits; decide
  footer := by intro _; unfold MetaFits; decide
  content := by decide
  records := by intro rs h; cases h
  other := by intro t b h; cases h

theorem w3_wf : w3.WF where
  version := by decide
  header := by unfold MetaFits; decide
  footer := by intro _; unfold MetaFits; decide
  content := by decide
  records := by intro rs h; cases h
  other := by intro t b h; cases h

theorem w4_wf : w4.WF where
  version := by decide
  header := by unfold MetaFits; decide
  footer := by intro _; unfold MetaFits; decide
  content := by decide
  records := by intro rs h; cases h
  other := by intro t b h; cases h; decide

theorem w1_decodes : Decodes codec w1 [w1Batch] :=
  ⟨c!"schema", (), [[50, 65, 120, 9], [51, 66, 121, 1]], [[[50, 65, 120, 9], [51, 66, 121, 1]]], rfl, rfl, rfl,
    .cons rfl (.cons rfl .nil), ⟨rfl, by simp, by intro p hp; simp only [List.mem_singleton] at hp; subst hp; decide⟩, .cons rfl .nil⟩

theorem w2_decodes : Decodes codec w2 [w2Batch] := rfl

theorem w3_decodes : Decodes codec w3 [] := rfl

theorem upTo_parses (t : Str) (h : ∃ d, parseDatetime some t c!"utc" = .ok d) :
    RangeParses some ⟨c!"utc", none, some t, false, true⟩ :=
  ⟨(by intro s h; cases h), (by intro e he; cases he; exact h)⟩

/-- Everything up to `t3` selects all the blocks. -/
theorem selects_all (w : WBlock) (hw : w ∈ [w1, w2, w3, w4]) :
    ∃ t d, lastValue .instantTime w.header = some t ∧ parseDatetime some t c!"utc" = .ok d ∧
      ((fun _ => true) w = true ↔ InRange some upToT3 d) := by
  have key : ∀ t, ∀ d d3, parseDatetime some t c!"utc" = .ok d → parseDatetime some t3 c!"utc" = .ok d3 →
      (Before d d3 ∨ d = d3) → InRange some upToT3 d := by
    intro t d d3 _ h3 h
    refine ⟨(by intro s hs; cases hs), ?_⟩
    intro e he
    cases he
    exact ⟨d3, h3, by rcases h with h | h; exacts [.inl h, .inr ⟨rfl, h⟩]⟩
  simp only [List.mem_cons, List.not_mem_nil, or_false] at hw
  rcases hw with rfl | rfl | rfl | rfl
  · exact ⟨t1, _, rfl, rfl, iff_of_true rfl (key t1 _ _ rfl rfl (.inl (.inl (by decide))))⟩
  · exact ⟨t2, _, rfl, rfl, iff_of_true rfl (key t2 _ _ rfl rfl (.inl (.inl (by decide))))⟩
  · exact ⟨t3, _, rfl, rfl, iff_of_true rfl (key t3 _ _ rfl rfl (.inr rfl))⟩
  · exact ⟨t3, _, rfl, rfl, iff_of_true rfl (key t3 _ _ rfl rfl (.inr rfl))⟩

/-- Three blocks are read back, and with a range ending at `t2` only two of them. -/
example : Selects some c!"utc" upToT3 (fun _ => true) [w1, w2, w3] ∧
    (∀ w ∈ [w1, w2, w3], w.WF ∧ ∃ bs, Decodes codec w bs) ∧ RangeParses some upToT3 ∧
    (readAllBlocks codec some c!"utc" upToT3 (logBytes [w1, w2, w3])).isOk = true ∧
    readAllBlocks codec some c!"utc" upToT2 (logBytes [w1, w2, w3]) =
      .ok [⟨.v1, .avroData, w1.header, [w1Batch], [], false⟩,
           ⟨.v1, .parquetData, w2.header, [w2Batch], [], false⟩] := by
  refine ⟨fun w hw => selects_all w (by simp only [List.mem_cons] at hw ⊢; tauto), ?_,
    upTo_parses _ ⟨_, rfl⟩, by decide +kernel, by decide +kernel⟩
  intro w hw
  simp only [List.mem_cons, List.not_mem_nil, or_false] at hw
  rcases hw with rfl | rfl | rfl
  · exact ⟨w1_wf, _, w1_decodes⟩
  · exact ⟨w2_wf, _, w2_decodes⟩
  · exact ⟨w3_wf, _, w3_decodes⟩

/-- A file cut inside the second block cannot be read; cut inside its magic, the first block is. -/
example : (readAllBlocks codec some c!"utc" upToT3 ((logBytes [w1, w2]).take 150)).isOk = false ∧
    readAllBlocks codec some c!"utc" upToT3 (blockBytes w1 ++ [35, 72, 85]) =
      .ok [⟨.v1, .avroData, w1.header, [w1Batch], [], false⟩] ∧
    readAllBlocks codec some c!"utc" upToT3 (logBytes [w1, w4] ++ [1, 2]) = .err .logBlock := by
  refine ⟨by decide +kernel, by decide +kernel, by decide +kernel⟩

/-- A data block in the second version of the record format, at a time in the range. -/
def wOldRecords : WBlock := { w1 with content := .other .avroData (be 4 2 ++ [0, 0, 0, 0]) }

/-- After a good block, neither a data block in an older record format nor a block of the oldest version is
read. -/
example : wOldRecords.version ≠ .v0 ∧ MetaFits wOldRecords.header ∧ (contentBytes wOldRecords.content).length < 2 ^ 64 ∧
    Selects some c!"utc" upToT3 (fun _ => true) ([w1] ++ [wOldRecords]) ∧
    readAllBlocks codec some c!"utc" upToT3 (logBytes ([w1] ++ [wOldRecords])) = .err .logBlock ∧
    readAllBlocks codec some c!"utc" upToT3
      (logBytes [w1] ++ ([35, 72, 85, 68, 73, 35] ++ (be 8 7 ++ (be 4 0 ++ [1, 2])))) = .err .logFormat := by
  refine ⟨by decide, w1_wf.header, by decide +kernel, ?_, by decide +kernel, by decide +kernel⟩
  intro w hw
  simp only [List.cons_append, List.nil_append, List.mem_cons, List.not_mem_nil, or_false] at hw
  rcases hw with rfl | rfl
  · exact selects_all _ (by simp)
  · exact selects_all w1 (by simp)

end Demo

open Demo in
/-- **C34 as stated is false** for the block types that are not supported: a file with a well-formed
delete block cannot be read at all. -/
theorem C34_false : ∃ (C : Codec) (ltz : LocalTz) (tz : Str) (r : InstantRange) (ws : List WBlock),
    RangeParses ltz r ∧ Selects ltz tz r (fun _ => true) ws ∧ (∀ w ∈ ws, w.WF) ∧
    ∀ bs, readAllBlocks C ltz tz r (logBytes ws) ≠ .ok bs := by
  refine ⟨codec, some, c!"utc", upToT3, [w1, w4], upTo_parses _ ⟨_, rfl⟩,
    fun w hw => selects_all w (by simp only [List.mem_cons] at hw ⊢; tauto), ?_, ?_⟩
  · intro w hw
    simp only [List.mem_cons, List.not_mem_nil, or_false] at hw
    rcases hw with rfl | rfl
    · exact w1_wf
    · exact w4_wf
  · intro bs h
    rw [show readAllBlocks codec some c!"utc" upToT3 (logBytes [w1, w4]) = .err .logBlock by decide +kernel] at h
    cases h

end Hudi
