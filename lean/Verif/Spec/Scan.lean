import Verif.Spec.Log

/-! # Specification: scanning the log files of a file slice -/

namespace Hudi.Spec

/-- The file at the path holds the blocks. -/
def LogAt (C : Codec) (t : Tree) (path : Str) (ws : List WBlock) : Prop :=
  ∃ size c, t.fileAt (pathSegs path) = some (size, c) ∧ C.bytesOf c = logBytes ws

/-- The block is a rollback command: its command type is the number 0. -/
def IsRollback (w : WBlock) : Prop :=
  w.content = .command ∧ ∃ v, lastValue .commandBlockType w.header = some v ∧
    parseUnsigned u32Bound v = some 0

/-- The block is a rollback of the instant. -/
def RollsBack (w : WBlock) (instant : Str) : Prop :=
  IsRollback w ∧ lastValue .targetInstantTime w.header = some instant

/-- The block was written by the instant. -/
def WrittenBy (w : WBlock) (instant : Str) : Prop := lastValue .instantTime w.header = some instant

/-- One of the blocks rolls the block back. -/
def RolledBack (ws : List WBlock) (w : WBlock) : Prop :=
  ∃ instant, WrittenBy w instant ∧ ∃ w' ∈ ws, RollsBack w' instant

end Hudi.Spec
