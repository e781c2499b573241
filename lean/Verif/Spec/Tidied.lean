import Verif.Spec.Healthy

/-! # Specification: cleaning and archiving -/

namespace Hudi.Spec

/-- What table services may take away from a table, as long as nobody reads it as of a time before `ts`
(time `T`): `t` and `tl` are the storage and the timeline before, `t'` and `tl'` after.  Cleaning takes away
file slices that a later one of the same file group has superseded, and replaced file groups; archiving takes
away instants of the timeline. -/
structure Tidied (o : Opts) (ts : Str) (T : Int) (tl tl' : Timeline) (t t' : Tree) : Prop where
  /-- The files in the partitions were there before, ... -/
  files : ∀ x, PartitionOf o t' x → ∀ f ∈ filesOf t' x, PartitionOf o t x ∧ f ∈ filesOf t x
  /-- ... with the same contents. -/
  bases : ∀ x, PartitionOf o t' x → ∀ b, BaseIn (filesOf t' x) b →
    t'.fileAt (pathSegs (pathPush x b.fileName)) = t.fileAt (pathSegs (pathPush x b.fileName))
  logs : ∀ x, PartitionOf o t' x → ∀ l, LogIn (filesOf t' x) l →
    t'.fileAt (pathSegs (pathPush x l.fileName)) = t.fileAt (pathSegs (pathPush x l.fileName))
  /-- A base file is taken away only when a later one of its file group that was written at or before `ts`
  stays, or when its file group was replaced by then. -/
  cleaned : ∀ x b, PartitionOf o t x → BaseIn (filesOf t x) b →
    (PartitionOf o t' x ∧ BaseIn (filesOf t' x) b) ∨ ReplacedBy tl t T x b.fileId ∨
    ∃ b', PartitionOf o t' x ∧ BaseIn (filesOf t' x) b' ∧ b'.fileId = b.fileId ∧
      compare b.commitTimestamp b'.commitTimestamp = .lt ∧ (compare b'.commitTimestamp ts).isLE
  /-- Log files are taken away together with the base file they were written against, not before and not
  after. -/
  together : ∀ x b l, PartitionOf o t x → BaseIn (filesOf t x) b → LogIn (filesOf t x) l →
    l.fileId = b.fileId → l.baseCommitTimestamp = b.commitTimestamp → PartitionOf o t' x →
    (LogIn (filesOf t' x) l ↔ BaseIn (filesOf t' x) b)
  /-- The instants on the timeline were there before, with the same metadata; the latest one stays. -/
  instants : ∀ i ∈ tl'.completed, i ∈ tl.completed ∧ docOf t' i = docOf t i
  latest : tl'.completed.getLast? = tl.completed.getLast?
  /-- An instant that replaced file groups is archived only when their base files are gone. -/
  archived : ∀ i ∈ tl.completed, i ∉ tl'.completed → i.action = .replaceCommit →
    ∀ md, docOf t i = some md → ∀ x f, Replaces md x f → PartitionOf o t' x →
    ∀ b, BaseIn (filesOf t' x) b → b.fileId ≠ f
  /-- The first file that the latest instant wrote has the columns it had. -/
  columns : ∀ i md path s, tl.completed.getLast? = some i → docOf t i = some md → FirstFile md path →
    ColumnsAt t path s → ColumnsAt t' path s

end Hudi.Spec
