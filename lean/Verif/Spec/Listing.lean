import Verif.Spec.Group
import Verif.Spec.Store
import Verif.Model.Listing

/-!
# Specification: the contents of a partition directory
-/

namespace Hudi.Spec

/-- Metadata and checksum files, which are not data files. -/
def Ignored (name : Str) : Prop :=
  (∃ rest, name = c!".hoodie_partition_metadata" ++ rest) ∨ ∃ stem, name = stem ++ c!".crc"

/-- A file name with the extension of base files. -/
def ParquetName (name : Str) : Prop := ∃ stem, name = stem ++ c!".parquet"

/-- The directory (names and sizes of its files) holds the base file `b`. -/
def BaseIn (files : List (Str × Nat)) (b : BaseFile) : Prop :=
  ∃ name size, (name, size) ∈ files ∧ ¬ Ignored name ∧ ParquetName name ∧
    BaseFile.fromMeta (FileMeta.new name size) = .ok b

/-- The directory holds the log file `l`. -/
def LogIn (files : List (Str × Nat)) (l : LogFile) : Prop :=
  ∃ name size, (name, size) ∈ files ∧ ¬ Ignored name ∧ ¬ ParquetName name ∧
    LogFile.fromMeta (FileMeta.new name size) = .ok l

/-- The conditions under which a directory can be listed: every file with the extension of base files
has a base file's name; a file group has one base file per commit; and a log file of a file group
with base files was written against one of them. -/
structure Listable (files : List (Str × Nat)) : Prop where
  names : ∀ name size, (name, size) ∈ files → ¬ Ignored name → ParquetName name →
    ∃ b, BaseFile.fromMeta (FileMeta.new name size) = .ok b
  unique : ∀ b b', BaseIn files b → BaseIn files b' → b.fileId = b'.fileId →
    b.commitTimestamp = b'.commitTimestamp → b = b'
  logs : ∀ l, LogIn files l → (∃ b, BaseIn files b ∧ b.fileId = l.fileId) →
    ∃ b, BaseIn files b ∧ b.fileId = l.fileId ∧ b.commitTimestamp = l.baseCommitTimestamp

/-- No two log files differ in nothing but the file extension. -/
def OneExtension (files : List (Str × Nat)) : Prop :=
  ∀ l l', LogIn files l → LogIn files l' → l.fileId = l'.fileId →
    l.baseCommitTimestamp = l'.baseCommitTimestamp → l.version = l'.version →
    l.writeToken = l'.writeToken → l = l'

/-- The file groups `gs` are exactly what the directory of `partition` holds. -/
structure ListingOf (files : List (Str × Nat)) (partition : Str) (gs : List FileGroup) : Prop where
  /-- One file group per file id. -/
  distinct : (gs.map FileGroup.fileId).Nodup
  inPartition : ∀ g ∈ gs, g.partitionPath = partition
  /-- The file groups are those that have a base file. -/
  groups : ∀ fid, (∃ g ∈ gs, g.fileId = fid) ↔ ∃ b, BaseIn files b ∧ b.fileId = fid
  /-- Each base file is in the slice of its commit. -/
  bases : ∀ g ∈ gs, ∀ b, BaseIn files b → b.fileId = g.fileId →
    ∃ s, sliceAt g b.commitTimestamp = some s ∧ s.baseFile = b
  /-- Each slice has a base file of the directory, and exactly the log files written against it. -/
  slices : ∀ g ∈ gs, ∀ ts s, sliceAt g ts = some s → BaseIn files s.baseFile ∧
    s.baseFile.fileId = g.fileId ∧ s.baseFile.commitTimestamp = ts ∧ s.partitionPath = partition ∧
    ∀ l, l ∈ s.logFiles ↔ LogIn files l ∧ l.fileId = g.fileId ∧ l.baseCommitTimestamp = ts

end Hudi.Spec
