import Verif.Spec.Snapshot
import Verif.Model.Python

/-!
# Specification: file slices handed out by name

A query planner asks a table handle for file slices, hands their descriptions to workers, and each
worker reads its slice with nothing but the description and a reader of its own.
-/

namespace Hudi.Spec

/-- The query, made through a handle whose cache is `c`, returns the slice. -/
def SliceQuery.Returns (q : SliceQuery) (E : Env) (A : Arrow) (tb : Table) (t : Tree) (c : Cache)
    (s : FileSlice) : Prop :=
  match q with
  | .latest fs => ∃ ss, (tb.fileSlices E A t fs c).2 = .ok ss ∧ s ∈ ss
  | .asOf ts fs => ∃ ss, (tb.fileSlicesAsOf E A t ts fs c).2 = .ok ss ∧ s ∈ ss
  | .splits n fs => ∃ sss, (tb.fileSlicesSplits E A t n fs c).2 = .ok sss ∧ ∃ ss ∈ sss, s ∈ ss
  | .splitsAsOf n ts fs =>
    ∃ sss, (tb.fileSlicesSplitsAsOf E A t n ts fs c).2 = .ok sss ∧ ∃ ss ∈ sss, s ∈ ss

/-- The description says what the store `t` holds: its path leads to a parquet file of the size, the
uncompressed size and the number of records that it gives. -/
def Describes (t : Tree) (d : PySlice) : Prop :=
  ∃ (b : Batch) (footer : Schema),
    getFile t d.basePath = .ok (d.baseFileSize, .parquet d.baseFileByteSize b footer) ∧
    d.numRecords = b.rows.length

/-- The description names the file group and the time of the write as the name of the base file does. -/
def NamesFile (d : PySlice) : Prop :=
  ∃ token ext, d.baseFileName = d.fileId ++ c!"_" ++ token ++ c!"_" ++ d.creationInstantTime ++ c!"." ++ ext

/-- Reading by description is reading the slice: whatever the reader's options and the contents of
the store at that time, the outcome (rows, error or crash) is the same. -/
def ReadsLike (A : Arrow) (d : PySlice) (s : FileSlice) : Prop :=
  ∀ (C : Codec) (M : MergeEnv A) (ltz : LocalTz) (o : Opts) (t : Tree),
    d.read C A M ltz o t = readFileSlice C A M ltz o t s

end Hudi.Spec
