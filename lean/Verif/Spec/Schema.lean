import Verif.Spec.Healthy

/-! # Specification: the schema of a table -/

namespace Hudi.Spec

/-- The commit's document records the Avro schema. -/
def RecordsSchema (md : List (Str × Json)) (s : Str) : Prop :=
  ∃ extra, jGet c!"extraMetadata" md = some (.obj extra) ∧ jGet c!"schema" extra = some (.str s)

/-- Every parquet file of the store has the columns `schema`. -/
def OneSchema (t : Tree) (schema : Schema) : Prop := ∀ path b, ParquetAt t path b → b.schema = schema

/-- No parquet file of the store has an embedded Arrow schema that gives its columns other types than its own
ones. -/
def OwnTypes (t : Tree) : Prop :=
  ∀ path size byteSize b footer, t.fileAt (pathSegs path) = some (size, .parquet byteSize b footer) →
    b.schema = footer

/-- The batch has the columns of the base file of the slice. -/
def HasBaseColumns (t : Tree) (s : FileSlice) (b : Batch) : Prop :=
  ∃ base, ParquetAt t s.basePath base ∧ b.schema = base.schema

end Hudi.Spec
