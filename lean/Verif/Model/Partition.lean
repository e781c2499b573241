import Verif.Base.Utf8
import Verif.Model.Config
import Verif.Model.Expr

/-!
# Partition pruning

Models crates/core/src/table/partition.rs.
-/

namespace Hudi

/-- `PARTITION_METAFIELD_PREFIX` (crates/core/src/table/partition.rs:32). -/
def partitionMetafieldPrefix : Str := c!".hoodie_partition_metadata"

/-- Does the key generator say that the table is not partitioned?
(crates/core/src/table/partition.rs:39-46). -/
def usesNonPartitionedKeyGen (o : Opts) : Res Bool :=
  match Cfg.keyGeneratorClass.tryGet o with
  | some v => do
    return decide ((← v.toStr) = c!"org.apache.hudi.keygen.NonpartitionedKeyGenerator")
  | none => .ok false

/-- `is_table_partitioned` (crates/core/src/table/partition.rs:35-49). -/
def isTablePartitioned (o : Opts) : Res Bool := do
  let fields ← partitionFieldsOf o
  let nonPart ← usesNonPartitionedKeyGen o
  return !fields.isEmpty && !nonPart

/-- `PartitionPruner` (crates/core/src/table/partition.rs:52-58). -/
structure Pruner where
  schema : Schema
  hiveStyle : Bool
  urlEncoded : Bool
  filters : List SFilter
  deriving DecidableEq, Repr

/-- `PartitionPruner::new` (crates/core/src/table/partition.rs:61-84). -/
def Pruner.new (A : Arrow) (filters : List Filter) (schema : Schema) (o : Opts) : Res Pruner := do
  let fs ← Res.mapL (fun f => SFilter.ofFilter A f schema) filters
  let hive ← (← Cfg.isHiveStylePartitioning.getOrDefault o).toBool
  let url ← (← Cfg.isPartitionPathUrlencoded.getOrDefault o).toBool
  return { schema := schema, hiveStyle := hive, urlEncoded := url, filters := fs }

/-- `PartitionPruner::empty` (crates/core/src/table/partition.rs:86-94). -/
def Pruner.empty : Pruner := ⟨[], false, false, []⟩

/-- `PartitionPruner::is_empty` (crates/core/src/table/partition.rs:96-99). -/
def Pruner.isEmpty (p : Pruner) : Bool := p.filters.isEmpty

/-- The path after optional url-decoding (crates/core/src/table/partition.rs:122-128). -/
def Pruner.decodePath (p : Pruner) (path : Str) : Res Str :=
  if p.urlEncoded then Res.ofOption .utf8 (utf8Decode (percentDecode (utf8Encode path)))
  else .ok path

/-- The text of the value in one path segment (crates/core/src/table/partition.rs:144-157). -/
def Pruner.segmentValue (p : Pruner) (field : Field) (part : Str) : Res Str :=
  if p.hiveStyle then
    match splitOnce '=' part with
    | none => .err .invalidPartitionPath
    | some (name, value) => if name ≠ field.name then .err .invalidPartitionPath else .ok value
  else .ok part

/-- The name and value of one path segment (crates/core/src/table/partition.rs:143-162). -/
def Pruner.segment (A : Arrow) (p : Pruner) (field : Field) (part : Str) : Res (Str × Val) := do
  let value ← p.segmentValue field part
  let v ← castValue A value field.dtype
  return (field.name, v)

/-- `PartitionPruner::parse_segments` (crates/core/src/table/partition.rs:121-164). -/
def Pruner.parseSegments (A : Arrow) (p : Pruner) (path : Str) : Res (List (Str × Val)) := do
  let path ← p.decodePath path
  let parts := splitAll '/' path
  if parts.length ≠ p.schema.length then Res.err .invalidPartitionPath
  else do
    let segs ← Res.mapL (fun e => p.segment A e.1 e.2) (p.schema.zip parts)
    return hmOfList segs

/-- `PartitionPruner::should_include` (crates/core/src/table/partition.rs:101-119). -/
def Pruner.shouldInclude (A : Arrow) (p : Pruner) (path : Str) : Bool :=
  match p.parseSegments A path with
  | .ok segs =>
    p.filters.all (fun f =>
      match hmGet f.field.name segs with
      | some v =>
        match f.apply A v with
        | .ok b => b
        | _ => true
      | none => true)
  | _ => true

end Hudi
