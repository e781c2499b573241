import Verif.Model.Reader
import Verif.Model.TableBuilder

/-!
# The DataFusion table provider

Models crates/datafusion/src/util/expr.rs, crates/datafusion/src/lib.rs and
crates/core/src/storage/util.rs.
-/

namespace Hudi

/-- DataFusion's `Operator`: the comparison operators the code looks at, and all others.
Used at crates/datafusion/src/util/expr.rs:61-69. -/
inductive DfOp | eq | notEq | lt | ltEq | gt | gtEq | other (name : Str)
  deriving DecidableEq, Repr

/-- DataFusion's `Expr`: the kinds the code looks at, and all others.  A column is represented by its
name; the relation qualifying it is not looked at by the code.
Used at crates/datafusion/src/util/expr.rs:40-57. -/
inductive Expr
  | column (name : Str)
  | literal (v : Option Val)
  | binary (l : Expr) (op : DfOp) (r : Expr)
  | not (e : Expr)
  | other (name : Str)
  deriving DecidableEq, Repr

/-- Decimal digits of `n`, at most `fuel` of them.
Used at crates/datafusion/src/util/expr.rs:59. -/
def showDigits : Nat → Nat → Str
  | 0, _ => []
  | fuel + 1, n =>
    if n < 10 then [Char.ofNat (48 + n)] else showDigits fuel (n / 10) ++ [Char.ofNat (48 + n % 10)]

/-- `impl Display for i64` and the other integers (std).
Used at crates/datafusion/src/util/expr.rs:59. -/
def showInt : Int → Str
  | .ofNat n => showDigits (n + 1) n
  | .negSucc n => '-' :: showDigits (n + 2) (n + 1)

/-- `impl Display for ScalarValue` (datafusion-common): `NULL`, or the text of the value.  How the
types that the model leaves open are shown is the parameter `D`.
Used at crates/datafusion/src/util/expr.rs:59. -/
def showLit (D : Str → Str) : Option Val → Str
  | none => c!"NULL"
  | some (.str s) => s
  | some (.bool b) => if b then c!"true" else c!"false"
  | some (.int i) => showInt i
  | some (.opq s) => D s

/-- The operator of the filter (crates/datafusion/src/util/expr.rs:61-69). -/
def DfOp.toOp : DfOp → Option Op
  | .eq => some .eq
  | .notEq => some .ne
  | .lt => some .lt
  | .ltEq => some .lte
  | .gt => some .gt
  | .gtEq => some .gte
  | .other _ => none

/-- The column and the literal of a binary expression
(crates/datafusion/src/util/expr.rs:52-56). -/
def columnAndLiteral : Expr → Expr → Option (Str × Option Val)
  | .column n, .literal v => some (n, v)
  | .literal v, .column n => some (n, v)
  | _, _ => none

/-- `binary_expr_to_filter` (crates/datafusion/src/util/expr.rs:50-72). -/
def binaryToFilter (D : Str → Str) (l : Expr) (op : DfOp) (r : Expr) : Option Filter := do
  let (n, v) ← columnAndLiteral l r
  let op ← op.toOp
  return ⟨n, op, showLit D v⟩

/-- `not_expr_to_filter` (crates/datafusion/src/util/expr.rs:75-82). -/
def notToFilter (D : Str → Str) : Expr → Option Filter
  | .binary l op r => (binaryToFilter D l op r).bind Filter.negate
  | _ => none

/-- The body of the loop of `exprs_to_filters` (crates/datafusion/src/util/expr.rs:40-44). -/
def exprToFilter (D : Str → Str) : Expr → Option Filter
  | .binary l op r => binaryToFilter D l op r
  | .not e => notToFilter D e
  | _ => none

/-- `exprs_to_filters` (crates/datafusion/src/util/expr.rs:37-48). -/
def exprsToFilters (D : Str → Str) (es : List Expr) : List (Str × Str × Str) :=
  (es.filterMap (exprToFilter D)).map Filter.toTuple

/-- `TableProviderFilterPushDown` (datafusion-expr).
Used at crates/datafusion/src/lib.rs:235-239. -/
inductive PushDown | unsupported | inexact | exact
  deriving DecidableEq, Repr

/-- `HudiDataSource::schema` (crates/datafusion/src/lib.rs:156-164): an empty schema when the table's
schema cannot be had.  A panic in the thread is propagated by `join().unwrap()`. -/
def Table.dfSchema (tb : Table) (t : Tree) : Res Schema :=
  match tb.timeline.latestSchema t with
  | .ok s => .ok s
  | .err _ => .ok []
  | .panic => .panic

/-- `HudiDataSource::is_supported_operand` (crates/datafusion/src/lib.rs:140-146), for the schema of
the table. -/
def supportedOperand (s : Schema) : Expr → Bool
  | .column n => (s.fieldWithName n).isSome
  | .literal _ => true
  | _ => false

/-- `HudiDataSource::can_push_down` (crates/datafusion/src/lib.rs:110-126) with
`is_supported_operator` (128-138). -/
def canPushDown (s : Schema) : Expr → Bool
  | .binary l op r => op.toOp.isSome && supportedOperand s l && supportedOperand s r
  | .not e => canPushDown s e
  | _ => false

/-- `HudiDataSource::supports_filters_pushdown` (crates/datafusion/src/lib.rs:228-242); the schema is
looked up once here, for every operand in the code. -/
def supportsPushDown (s : Schema) (es : List Expr) : List PushDown :=
  es.map (fun e => if canPushDown s e then .inexact else .unsupported)

/-- The characters that the url crate percent-encodes in a path segment (its sets `PATH_SEGMENT` and
`SPECIAL_PATH_SEGMENT`). Used at crates/core/src/storage/util.rs:48-63. -/
def urlEncodes (c : Char) : Bool :=
  c.toNat < 33 || 127 ≤ c.toNat || ['"', '#', '<', '>', '?', '`', '{', '}', '/', '%', '\\'].contains c

/-- The characters that the object_store crate percent-encodes in `Path::from` (its set `INVALID`).
Used at crates/core/src/storage/mod.rs:111. -/
def objEncodes (c : Char) : Bool :=
  c.toNat < 32 || 127 ≤ c.toNat ||
    ['/', '\\', '{', '^', '}', '%', '`', ']', '"', '>', '[', '~', '<', '#', '|', '*', '?'].contains c

/-- An upper-case hexadecimal digit. Used at crates/core/src/storage/util.rs:57. -/
def hexUpper (n : Nat) : Char := if n < 10 then Char.ofNat (48 + n) else Char.ofNat (55 + n)

/-- `utf8_percent_encode` (percent-encoding crate).
Used at crates/core/src/storage/util.rs:57. -/
def pctEncode (enc : Char → Bool) (s : Str) : Str :=
  s.flatMap (fun c =>
    if enc c then
      (utf8Char c).flatMap (fun b => ['%', hexUpper (b.toNat / 16), hexUpper (b.toNat % 16)])
    else [c])

/-- `join_url_segments` with one segment (crates/core/src/storage/util.rs:48-63), on the paths of the
urls.  `PathSegmentsMut::pop` and `extend` (url crate): a final slash is dropped; each non-empty part
other than `.` and `..` is percent-encoded, without tabs and line breaks, and appended after a slash.
Windows drive letters are not modelled, and parts that are empty or dots once their tabs and line breaks
are left out are dropped here. -/
def urlJoin (base rel : Str) : Str :=
  (if base.getLast? = some '/' then base.dropLast else base) ++
    (((splitAll '/' rel).map urlSegment).filter (fun s => s ≠ [] ∧ s ≠ c!"." ∧ s ≠ c!"..")).flatMap
      (fun s => '/' :: pctEncode urlEncodes s)

/-- `PathPart::from` (object_store). Used at crates/core/src/storage/mod.rs:111. -/
def objPart (s : Str) : Str :=
  if s = c!"." then c!"%2E" else if s = c!".." then c!"%2E%2E" else pctEncode objEncodes s

/-- `Path::from` (object_store): the parts between slashes, encoded, without empty ones.
Used at crates/datafusion/src/lib.rs:198. -/
def objPathFrom (s : Str) : Str :=
  joinWith '/' (((splitAll '/' s).map objPart).filter (fun p => p ≠ []))

/-- The characters of code below 32 and 127 (`char::is_ascii_control`, std).
Used at crates/core/src/storage/mod.rs:111. -/
def isControl (c : Char) : Bool := c.toNat < 32 || c.toNat = 127

/-- `Path::parse` (object_store): one slash at each end is dropped; empty parts, `.`, `..` and parts with a
control character are rejected. Used at crates/core/src/storage/mod.rs:111. -/
def objPathParse (s : Str) : Res Str :=
  let s := if s.head? = some '/' then s.drop 1 else s
  if s = [] then .ok []
  else
    let s := if s.getLast? = some '/' then s.dropLast else s
    if (splitAll '/' s).any (fun p => p = [] ∨ p = c!"." ∨ p = c!".." ∨ p.any isControl) then .err .storage else .ok s

/-- `Path::from_url_path` (object_store). Used at crates/core/src/storage/mod.rs:111. -/
def objPathFromUrl (s : Str) : Res Str := do
  let d ← Res.ofOption .storage (utf8Decode (percentDecode (utf8Encode s)))
  objPathParse d

/-- The key under which the table's own storage layer looks a file up (the first two lines of
`get_file_metadata`, `get_file_data`, `get_parquet_file_data` and `get_storage_reader`,
crates/core/src/storage/mod.rs:121-227), `base` being the path of the base url.  The rest of the model
identifies a file by the path relative to the base. -/
def storageKey (base rel : Str) : Res Str := objPathFromUrl (urlJoin base rel)

/-- `Table::base_url` (crates/core/src/table/mod.rs:161-168).  `U` is `parse_uri` with the url crate
(crates/core/src/storage/util.rs:27-40), giving the path of the url. -/
def Table.baseUrlPath (U : Str → Option Str) (tb : Table) : Res Str := do
  let s ← (← (Res.ofCfg (Cfg.basePath.get tb.opts)).expect).toStr
  (Res.ofOption .storage (U s)).expect

/-- A `PartitionedFile` as made by the scan: the object path and the size.
Used at crates/datafusion/src/lib.rs:197-199. -/
structure ScanFile where
  path : Str
  size : Nat
  deriving DecidableEq, Repr

/-- `PartitionedFile::new(url.path(), size)` for one file slice
(crates/datafusion/src/lib.rs:188-199). -/
def partitionedFile (base : Str) (s : FileSlice) : ScanFile :=
  ⟨objPathFrom (urlJoin base s.basePath), (s.baseFile.fileMeta.map (·.size)).getD 0⟩

/-- `HudiDataSource::get_input_partitions` (crates/datafusion/src/lib.rs:100-105). -/
def Table.inputPartitions (tb : Table) : Res Nat := do
  (← Cfg.inputPartitions.getOrDefault tb.opts).toUsize

/-- The file groups handed to the engine by `HudiDataSource::scan`
(crates/datafusion/src/lib.rs:169-204).  The rest of `scan` (205-226) passes the groups with the
schema, the projection, the limit and the conjunction of all filters to the parquet execution plan,
which is the engine's. -/
def Table.scan (E : Env) (A : Arrow) (U : Str → Option Str) (D : Str → Str) (tb : Table) (t : Tree)
    (filters : List Expr) : Query (List (List ScanFile)) := do
  let n ← Query.lift tb.inputPartitions
  let splits ← tb.fileSlicesSplits E A t n (exprsToFilters D filters)
  let base ← Query.lift (tb.baseUrlPath U)
  return splits.map (fun g => g.map (partitionedFile base))

/-- `HudiTableFactory::resolve_options` (crates/datafusion/src/lib.rs:287-305): the session's
non-empty options, overwritten by those of the command. -/
def factoryOptions (session : List (Str × Option Str)) (cmd : Opts) : Opts :=
  hmExtend (hmOfList (session.filterMap (fun e =>
    (e.2.filter (fun v => !v.isEmpty)).map (fun v => (e.1, v))))) cmd

end Hudi
