import Verif.Props.AvroTableDemo

/-!
# C66: documented fields inside a record

The documentation of a field inside a record becomes part of the Arrow type of the column, and the types
of the columns of a base file have none.
-/

namespace Hudi
open Spec Avro

namespace Demo

/-- The schema of a table, whose name is a record of optional texts. -/
def docFields (docs : List (Option Str)) : List (Str × AvroSchema) :=
  [(c!"_hoodie_commit_seqno", optStr), (c!"_hoodie_record_key", optStr),
   (c!"name", .union [.null, .record [(c!"first", optStr)] docs]),
   (c!"ts", .union [.null, .long]), (c!"_hoodie_commit_time", optStr)]

/-- Its field documented. -/
def docText : List (Option Str) := [some c!"the given name"]

/-- Formats that tell the types of structs with documented fields from others. -/
def docFormats : Formats where
  parseSchema t :=
    if t = c!"schema" then some (.record (docFields []))
    else if t = c!"documented" then some (.record (docFields docText)) else none
  parquet _ := .err .parquet
  raw _ := []
  typeName
    | .struct fs => if fs.any (·.doc.isSome) then c!"struct with metadata" else c!"struct"
    | _ => c!"other"
  render _ := c!"value"

def docArrow (docs : List (Option Str)) : List AField :=
  [⟨c!"_hoodie_commit_seqno", .utf8, true, none⟩, ⟨c!"_hoodie_record_key", .utf8, true, none⟩,
   ⟨c!"name", .struct [⟨c!"first", .utf8, true, docs.head?.join⟩], true, none⟩,
   ⟨c!"ts", .int64, true, none⟩, ⟨c!"_hoodie_commit_time", .utf8, true, none⟩]

def docSchema : Schema := columnsOf docFormats (docArrow [])

def docRow (a k : Str) (v : Nat) (t : Str) : List Cell :=
  [some (.str a), some (.str k), some (.opq c!"value"), some (.int v), some (.str t)]

def docBase : Batch := ⟨docSchema, [docRow c!"1" c!"A" 5 t0, docRow c!"1" c!"C" 7 t0]⟩

/-- An update of the record with key `C`. -/
def recNamed : AvroValue :=
  avRecord c!"4" c!"C" (.union 1 (.record [(c!"first", optText c!"z")])) 9 t2

/-- Its block, with the schema of the given name. -/
def docBlock (schema : Str) : WBlock := ⟨.v1, [(.instantTime, t2), (.schema, schema)],
  .avro [avBytes c!"4" c!"C" (2 :: (textBytes c!"z" ++ [])) 9 t2], [], 0, 0⟩

theorem docName_enc (docs : List (Option Str)) :
    Enc (.union [.null, .record [(c!"first", optStr)] docs]) (.union 1 (.record [(c!"first", optText c!"z")]))
      (2 :: (textBytes c!"z" ++ [])) :=
  ⟨1, _, _, rfl, by unfold Fits64; decide, ⟨_, rfl, _, _, _, _, rfl, enc_optText c!"z" (by decide),
    ⟨rfl, rfl⟩, rfl⟩, by rw [longBytes_nat 1 (by decide)]; rfl⟩

theorem doc_block {schema : Str} {docs : List (Option Str)}
    (h : docFormats.parseSchema schema = some (.record (docFields docs))) :
    AvroBlock docFormats (docBlock schema) (docFields docs) [recNamed] where
  content := ⟨_, rfl, .cons ⟨_, rfl, _, _, _, _, rfl, enc_optText c!"4" (by decide), ⟨_, _, _, _, rfl,
    enc_optText c!"C" (by decide), ⟨_, _, _, _, rfl, docName_enc docs, ⟨_, _, _, _, rfl,
    enc_optLong 9 (by decide), ⟨_, _, _, _, rfl, enc_optText t2 (by decide), ⟨rfl, rfl⟩, rfl⟩, rfl⟩, rfl⟩,
    rfl⟩, rfl⟩ .nil⟩
  schema := ⟨schema, _, rfl, h⟩

theorem doc_faithful (docs : List (Option Str)) : FaithfulRecord (docFields docs) := by
  refine ⟨by simp [docFields], ?_, ?_⟩
  · simp only [docFields, Named, NamedFields, optStr, NamedAll, NameOk, List.map]
    decide
  · simp [FaithfulFields, docFields, optStr, Spec.Faithful, Place.opt, FaithfulOpt, isNullSchema]

theorem doc_arrowable (docs : List (Option Str)) : ArrowableFields (docFields docs) := by
  simp [ArrowableFields, docFields, optStr, Arrowable, ArrowableOpt, isNullSchema]

/-- The table, with the schema of that name in the header of the block. -/
def docTree (schema : Str) : Tree :=
  .dir c!".hoodie" (.file c!"20231231000000000.commit" 1 (.json (.obj chDoc0))
    (.file c!"20240102000000000.deltacommit" 1 (.json (.obj chDoc2)) .nil))
  (.file morBase 1 (.parquet 1 docBase) (.file morLog 1 (.bytes (logBytes [docBlock schema])) .nil))

theorem doc_stored : Stores env.ltz c!"utc" dirtyTable.opts (docTree c!"documented") recFirst :=
  stores_of (by decide) (by decide) (by decide) (partitionOf_mem (by decide) rfl) (by decide) (by decide)
    (by decide)

theorem doc_listable :
    ListableTable env arrow [] (docTree c!"documented") dirtyTable c!"utc" recFirst 17 [] [] [] false false where
  load := rfl
  tree := by decide
  zone := rfl
  history := rec_wf.prefix (h' := [⟨t4, .commit, [(f2, .write c!"0-4-1")]⟩])
  stores := doc_stored
  parsed := rfl
  columns := (partitionSchema_ok (E := env) (o := []) (t0 := docTree c!"documented") rfl
    (timelineNames_normal (by decide))).1 (by decide +kernel)
  names := by unfold FieldNames; decide
  applicable := by simp
  style := ⟨rfl, rfl⟩
  parallelism := by intro v hv; cases hv
  docs := fun i hi ha => absurd ha (by revert i; decide)

end Demo

open Demo in
/-- The same block with the schema without documentation is merged into the records of the base file. -/
example : (dirtyTable.readSnapshot env arrow docFormats.codec (mergeEnv arrow) (docTree c!"schema") [] []).2 =
    .ok [⟨docSchema, [docRow c!"4" c!"C" 9 t2, docRow c!"1" c!"A" 5 t0]⟩] := by decide +kernel

open Demo in
/-- **C66 is false for documented fields.**  A commit appends an update of the record with key `C`, in a
schema that is the table's but for the documentation of a field inside a record.  The documentation
becomes part of the Arrow type of the column, which then is not that of the base file: the read reports an
error. -/
theorem C66_documented_fields_false : ∃ (E : Env) (A : Arrow) (F : Formats) (M : MergeEnv A) (o : Opts)
    (t : Tree) (tb : Table) (h : History) (c : HCommit) (k : GroupKey) (base : Str) (l : Str × Str) (w : WBlock)
    (fs fs' : List (Str × AvroSchema)) (fields : List AField) (kvs : List (Str × AvroValue)) (size bytes : Nat)
    (b : Batch) (e : ErrKind),
    MonotoneTz E.ltz ∧ WholeSecondsTz E.ltz ∧
    ListableTable E A o t tb c!"utc" h 17 [] [] [] false false ∧ MergingReader tb c!"utc" c!"ts" ∧
    FaithfulRecord fs ∧ FaithfulRecord fs' ∧ ArrowableFields fs' ∧
    -- the schemas are the same but for documentation
    fs = undocumentedFields fs' ∧ toArrowSchema (.record fs) = .ok fields ∧
    MergeColumns (columnsOf F fields) c!"ts" ∧
    -- the base file has the columns `fs`, and holds a record with key `C`
    t.fileAt (pathSegs (basePathOf k c!"0-0-0" base)) = some (size, .parquet bytes b) ∧ b.WF ∧
    b.schema = columnsOf F fields ∧ (∃ r ∈ b.rows, keyOf b.schema r = c!"C") ∧
    -- the commit appended a record of the same key
    AppendsTo h k base l c ∧
    t.fileAt (pathSegs (logPathOf k base l)) = some (size, .bytes (logBytes [w])) ∧ w.WF ∧
    WrittenBy w c.ts ∧ AvroBlock F w fs' [.record kvs] ∧
    (c!"_hoodie_record_key", AvroValue.union 1 (.string c!"C")) ∈ kvs ∧
    -- the read
    (tb.readSnapshot E A F.codec M t [] []).2 = .err e := by
  refine ⟨env, arrow, docFormats, mergeEnv arrow, [], docTree c!"documented", dirtyTable, recFirst,
    ⟨t2, .deltaCommit, [(f1, .append [(c!"1", c!"0-0-1")])]⟩, f1, t0, (c!"1", c!"0-0-1"),
    docBlock c!"documented", docFields [], docFields docText, docArrow [], _, 1, 1, docBase, .arrow,
    by intro a b a' b' h1 h2 h; cases h1; cases h2; exact h, by intro n d h; cases h; rfl,
    doc_listable, dirty_reader, doc_faithful _, doc_faithful _, doc_arrowable _, rfl, rfl,
    ⟨by decide, by decide, _, rfl, rfl⟩, rfl,
    by unfold Batch.WF; decide, rfl, by decide, by rw [appendsTo_mem]; decide, rfl,
    ⟨by decide, by unfold MetaFits; decide, by intro _; unfold MetaFits; decide, by decide,
      (by intro rs h; cases h; decide), (by intro t b h; cases h)⟩, rfl, doc_block rfl, ?_, by decide +kernel⟩
  simp [optText]

end Hudi
