import Verif.Props.AvroTable
import Verif.Props.AvroDemo
import Verif.Props.ChangesDemo

/-! # C66: a table that meets the hypotheses, and a counterexample -/

namespace Hudi
open Spec Avro
namespace Demo

def optStr : AvroSchema := .union [.null, .string]

/-- The fields of the records in log files. -/
def incFields : List (Str × AvroSchema) :=
  [(c!"_hoodie_commit_seqno", optStr), (c!"_hoodie_record_key", optStr), (c!"name", optStr),
   (c!"ts", .union [.null, .long]), (c!"_hoodie_commit_time", optStr)]

/-- The same fields in another order. -/
def incFields' : List (Str × AvroSchema) :=
  [(c!"_hoodie_commit_seqno", optStr), (c!"name", optStr), (c!"_hoodie_record_key", optStr),
   (c!"ts", .union [.null, .long]), (c!"_hoodie_commit_time", optStr)]

/-- Formats in which two texts name the two schemas. -/
def avFormats : Formats where
  parseSchema t :=
    if t = c!"schema" then some (.record incFields)
    else if t = c!"reordered" then some (.record incFields') else none
  parquet _ := .err .parquet
  raw _ := []
  typeName _ := c!"other"
  render _ := c!"value"

def incArrow : List AField :=
  [⟨c!"_hoodie_commit_seqno", .utf8, true, none⟩, ⟨c!"_hoodie_record_key", .utf8, true, none⟩, ⟨c!"name", .utf8, true, none⟩,
   ⟨c!"ts", .int64, true, none⟩, ⟨c!"_hoodie_commit_time", .utf8, true, none⟩]

def optText (s : Str) : AvroValue := .union 1 (.string s)

def avRecord (seq key : Str) (name : AvroValue) (n : Nat) (time : Str) : AvroValue :=
  .record [(c!"_hoodie_commit_seqno", optText seq), (c!"_hoodie_record_key", optText key), (c!"name", name),
    (c!"ts", .union 1 (.long n)), (c!"_hoodie_commit_time", optText time)]

/-- The record appended by a write that failed, and the two of the delta commit, one with a null. -/
def recB : AvroValue := avRecord c!"3" c!"B" (optText c!"y") 1 t1
def recC : AvroValue := avRecord c!"4" c!"C" (optText c!"z") 9 t2
def recE : AvroValue := avRecord c!"5" c!"E" (.union 0 .null) 2 t2

def textBytes (s : Str) : Bytes := 2 :: UInt8.ofNat (2 * (utf8Encode s).length) :: utf8Encode s

def avBytes (seq key : Str) (name : Bytes) (n : Nat) (time : Str) : Bytes :=
  textBytes seq ++ (textBytes key ++ (name ++ ((2 :: [UInt8.ofNat (2 * n)]) ++ (textBytes time ++ []))))

/-- The block of the write that failed. -/
def a1 : WBlock := ⟨.v1, [(.instantTime, t1), (.schema, c!"schema")],
  .avro [avBytes c!"3" c!"B" (textBytes c!"y") 1 t1], [], 0, 0⟩

/-- The block of the delta commit. -/
def a2 : WBlock := ⟨.v1, [(.instantTime, t2), (.schema, c!"schema")],
  .avro [avBytes c!"4" c!"C" (textBytes c!"z") 9 t2, avBytes c!"5" c!"E" [0] 2 t2], [], 0, 0⟩

theorem enc_optText (s : Str) (h : (utf8Encode s).length < 64) : Enc optStr (optText s) (textBytes s) :=
  ⟨1, .string s, _, rfl, by unfold Fits64; decide, enc_str h, by
    rw [show ((1 : Nat) : Int) = ((1 : Nat) : Int) from rfl, longBytes_nat 1 (by decide)]; rfl⟩

theorem enc_optLong (n : Nat) (h : n < 64) :
    Enc (.union [.null, .long]) (.union 1 (.long n)) (2 :: [UInt8.ofNat (2 * n)]) :=
  ⟨1, .long n, _, rfl, by unfold Fits64; decide, ⟨n, rfl, by unfold Fits64; omega, rfl⟩, by
    rw [longBytes_nat 1 (by decide), longBytes_nat n h]; rfl⟩

theorem enc_noText : Enc optStr (.union 0 .null) [0] :=
  ⟨0, .null, [], rfl, by unfold Fits64; decide, ⟨rfl, rfl⟩, by rw [longBytes_nat 0 (by decide)]; rfl⟩

theorem enc_record (seq key time : Str) (name : AvroValue) (nb : Bytes) (n : Nat)
    (h1 : (utf8Encode seq).length < 64) (h2 : (utf8Encode key).length < 64)
    (h3 : (utf8Encode time).length < 64) (hn : n < 64) (h4 : Enc optStr name nb) :
    Enc (.record incFields) (avRecord seq key name n time) (avBytes seq key nb n time) :=
  ⟨_, rfl, _, _, _, _, rfl, enc_optText seq h1, ⟨_, _, _, _, rfl, enc_optText key h2,
    ⟨_, _, _, _, rfl, h4, ⟨_, _, _, _, rfl, enc_optLong n hn, ⟨_, _, _, _, rfl, enc_optText time h3,
      ⟨rfl, rfl⟩, rfl⟩, rfl⟩, rfl⟩, rfl⟩, rfl⟩

theorem a1_block : AvroBlock avFormats a1 incFields [recB] where
  content := ⟨_, rfl, .cons (enc_record _ _ _ _ _ _ (by decide) (by decide) (by decide) (by decide)
    (enc_optText c!"y" (by decide))) .nil⟩
  schema := ⟨c!"schema", _, rfl, rfl⟩

theorem a2_block : AvroBlock avFormats a2 incFields [recC, recE] where
  content := ⟨_, rfl, .cons (enc_record _ _ _ _ _ _ (by decide) (by decide) (by decide) (by decide)
    (enc_optText c!"z" (by decide))) (.cons (enc_record _ _ _ _ _ _ (by decide) (by decide) (by decide)
    (by decide) enc_noText) .nil)⟩
  schema := ⟨c!"schema", _, rfl, rfl⟩

theorem a1_wf : a1.WF :=
  ⟨by decide, by unfold MetaFits; decide, by intro _; unfold MetaFits; decide, by decide,
    (by intro rs h; cases h; decide), (by intro t b h; cases h)⟩

theorem a2_wf : a2.WF :=
  ⟨by decide, by unfold MetaFits; decide, by intro _; unfold MetaFits; decide, by decide,
    (by intro rs h; cases h; decide), (by intro t b h; cases h)⟩

theorem inc_faithful : FaithfulRecord incFields := by
  refine ⟨by simp [incFields], ?_, ?_⟩
  · simp only [incFields, Named, NamedFields, optStr, NamedAll, NameOk]
    decide
  · simp [FaithfulFields, incFields, optStr, Spec.Faithful, Place.opt, FaithfulOpt, isNullSchema]

theorem inc_arrowable : ArrowableFields incFields := by
  simp [ArrowableFields, incFields, optStr, Arrowable, ArrowableOpt, isNullSchema]

def avWritten : WrittenAvro where
  base := chWritten.base
  appended := fun ts k => if ts = t2 ∧ k = f1 then [recC, recE] else []

/-- The log file holds the block of a write that failed, that of the delta commit, and the rollback of the
failed write. -/
def avTree : Tree :=
  .dir c!".hoodie" (.file c!"20231231000000000.commit" 1 (.json (.obj chDoc0))
    (.file c!"20240102000000000.deltacommit" 1 (.json (.obj chDoc2))
    (.file c!"20240104000000000.commit" 1 (.json (.obj chDoc4)) .nil)))
  (.file morBase 1 (.parquet 1 base1) (.file morLog 1 (.bytes (logBytes [a1, a2, w3]))
    (.file recBase 1 (.parquet 1 base2) .nil)))

def avHeld (p : Str) : List WBlock := if p = morLog then [a1, a2, w3] else []

theorem av_stored : Stores env.ltz c!"utc" recTable.opts avTree recHistory :=
  stores_of (by decide) (by decide) (by decide) (partitionOf_mem (by decide) rfl) (by decide) (by decide)
    (by decide)

theorem av_docs : StoresDocs avTree recHistory := by
  refine storesDocs_of chDocs chWrites (by decide) ?_ (fun x hx => chDocs_record _ ?_) (by decide) (by decide)
    (by decide)
  · intro x hx
    simp only [recHistory, recFirst, splitsOf, List.cons_append, List.nil_append, List.mem_cons,
      List.not_mem_nil, or_false] at hx
    rcases hx with rfl | rfl | rfl
    exacts [⟨1, rfl⟩, ⟨1, rfl⟩, ⟨1, rfl⟩]
  · revert x; decide

theorem av_listable : ListableTable env arrow [] avTree recTable c!"utc" recHistory 17 [] [] [] false false where
  load := rfl
  tree := by decide
  zone := rfl
  history := rec_wf
  stores := av_stored
  parsed := rfl
  columns := (partitionSchema_ok (E := env) (o := []) (t0 := avTree) rfl
    (timelineNames_normal (by decide))).1 (by decide +kernel)
  names := by unfold FieldNames; decide
  applicable := by simp
  style := ⟨rfl, rfl⟩
  parallelism := by intro v hv; cases hv
  docs := fun i hi ha => absurd ha (by revert i; decide)

theorem av_block {k : GroupKey} {base : Str} {w : WBlock} (h : BlockOf recHistory avHeld k base w) :
    k = f1 ∧ base = t0 ∧ (w = a1 ∨ w = a2 ∨ w = w3) := by
  obtain ⟨l, c, h, hw⟩ := h
  obtain ⟨rfl, rfl, rfl, rfl⟩ := appends_rec h
  replace hw : w ∈ [a1, a2, w3] := hw
  simp only [List.mem_cons, List.not_mem_nil, or_false] at hw
  exact ⟨rfl, rfl, hw⟩

theorem avroBlock_det {F : Formats} {w : WBlock} {fs : List (Str × AvroSchema)} {vs vs' : List AvroValue}
    (h : AvroBlock F w fs vs) (h' : AvroBlock F w fs vs') : vs = vs' := by
  obtain ⟨rs, h1, h2⟩ := h.content
  obtain ⟨rs', h1', h2'⟩ := h'.content
  rw [h1] at h1'
  cases h1'
  clear h1 h h'
  induction h2 generalizing vs' with
  | nil => cases h2'; rfl
  | cons e _ ih =>
    cases h2' with
    | cons e' h2' =>
      rw [ih h2', (C56_avro_values_decode _ _ _ [] e).2 _ e']

theorem av_records : StoresAvro avFormats some c!"utc" incFields incSchema avTree recHistory avWritten avHeld where
  bases := by
    intro c hc k token hm
    have hc' := hc
    simp only [recHistory, recFirst, List.cons_append, List.nil_append, List.mem_cons,
      List.not_mem_nil, or_false] at hc
    rcases hc with rfl | rfl | rfl <;> rw [List.mem_singleton] at hm <;> cases hm
    · exact ⟨⟨1, 1, _, rfl⟩, by unfold Batch.WF; decide, by decide⟩
    · exact ⟨⟨1, 1, _, rfl⟩, by unfold Batch.WF; decide, by decide⟩
  logs := by
    intro k base l c h
    obtain ⟨rfl, rfl, rfl, rfl⟩ := appends_rec h
    exact ⟨1, rfl⟩
  blocks := by
    intro k base w hb
    obtain ⟨rfl, rfl, rfl | rfl | rfl⟩ := av_block hb
    · exact ⟨a1_wf, ⟨t1, _, rfl, rfl⟩, .inl ⟨_, a1_block⟩⟩
    · exact ⟨a2_wf, ⟨t2, _, rfl, rfl⟩, .inl ⟨_, a2_block⟩⟩
    · exact ⟨w3_wf, ⟨t3, _, rfl, rfl⟩, .inr ⟨t1, ⟨rfl, _, rfl, rfl⟩, rfl⟩⟩
  rollbacks := by
    intro k base w i hb hr c hc
    obtain ⟨rfl, rfl, rfl | rfl | rfl⟩ := av_block hb
    · exact absurd hr.1.1 (by decide)
    · exact absurd hr.1.1 (by decide)
    · have : some i = some t1 := hr.2.symm
      cases this
      revert c; decide
  records := by
    intro k base l c h v
    have h' := h
    obtain ⟨rfl, rfl, rfl, rfl⟩ := appends_rec h
    show v ∈ [recC, recE] ↔ _
    constructor
    · intro hv
      exact ⟨a2, _, ⟨_, _, h', show a2 ∈ [a1, a2, w3] by simp⟩, rfl, a2_block, hv⟩
    · rintro ⟨w, vs, hb, hwr, hab, hv⟩
      obtain ⟨_, _, rfl | rfl | rfl⟩ := av_block hb
      · exact absurd hwr (by unfold WrittenBy; decide)
      · rw [avroBlock_det hab a2_block] at hv
        exact hv
      · obtain ⟨rs, hc, _⟩ := hab.content
        cases hc
  nothing := by
    intro c hc k hk
    have : ∀ c ∈ recHistory, ∀ e ∈ c.changes, e.2 ≠ .append [] := by decide
    exact absurd rfl (this c hc _ hk)

theorem av_pending : NoPendingBlocks some c!"utc" t4 recHistory avHeld := by
  rintro k base w i ⟨l, c, hap, hw⟩ hwr _
  have hap' := hap
  obtain ⟨rfl, rfl, rfl, rfl⟩ := appends_rec hap
  replace hw : w ∈ [a1, a2, w3] := hw
  simp only [List.mem_cons, List.not_mem_nil, or_false] at hw
  rcases hw with rfl | rfl | rfl
  · refine .inr (.inr ⟨w3, ⟨_, _, hap', ?_⟩, ⟨⟨rfl, _, rfl, rfl⟩, ?_⟩, t3, _, _, rfl, rfl, rfl, ?_⟩)
    · show w3 ∈ [a1, a2, w3]
      simp
    · exact hwr
    · left; unfold Before; decide
  · refine .inr (.inl ⟨_, _, hap', ?_⟩)
    have : some t2 = some i := hwr
    cases this
    rfl
  · exact .inl ⟨rfl, _, rfl, rfl⟩

theorem av_pendingSpan : NoPendingInSpan some c!"utc" t0 t4 recHistory avHeld := by
  rintro k base w i ⟨l, c, hap, hin, hw⟩ hwr _
  have hap' := hap
  obtain ⟨rfl, rfl, rfl, rfl⟩ := appends_rec hap
  replace hw : w ∈ [a1, a2, w3] := hw
  simp only [List.mem_cons, List.not_mem_nil, or_false] at hw
  rcases hw with rfl | rfl | rfl
  · refine .inr (.inr ⟨w3, ⟨_, _, hap', hin, ?_⟩, ⟨⟨rfl, _, rfl, rfl⟩, ?_⟩, t3, _, _, _, rfl, rfl, rfl, rfl, ?_, ?_⟩)
    · show w3 ∈ [a1, a2, w3]
      simp
    · exact hwr
    · unfold Before; decide
    · left; unfold Before; decide
  · refine .inr (.inl ⟨_, _, hap', ?_⟩)
    have : some t2 = some i := hwr
    cases this
    rfl
  · exact .inl ⟨rfl, _, rfl, rfl⟩

theorem av_dated : Dated incSchema recHistory (avWritten.rows avFormats incArrow) avHeld where
  blocks := by
    rintro k base l c h w ⟨l', c', h', hw⟩ _
    obtain ⟨rfl, rfl, rfl, rfl⟩ := appends_rec h
    obtain ⟨_, _, rfl, rfl⟩ := appends_rec h'
    exact ⟨_, h', hw⟩
  records := by
    intro c hc k ls hm
    have : ∀ c ∈ recHistory, ∀ e ∈ c.changes, ∀ r ∈ (avWritten.rows avFormats incArrow).appended c.ts e.1,
        commitTimeOf incSchema r = some c.ts := by decide +kernel
    exact this c hc _ hm

end Demo

open Demo in
/-- The hypotheses of C66 are met by this table: a log file with the Avro block of a failed write, that of a
delta commit with two records, and a rollback.  What is read at its latest commit, and what changed after
its first. -/
example : MonotoneTz env.ltz ∧ WholeSecondsTz env.ltz ∧
    ListableTable env arrow [] avTree recTable c!"utc" recHistory 17 [] [] [] false false ∧
    MergingReader recTable c!"utc" c!"ts" ∧ FaithfulRecord incFields ∧ ArrowableFields incFields ∧
    toArrowSchema (.record incFields) = .ok incArrow ∧ columnsOf avFormats incArrow = incSchema ∧
    MergeColumns incSchema c!"ts" ∧ HasCommitTime incSchema ∧
    StoresAvro avFormats env.ltz c!"utc" incFields incSchema avTree recHistory avWritten avHeld ∧
    (WriterTimestamp t4 ∧ t4.length = 17) ∧ (∃ d, parseDatetime env.ltz t4 c!"utc" = .ok d) ∧
    NoPendingBlocks env.ltz c!"utc" t4 recHistory avHeld ∧ StoresDocs avTree recHistory ∧
    Dated incSchema recHistory (avWritten.rows avFormats incArrow) avHeld ∧
    NoPendingInSpan env.ltz c!"utc" t0 t4 recHistory avHeld ∧
    (recTable.readSnapshotAsOf env arrow avFormats.codec (mergeEnv arrow) avTree t4 [] []).2 =
      .ok [⟨incSchema, [datedRow c!"4" c!"C" c!"z" 9 t2, datedRow c!"1" c!"A" c!"ann" 5 t0,
        [some (.str c!"5"), some (.str c!"E"), none, some (.int 2), some (.str t2)]]⟩, base2] ∧
    recTable.readIncremental env arrow avFormats.codec (mergeEnv arrow) avTree t0 (some t4) =
      .ok [⟨incSchema, [datedRow c!"4" c!"C" c!"z" 9 t2,
        [some (.str c!"5"), some (.str c!"E"), none, some (.int 2), some (.str t2)]]⟩, base2] :=
  ⟨by intro a b a' b' h1 h2 h; cases h1; cases h2; exact h, by intro n d h; cases h; rfl,
    av_listable, rec_reader, inc_faithful, inc_arrowable, rfl, rfl, ⟨by decide, by decide, _, rfl, rfl⟩,
    ⟨_, rfl, rfl⟩, av_records, by decide, ⟨_, rfl⟩, av_pending, av_docs, av_dated, av_pendingSpan,
    by decide +kernel, by decide +kernel⟩

namespace Demo

/-- An update of the record with key `C`, with its fields in the other order. -/
def recSwapped : AvroValue :=
  .record [(c!"_hoodie_commit_seqno", optText c!"4"), (c!"name", optText c!"z"),
    (c!"_hoodie_record_key", optText c!"C"), (c!"ts", .union 1 (.long 9)), (c!"_hoodie_commit_time", optText t2)]

/-- Its block. -/
def y2 : WBlock := ⟨.v1, [(.instantTime, t2), (.schema, c!"reordered")],
  .avro [avBytes c!"4" c!"z" (textBytes c!"C") 9 t2], [], 0, 0⟩

theorem y2_block : AvroBlock avFormats y2 incFields' [recSwapped] where
  content := ⟨_, rfl, .cons ⟨_, rfl, _, _, _, _, rfl, enc_optText c!"4" (by decide), ⟨_, _, _, _, rfl,
    enc_optText c!"z" (by decide), ⟨_, _, _, _, rfl, enc_optText c!"C" (by decide), ⟨_, _, _, _, rfl,
    enc_optLong 9 (by decide), ⟨_, _, _, _, rfl, enc_optText t2 (by decide), ⟨rfl, rfl⟩, rfl⟩, rfl⟩, rfl⟩,
    rfl⟩, rfl⟩ .nil⟩
  schema := ⟨c!"reordered", _, rfl, rfl⟩

theorem inc_faithful' : FaithfulRecord incFields' := by
  refine ⟨by simp [incFields'], ?_, ?_⟩
  · simp only [incFields', Named, NamedFields, optStr, NamedAll, NameOk]
    decide
  · simp [FaithfulFields, incFields', optStr, Spec.Faithful, Place.opt, FaithfulOpt, isNullSchema]

def swapTree : Tree :=
  .dir c!".hoodie" (.file c!"20231231000000000.commit" 1 (.json (.obj chDoc0))
    (.file c!"20240102000000000.deltacommit" 1 (.json (.obj chDoc2)) .nil))
  (.file morBase 1 (.parquet 1 base1) (.file morLog 1 (.bytes (logBytes [y2])) .nil))

theorem swap_stored : Stores env.ltz c!"utc" dirtyTable.opts swapTree recFirst :=
  stores_of (by decide) (by decide) (by decide) (partitionOf_mem (by decide) rfl) (by decide) (by decide)
    (by decide)

theorem swap_listable : ListableTable env arrow [] swapTree dirtyTable c!"utc" recFirst 17 [] [] [] false false where
  load := rfl
  tree := by decide
  zone := rfl
  history := rec_wf.prefix (h' := [⟨t4, .commit, [(f2, .write c!"0-4-1")]⟩])
  stores := swap_stored
  parsed := rfl
  columns := (partitionSchema_ok (E := env) (o := []) (t0 := swapTree) rfl
    (timelineNames_normal (by decide))).1 (by decide +kernel)
  names := by unfold FieldNames; decide
  applicable := by simp
  style := ⟨rfl, rfl⟩
  parallelism := by intro v hv; cases hv
  docs := fun i hi ha => absurd ha (by revert i; decide)

end Demo

open Demo in
/-- **C66 is false.**  A commit appends an update of the record with key `C`, in a schema with the table's
columns in another order.  The columns are matched by position: the snapshot returns a record with the key
`z` (the name in the update), which was never written, and the old version of `C`. -/
theorem C66_false : ∃ (E : Env) (A : Arrow) (F : Formats) (M : MergeEnv A) (o : Opts) (t : Tree) (tb : Table)
    (h : History) (c : HCommit) (k : GroupKey) (base : Str) (l : Str × Str) (w : WBlock)
    (fs fs' : List (Str × AvroSchema)) (fields : List AField) (kvs : List (Str × AvroValue)) (size bytes : Nat)
    (b out : Batch),
    MonotoneTz E.ltz ∧ WholeSecondsTz E.ltz ∧
    ListableTable E A o t tb c!"utc" h 17 [] [] [] false false ∧ MergingReader tb c!"utc" c!"ts" ∧
    FaithfulRecord fs ∧ FaithfulRecord fs' ∧ fs'.Perm fs ∧ toArrowSchema (.record fs) = .ok fields ∧
    MergeColumns (columnsOf F fields) c!"ts" ∧
    -- the base file has the columns `fs`, and holds a record with key `C`
    t.fileAt (pathSegs (basePathOf k c!"0-0-0" base)) = some (size, .parquet bytes b) ∧ b.WF ∧
    b.schema = columnsOf F fields ∧ (∃ r ∈ b.rows, keyOf b.schema r = c!"C") ∧
    -- the commit appended a record of the same key
    AppendsTo h k base l c ∧
    t.fileAt (pathSegs (logPathOf k base l)) = some (size, .bytes (logBytes [w])) ∧ w.WF ∧
    WrittenBy w c.ts ∧ AvroBlock F w fs' [.record kvs] ∧
    (c!"_hoodie_record_key", AvroValue.union 1 (.string c!"C")) ∈ kvs ∧
    -- the read
    (tb.readSnapshot E A F.codec M t [] []).2 = .ok [out] ∧
    (∃ r ∈ out.rows, keyOf out.schema r = c!"z") ∧ (∀ r ∈ b.rows, keyOf b.schema r ≠ c!"z") ∧
    ∀ r ∈ out.rows, keyOf out.schema r = c!"C" → r ∈ b.rows := by
  refine ⟨env, arrow, avFormats, mergeEnv arrow, [], swapTree, dirtyTable, recFirst,
    ⟨t2, .deltaCommit, [(f1, .append [(c!"1", c!"0-0-1")])]⟩, f1, t0, (c!"1", c!"0-0-1"), y2, incFields, incFields',
    incArrow, _, 1, 1, base1,
    ⟨incSchema, [datedRow c!"4" c!"z" c!"C" 9 t2, datedRow c!"1" c!"C" c!"bob" 7 t0,
      datedRow c!"1" c!"A" c!"ann" 5 t0]⟩,
    by intro a b a' b' h1 h2 h; cases h1; cases h2; exact h, by intro n d h; cases h; rfl,
    swap_listable, dirty_reader, inc_faithful, inc_faithful', ?_, rfl, ⟨by decide, by decide, _, rfl, rfl⟩, rfl,
    by unfold Batch.WF; decide, rfl, by decide, by rw [appendsTo_mem]; decide, rfl,
    ⟨by decide, by unfold MetaFits; decide, by intro _; unfold MetaFits; decide, by decide,
      (by intro rs h; cases h; decide), (by intro t b h; cases h)⟩, rfl, y2_block, ?_, by decide +kernel,
    by decide, by decide, by decide⟩
  · exact .cons _ (.swap _ _ _)
  · simp [optText]

end Hudi
