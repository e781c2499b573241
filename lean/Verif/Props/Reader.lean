import Verif.Spec.Reader
import Verif.Props.Merge
import Verif.Props.Scan
import Verif.Props.Order

/-! # C33, C40: reading file slices -/

namespace Hudi
open Spec

/-! ## Options of a read -/

theorem metaFields_eq (o : Opts) : (Cfg.populatesMetaFields.getOrDefault o >>= CfgVal.toBool) =
    .ok (decide (MetaFields o)) := by
  rw [show decide (MetaFields o) = decide (hmGet c!"hoodie.populate.meta.fields" o ≠ some c!"false") from
    decide_eq_decide.2 Iff.rfl]
  unfold Cfg.getOrDefault Cfg.get
  rw [show Cfg.populatesMetaFields.key = c!"hoodie.populate.meta.fields" from rfl]
  cases hmGet c!"hoodie.populate.meta.fields" o with
  | none => simp; rfl
  | some v =>
    simp only [Cfg.parseRaw, parseBool, Option.some.injEq]
    by_cases h1 : v = c!"true"
    · subst h1; decide
    · by_cases h2 : v = c!"false"
      · subst h2; decide
      · simp [h1, h2, Cfg.default, CfgVal.toBool]

theorem readOptimized_eq (o : Opts) : (Cfg.useReadOptimizedMode.getOrDefault o >>= CfgVal.toBool) =
    .ok (decide (ReadOptimized o)) := by
  rw [show decide (ReadOptimized o) =
    decide (hmGet c!"hoodie.read.use.read_optimized.mode" o = some c!"true") from
    decide_eq_decide.2 Iff.rfl]
  unfold Cfg.getOrDefault Cfg.get
  rw [show Cfg.useReadOptimizedMode.key = c!"hoodie.read.use.read_optimized.mode" from rfl]
  cases hmGet c!"hoodie.read.use.read_optimized.mode" o with
  | none => simp; rfl
  | some v =>
    simp only [Cfg.parseRaw, parseBool, Option.some.injEq]
    by_cases h1 : v = c!"true"
    · subst h1; decide
    · by_cases h2 : v = c!"false"
      · subst h2; decide
      · simp [h1, h2, Cfg.default, CfgVal.toBool]

theorem start_eq (o : Opts) : optStr (Cfg.fileGroupStartTimestamp.tryGet o) = .ok (startOf o) := by
  unfold startOf Cfg.tryGet Cfg.get
  rw [show Cfg.fileGroupStartTimestamp.key = c!"hoodie.read.file_group.start_timestamp" from rfl]
  cases hmGet c!"hoodie.read.file_group.start_timestamp" o <;> rfl

theorem end_eq (o : Opts) : optStr (Cfg.fileGroupEndTimestamp.tryGet o) = .ok (endOf o) := by
  unfold endOf Cfg.tryGet Cfg.get
  rw [show Cfg.fileGroupEndTimestamp.key = c!"hoodie.read.file_group.end_timestamp" from rfl]
  cases hmGet c!"hoodie.read.file_group.end_timestamp" o <;> rfl

/-- The filters a read applies to base file rows. -/
theorem filters_eq (A : Arrow) (o : Opts) : baseFileFilters A o = .ok (
    if MetaFields o then
      (startOf o).map (fun s => ⟨⟨commitTimeField, .utf8, false⟩, .gt, .str s⟩ ::
        ((endOf o).map (fun e => (⟨⟨commitTimeField, .utf8, false⟩, .lte, .str e⟩ : SFilter))).toList)
    else none) := by
  unfold baseFileFilters
  have hm := metaFields_eq o
  obtain ⟨v, h1, h2⟩ := Res.bind_eq_ok.1 hm
  rw [h1]
  simp only [Res.ok_bind, h2]
  by_cases h : MetaFields o
  · simp only [h, decide_true, Bool.true_eq_false, if_false, if_true, start_eq, Res.ok_bind]
    cases startOf o with
    | none => rfl
    | some s =>
      simp only [end_eq, Res.ok_bind]
      cases endOf o with
      | none => rfl
      | some e => rfl
  · simp [h]

/-! ## The mask -/

/-- The mask of one filter on the commit time, row by row. -/
def timeMask (schema : Schema) (op : Op) (ts : Str) (row : List Cell) : Bool :=
  match commitTimeOf schema row with
  | some c => op.holds (compare c ts)
  | none => false

theorem cellOf_field_type {b : Batch} (h : b.WF) {name : Str} {f : Field}
    (hf : b.schema.find? (fun f => decide (f.name = name)) = some f) {r : List Cell} (hr : r ∈ b.rows)
    {v : Val} (hv : cellOf b.schema name r = some v) : v.hasType f.dtype = true := by
  obtain ⟨i, hi⟩ := indexOf_isSome.2 (⟨f, List.mem_of_find?_eq_some hf, by
    simpa using List.find?_some hf⟩ : ∃ f ∈ b.schema, f.name = name)
  obtain ⟨hl, ht⟩ := h r hr
  rw [indexOf_zip hi hl] at hv
  cases hc : r[i]? with
  | none => rw [hc] at hv; cases hv
  | some c =>
    rw [hc] at hv
    have hmem : (f, c) ∈ b.schema.zip r := by
      rw [List.mem_iff_getElem?]
      exact ⟨i, by rw [List.getElem?_zip_eq_some]; exact ⟨by rw [indexOf_find hi]; exact hf, hc⟩⟩
    exact (ht _ hmem).2 v hv

theorem columnMask_eq {A : Arrow} {b : Batch} (hwf : b.WF) (hcol : HasCommitTime b.schema) (op : Op)
    (ts : Str) (nl : Bool) : columnMask A b ⟨⟨commitTimeField, .utf8, nl⟩, op, .str ts⟩ =
      .ok (b.rows.map (timeMask b.schema op ts)) := by
  obtain ⟨f, hf, hft⟩ := hcol
  obtain ⟨i, hi⟩ := indexOf_isSome.2 (⟨f, List.mem_of_find?_eq_some hf, by
    simpa using List.find?_some hf⟩ : ∃ f ∈ b.schema, f.name = c!"_hoodie_commit_time")
  unfold columnMask
  rw [show commitTimeField = c!"_hoodie_commit_time" from rfl]
  simp only [hi]
  rw [if_neg (by rw [indexOf_find hi, hf]; simp [hft])]
  unfold Batch.column
  rw [Res.mapL_ok_iff, List.map_map, List.map_map]
  refine List.map_congr_left (fun r hr => ?_)
  simp only [Function.comp]
  unfold timeMask commitTimeOf
  have hc := indexOf_zip hi (hwf r hr).1
  rw [← hc]
  cases hv : cellOf b.schema c!"_hoodie_commit_time" r with
  | none => rfl
  | some v =>
    have := cellOf_field_type hwf hf hr hv
    rw [hft] at this
    cases v with
    | str c => rfl
    | _ => cases this

theorem zipWith_and_map {α : Type} (l : List α) (p q : α → Bool) :
    List.zipWith (· && ·) (l.map p) (l.map q) = l.map (fun a => p a && q a) := by
  induction l with
  | nil => rfl
  | cons a l ih => simp

theorem filterRows_map (b : Batch) (p : List Cell → Bool) :
    filterRows b (b.rows.map p) = ⟨b.schema, b.rows.filter p⟩ := by
  unfold filterRows
  congr 1
  induction b.rows with
  | nil => rfl
  | cons r rs ih =>
    simp only [List.map_cons, List.zip_cons_cons, List.filterMap_cons, List.filter_cons]
    rw [ih]
    by_cases h : p r = true
    · simp [h]
    · simp [h]

/-- The mask of all filters on the commit time. -/
theorem combinedMask_eq {A : Arrow} {b : Batch} (hwf : b.WF) (hcol : HasCommitTime b.schema)
    (s : Str) (e : Option Str) :
    combinedMask A b (⟨⟨commitTimeField, .utf8, false⟩, .gt, .str s⟩ ::
        (e.map (fun e => (⟨⟨commitTimeField, .utf8, false⟩, .lte, .str e⟩ : SFilter))).toList) =
      .ok (b.rows.map (fun r => timeMask b.schema .gt s r &&
        e.all (fun e => timeMask b.schema .lte e r))) := by
  unfold combinedMask
  have hrep : List.replicate b.rows.length true = b.rows.map (fun _ => true) := by simp
  cases e with
  | none =>
    simp only [Option.map_none, Option.toList_none, Res.foldL, columnMask_eq hwf hcol, Res.ok_bind,
      Res.pure_eq, Option.all_none, Bool.and_true]
    rw [hrep, zipWith_and_map]
    simp
  | some e =>
    simp only [Option.map_some, Option.toList_some, Res.foldL, columnMask_eq hwf hcol, Res.ok_bind,
      Res.pure_eq, Option.all_some]
    rw [hrep, zipWith_and_map, zipWith_and_map]
    simp

theorem timeMask_iff (schema : Schema) (s : Str) (e : Option Str) (r : List Cell) :
    (timeMask schema .gt s r && e.all (fun e => timeMask schema .lte e r)) = true ↔
      CommittedIn schema s e r := by
  unfold timeMask CommittedIn
  cases commitTimeOf schema r with
  | none => simp
  | some c =>
    have hgt : Op.gt.holds (compare c s) = true ↔ compare s c = .lt := by
      rw [Std.OrientedCmp.eq_swap (cmp := (compare : Str → Str → Ordering)) (a := s)]
      unfold Op.holds
      cases compare c s <;> simp
    cases e with
    | none => simp [hgt]
    | some e =>
      have hle : Op.lte.holds (compare c e) = (compare c e).isLE := rfl
      simp [hgt, hle]

theorem readBaseFile_eq {A : Arrow} {o : Opts} {t : Tree} {path : Str} {b : Batch}
    (hat : ParquetAt t path b) (hwf : b.WF)
    (hcol : startOf o ≠ none → MetaFields o → HasCommitTime b.schema) :
    ∃ rows, readBaseFile A o t path = .ok ⟨b.schema, rows⟩ ∧ BaseRows o b rows := by
  obtain ⟨size, bsize, footer, hf⟩ := hat
  have hget : getParquetData t path = .ok b := by
    unfold getParquetData getFile
    rw [hf]; rfl
  unfold readBaseFile BaseRows
  rw [hget, filters_eq]
  simp only [Res.mapErr, Res.ok_bind]
  by_cases hm : MetaFields o
  · rw [if_pos hm]
    cases hs : startOf o with
    | none => exact ⟨_, rfl, rfl⟩
    | some s =>
      simp only [Option.map_some]
      rw [combinedMask_eq hwf (hcol (by rw [hs]; simp) hm)]
      simp only [Res.ok_bind, filterRows_map]
      exact ⟨_, rfl, fun _ => ⟨_, rfl, fun r _ => timeMask_iff _ _ _ _⟩, fun h => absurd hm h⟩
  · rw [if_neg hm]
    cases startOf o with
    | none => exact ⟨_, rfl, rfl⟩
    | some s => exact ⟨_, rfl, fun h => absurd h hm, fun _ => rfl⟩

/-! ## C33 -/

/-- **C33 (by text).**  Reading a base file with a start timestamp keeps, in order, exactly the rows
whose commit time is after the start and not after the end, timestamps being compared as text. -/
theorem C33_rows_in_range (A : Arrow) (o : Opts) (t : Tree) (path : Str) (b : Batch)
    (hat : ParquetAt t path b) (hwf : b.WF) (hcol : HasCommitTime b.schema) (hmeta : MetaFields o)
    (start : Str) (hstart : startOf o = some start) :
    ∃ keep : List Cell → Bool, readBaseFile A o t path = .ok ⟨b.schema, b.rows.filter keep⟩ ∧
      ∀ r ∈ b.rows, keep r = true ↔ CommittedIn b.schema start (endOf o) r := by
  obtain ⟨rows, h1, h2⟩ := readBaseFile_eq (A := A) (o := o) hat hwf (fun _ _ => hcol)
  unfold BaseRows at h2
  rw [hstart] at h2
  obtain ⟨keep, rfl, h3⟩ := h2.1 hmeta
  exact ⟨keep, h1, h3⟩

/-- **C33.**  Without a start timestamp, or without meta fields, every row is kept. -/
theorem C33_all_rows (A : Arrow) (o : Opts) (t : Tree) (path : Str) (b : Batch)
    (hat : ParquetAt t path b) (h : startOf o = none ∨ ¬ MetaFields o) :
    readBaseFile A o t path = .ok b := by
  obtain ⟨size, bsize, footer, hf⟩ := hat
  have hget : getParquetData t path = .ok b := by
    unfold getParquetData getFile
    rw [hf]; rfl
  unfold readBaseFile
  rw [hget, filters_eq]
  simp only [Res.mapErr, Res.ok_bind]
  rcases h with h | h
  · rw [h]
    by_cases hm : MetaFields o
    · rw [if_pos hm]; rfl
    · rw [if_neg hm]; rfl
  · rw [if_neg h]; rfl

/-- **C33.**  A file whose rows cannot be filtered, because it has no commit time column, is an error;
its rows are not returned unfiltered. -/
theorem C33_no_commit_time_is_an_error (A : Arrow) (o : Opts) (t : Tree) (path : Str) (b : Batch)
    (hat : ParquetAt t path b) (hcol : ∀ f ∈ b.schema, f.name ≠ c!"_hoodie_commit_time")
    (hmeta : MetaFields o) (hstart : startOf o ≠ none) :
    readBaseFile A o t path = .err .readFileSlice := by
  obtain ⟨size, bsize, footer, hf⟩ := hat
  have hget : getParquetData t path = .ok b := by
    unfold getParquetData getFile
    rw [hf]; rfl
  unfold readBaseFile
  rw [hget, filters_eq, if_pos hmeta]
  simp only [Res.mapErr, Res.ok_bind]
  cases hs : startOf o with
  | none => exact absurd hs hstart
  | some s =>
    have hi : b.schema.indexOf commitTimeField = none := by
      cases hx : b.schema.indexOf commitTimeField with
      | none => rfl
      | some i =>
        obtain ⟨f, h1, h2⟩ := indexOf_isSome.1 ⟨i, hx⟩
        exact absurd h2 (hcol f h1)
    simp only [Option.map_some, combinedMask, Res.foldL_cons, columnMask, hi, Res.err_bind]

theorem committedIn_iff {ltz : LocalTz} (hmono : MonotoneTz ltz) {tz : Str} {schema : Schema}
    {start : Str} {stop : Option Str} {n : Nat} (hs : WriterTimestamp start ∧ start.length = n ∧
      ∃ d, parseDatetime ltz start tz = .ok d)
    (he : ∀ e, stop = some e → WriterTimestamp e ∧ e.length = n ∧ ∃ d, parseDatetime ltz e tz = .ok d)
    {r : List Cell} (hr : ∀ c, commitTimeOf schema r = some c → WriterTimestamp c ∧ c.length = n ∧
      ∃ d, parseDatetime ltz c tz = .ok d) :
    CommittedIn schema start stop r ↔ CommittedBetween ltz tz schema start stop r := by
  obtain ⟨hs1, hs2, ds, hs3⟩ := hs
  unfold CommittedIn CommittedBetween
  constructor
  · rintro ⟨c, h1, h2, h3⟩
    obtain ⟨hc1, hc2, dc, hc3⟩ := hr c h1
    rw [C04_same_width_partial ltz hmono tz _ _ _ _ hs1 hc1 (by omega) hs3 hc3, Int.compare_eq_lt] at h2
    refine ⟨c, dc, ds, h1, hc3, hs3, h2, ?_⟩
    intro e hee
    obtain ⟨he1, he2, de, he3⟩ := he e hee
    have := h3 e hee
    rw [C04_same_width_partial ltz hmono tz _ _ _ _ hc1 he1 (by omega) hc3 he3, Int.isLE_compare] at this
    exact ⟨de, he3, this⟩
  · rintro ⟨c, dc, ds', h1, hc3, hs3', h2, h3⟩
    rw [hs3] at hs3'; cases hs3'
    obtain ⟨hc1, hc2, _⟩ := hr c h1
    refine ⟨c, h1, ?_, ?_⟩
    · rw [C04_same_width_partial ltz hmono tz _ _ _ _ hs1 hc1 (by omega) hs3 hc3, Int.compare_eq_lt]
      exact h2
    · intro e hee
      obtain ⟨he1, he2, _⟩ := he e hee
      obtain ⟨de, he3, h4⟩ := h3 e hee
      rw [C04_same_width_partial ltz hmono tz _ _ _ _ hc1 he1 (by omega) hc3 he3, Int.isLE_compare]
      exact h4

/-- **C33 (partial).**  When the start, the end and the commit times in the file are timestamps as
writers produce them, all of one width, the rows kept are exactly those committed in the range in
time.  Missing: mixed widths, for which this is false (`C33_false`). -/
theorem C33_rows_in_time_range_partial (A : Arrow) (ltz : LocalTz) (hmono : MonotoneTz ltz) (tz : Str)
    (o : Opts) (t : Tree) (path : Str) (b : Batch)
    (hat : ParquetAt t path b) (hwf : b.WF) (hcol : HasCommitTime b.schema) (hmeta : MetaFields o)
    (start : Str) (hstart : startOf o = some start) (n : Nat)
    (hts : ∀ ts, ts = start ∨ endOf o = some ts ∨ (∃ r ∈ b.rows, commitTimeOf b.schema r = some ts) →
      WriterTimestamp ts ∧ ts.length = n ∧ ∃ d, parseDatetime ltz ts tz = .ok d) :
    ∃ keep : List Cell → Bool, readBaseFile A o t path = .ok ⟨b.schema, b.rows.filter keep⟩ ∧
      ∀ r ∈ b.rows, keep r = true ↔ CommittedBetween ltz tz b.schema start (endOf o) r := by
  obtain ⟨keep, h1, h2⟩ := C33_rows_in_range A o t path b hat hwf hcol hmeta start hstart
  refine ⟨keep, h1, fun r hr => ?_⟩
  rw [h2 r hr]
  exact committedIn_iff hmono (hts _ (.inl rfl)) (fun e he => hts e (.inr (.inl he)))
    (fun c hc => hts c (.inr (.inr ⟨r, hr, hc⟩)))

namespace Demo

def rSchema : Schema := [⟨c!"_hoodie_commit_time", .utf8, true⟩, ⟨c!"name", .utf8, true⟩]

/-- A base file with rows of three commits, the second written with milliseconds. -/
def rBatch : Batch := ⟨rSchema,
  [[some (.str c!"20240103153000000"), some (.str c!"ann")],
   [some (.str c!"20240103153100000"), some (.str c!"bob")],
   [none, some (.str c!"cid")],
   [some (.str c!"20240103153200000"), none]]⟩

def rTree : Tree := .file c!"base" 0 (.parquet 0 rBatch) .nil

def rOpts (start stop : Str) : Opts :=
  [(c!"hoodie.read.file_group.start_timestamp", start), (c!"hoodie.read.file_group.end_timestamp", stop)]

theorem rBatch_wf : rBatch.WF := by unfold Batch.WF; decide

theorem some_mono : MonotoneTz some := fun _ _ _ _ h h' hlt => by cases h; cases h'; exact hlt

end Demo

open Demo in
/-- The hypotheses hold of a file with rows of three commits and a range that keeps the second. -/
example : ParquetAt rTree c!"base" rBatch ∧ rBatch.WF ∧ HasCommitTime rBatch.schema ∧
    MetaFields (rOpts c!"20240103153000000" c!"20240103153100000") ∧
    startOf (rOpts c!"20240103153000000" c!"20240103153100000") = some c!"20240103153000000" ∧
    (∀ ts, ts = c!"20240103153000000" ∨
        endOf (rOpts c!"20240103153000000" c!"20240103153100000") = some ts ∨
        (∃ r ∈ rBatch.rows, commitTimeOf rBatch.schema r = some ts) →
      WriterTimestamp ts ∧ ts.length = 17 ∧ ∃ d, parseDatetime some ts c!"utc" = .ok d) ∧
    readBaseFile Demo.arrow (rOpts c!"20240103153000000" c!"20240103153100000") rTree c!"base" =
      .ok ⟨rSchema, [[some (.str c!"20240103153100000"), some (.str c!"bob")]]⟩ := by
  refine ⟨⟨0, 0, _, rfl⟩, rBatch_wf, ⟨_, rfl, rfl⟩, by decide, rfl, ?_, by decide⟩
  rintro ts (rfl | h | ⟨r, hr, h⟩)
  · exact ⟨by decide, rfl, _, rfl⟩
  · cases h; exact ⟨by decide, rfl, _, rfl⟩
  · simp only [rBatch, List.mem_cons, List.not_mem_nil, or_false] at hr
    rcases hr with rfl | rfl | rfl | rfl
    · cases h; exact ⟨by decide, rfl, _, rfl⟩
    · cases h; exact ⟨by decide, rfl, _, rfl⟩
    · cases h
    · cases h; exact ⟨by decide, rfl, _, rfl⟩

open Demo in
/-- **C33 as stated is false.**  A start given without milliseconds, `20240103153000`, denotes the
same time as the commit time `20240103153000000` but is textually before it, so the rows of that
commit, which are not after the start, are returned. -/
theorem C33_false : ∃ (A : Arrow) (ltz : LocalTz) (tz start : Str) (o : Opts) (t : Tree) (path : Str)
    (b b' : Batch) (r : List Cell), ParquetAt t path b ∧ b.WF ∧ HasCommitTime b.schema ∧
    MetaFields o ∧ startOf o = some start ∧ WriterTimestamp start ∧
    (∀ r ∈ b.rows, ∀ c, commitTimeOf b.schema r = some c → WriterTimestamp c) ∧
    readBaseFile A o t path = .ok b' ∧ r ∈ b'.rows ∧
    ¬ CommittedBetween ltz tz b.schema start (endOf o) r := by
  refine ⟨Demo.arrow, some, c!"utc", c!"20240103153000", rOpts c!"20240103153000" c!"20240103153100000",
    rTree, c!"base", rBatch, ⟨rSchema, [[some (.str c!"20240103153000000"), some (.str c!"ann")],
      [some (.str c!"20240103153100000"), some (.str c!"bob")]]⟩,
    [some (.str c!"20240103153000000"), some (.str c!"ann")],
    ⟨0, 0, _, rfl⟩, rBatch_wf, ⟨_, rfl, rfl⟩, by decide, rfl, by decide, ?_, by decide, by decide, ?_⟩
  · intro r hr c h
    simp only [rBatch, List.mem_cons, List.not_mem_nil, or_false] at hr
    rcases hr with rfl | rfl | rfl | rfl <;> cases h <;> decide
  · rintro ⟨c, dc, ds, h1, h2, h3, h4, _⟩
    cases h1
    have e : parseDatetime some c!"20240103153000000" c!"utc" = parseDatetime some c!"20240103153000" c!"utc" :=
      by decide
    rw [e, h3] at h2
    cases h2
    exact absurd h4 (Int.lt_irrefl _)

end Hudi
