import Verif.Spec.Query
import Verif.Props.FilteredRead
import Verif.Props.QueryScan
import Verif.Props.Predicates

/-! # C70: the rows a query returns -/

namespace Hudi
open Spec

theorem mem_matching {A : Arrow} {M : Meaning} {es : List Expr} {b : Batch} {r : List Cell} :
    r ∈ matching A M es b ↔ r ∈ b.rows ∧ ∀ e ∈ es, Satisfies A M (batchRow b.schema r) e := by
  unfold matching Satisfies
  rw [List.mem_filter, List.all_eq_true]
  simp only [decide_eq_true_eq]

/-- A file in a partition that is skipped has no row that satisfies the predicates. -/
theorem matching_skipped {A : Arrow} {M : Meaning} {D : Str → Str} (hD : Readable A D)
    {es handed : List Expr} (hsub : ∀ e ∈ handed, e ∈ es) (hor : ∀ e ∈ handed, ColumnFirst e)
    {fs : List Filter} (hfs : fromStrTuples (exprsToFilters D handed) = .ok fs) {schema : Schema}
    {hive url : Bool} {path : Str} {b : Batch} (hc : CarriesPartition A schema hive url path b)
    (hk : ¬ Kept A schema hive url fs path) : matching A M es b = [] := by
  rw [List.eq_nil_iff_forall_not_mem]
  intro r hr
  obtain ⟨h1, h2⟩ := mem_matching.1 hr
  apply hk
  rintro ⟨vals, hv, f, hf, hn⟩
  apply hn
  rw [translated hfs] at hf
  obtain ⟨e, he, hef⟩ := List.mem_filterMap.1 hf
  exact passes_of_satisfies hD (reads_types hv).2 (hc vals hv r h1) hef (hor e he) (h2 e (hsub e he))

/-- **C70 (partial).**  A query through the engine returns exactly the rows of the table's latest snapshot
that satisfy all its predicates: the files that the engine is told to read for the predicates handed to
the table hold, between them, as many copies of every row satisfying the query as the snapshot does.
What is missing: inequalities with the literal on the left (`C70_false`), partition columns whose order
in the table is not that of the partition fields (`C70_false_column_order`), predicates on other columns
(`C70_false_other_columns`), slices with log files (`C53_false`) and names that are percent-encoded
(`C47_false`). -/
theorem C70_query_returns_the_matching_rows_partial (E : Env) (A : Arrow) (C : Codec) (M : MergeEnv A)
    (U : Str → Option Str) (D : Str → Str) (hD : Readable A D) (S : Meaning)
    (tb : Table) (t : Tree) (hwf : TreeWF t)
    (hone : ∀ x, PartitionOf tb.opts t x → OneExtension (filesOf t x))
    (hplain : PlainTable tb.opts t) (base : Str) (ds : List Str)
    (hbase : tb.baseUrlPath U = .ok base) (hpb : PlainBase base ds)
    (hp : PlainStorage tb) (hstart : startOf tb.opts = none)
    (schema : Schema) (hschema : tb.partitionSchema t = .ok schema) (hnames : FieldNames schema)
    (hive url : Bool) (hstyle : PathStyle tb.opts hive url)
    (es handed : List Expr) (hsub : ∀ e ∈ handed, e ∈ es) (hor : ∀ e ∈ handed, ColumnFirst e)
    (gs : List (List ScanFile)) (h : (tb.scan E A U D t handed []).2 = .ok gs)
    (ss : List FileSlice) (hss : (tb.fileSlices E A t [] []).2 = .ok ss) (content : FileSlice → Batch)
    (hfiles : ∀ s ∈ ss, (s.logFiles = [] ∨ ReadOptimized tb.opts) ∧ ParquetAt t s.basePath (content s) ∧
      CarriesPartition A schema hive url s.partitionPath (content s)) :
    ∃ outs read, (tb.readSnapshot E A C M t [] []).2 = .ok outs ∧
      List.Forall₂ (fun f b => ∃ rel, storageKey base rel = .ok f.path ∧ ParquetAt t rel b)
        gs.flatten read ∧
      (read.flatMap (matching A S es)).Perm (outs.flatMap (matching A S es)) := by
  -- the slices that the scan finds
  obtain ⟨ssF, baseF, n, hF, hbF, hn, hdiv⟩ := scan_ok h
  have hsel : ∃ keep : Str → Bool, ssF = ss.filter (fun s => keep s.partitionPath) ∧
      ∀ s ∈ ss, keep s.partitionPath = false → matching A S es (content s) = [] := by
    unfold Table.fileSlices at hss hF
    cases hl : tb.timeline.latestTimestamp with
    | none => rw [hl] at hss hF; cases hss; cases hF; exact ⟨fun _ => true, rfl, by simp⟩
    | some ts =>
      rw [hl] at hss hF
      obtain ⟨_, e, hss⟩ := Query.bind_lift_snd.1 hss
      cases e
      obtain ⟨fs, hfs, hF⟩ := Query.bind_lift_snd.1 hF
      obtain ⟨s1, s2⟩ := slices_filter (fs := fs) hwf hschema hnames hstyle hss
      obtain ⟨keep, hk, hs⟩ := s1 (s2 ⟨_, hF⟩)
      rw [hF] at hs
      refine ⟨keep, Res.ok.inj hs, fun s hsm hks => ?_⟩
      refine matching_skipped hD hsub hor hfs (hfiles s hsm).2.2 ?_
      rw [← hk, hks]
      simp
  obtain ⟨keep, hssF, hskip⟩ := hsel
  have hmem : ∀ s ∈ ssF, s ∈ ss := fun s hs => by rw [hssF] at hs; exact (List.mem_filter.1 hs).1
  -- what the scan reads
  obtain ⟨read, h1, h2⟩ : ∃ read, List.Forall₂ (fun f b => ∃ rel, storageKey base rel = .ok f.path ∧
      ParquetAt t rel b) gs.flatten read ∧ read = ssF.map content := by
    obtain ⟨ss', n', g1, g2, _⟩ := C47_each_base_file_once_partial E A U D tb t hwf hone hplain base ds
      hbase hpb handed gs h
    rw [hF] at g1; cases g1
    refine ⟨_, ?_, rfl⟩
    have hlen : gs.flatten.length = ssF.length := by
      have := congrArg List.length g2
      rwa [List.length_map, List.length_map] at this
    refine List.forall₂_iff_get.2 ⟨by simp [hlen], fun i hi hj => ?_⟩
    have hi' : i < ssF.length := by simpa using hj
    have := congrArg (fun l => l[i]?) g2
    simp only [List.getElem?_map, List.getElem?_eq_getElem hi, List.getElem?_eq_getElem hi',
      Option.map_some, Option.some.injEq] at this
    exact ⟨ssF[i].basePath, this.symm, by
      simpa using (hfiles ssF[i] (hmem _ (List.getElem_mem hi'))).2.1⟩
  -- what the reader returns
  have hread : (tb.readSnapshot E A C M t [] []).2 = .ok (ss.map content) :=
    readSnapshot_bases hp hstart hss (fun s hs => ⟨(hfiles s hs).1, (hfiles s hs).2.1⟩)
  refine ⟨_, read, hread, h1, ?_⟩
  rw [h2, hssF]
  refine .of_eq ?_
  clear hread h1 h2 hssF hmem hss hfiles
  induction ss with
  | nil => rfl
  | cons s ss ih =>
    have ih := ih (fun s hs => hskip s (by simp [hs]))
    by_cases hk : keep s.partitionPath = true
    · rw [List.filter_cons_of_pos (by exact hk)]
      simp only [List.map_cons, List.flatMap_cons, ih]
    · rw [List.filter_cons_of_neg (by exact hk)]
      simp only [List.map_cons, List.flatMap_cons, ih, hskip s (by simp) (by simpa using hk),
        List.nil_append]

theorem exprToFilter_compares {D : Str → Str} (e : Expr) (n value : Str) :
    (∃ op, exprToFilter D e = some ⟨n, op, value⟩) ↔ ∃ v, Compares n v e ∧ value = showLit D v := by
  have hb : ∀ l op r, (∃ p, binaryToFilter D l op r = some ⟨n, p, value⟩) ↔
      ∃ v, (∀ x, op ≠ .other x) ∧ ((l = .column n ∧ r = .literal v) ∨ (l = .literal v ∧ r = .column n)) ∧
        value = showLit D v := by
    intro l op r
    cases l <;> cases r <;> cases op <;>
      simp [binaryToFilter, columnAndLiteral, DfOp.toOp, eq_comm]
  cases e with
  | column m => simp only [exprToFilter]; exact ⟨fun ⟨_, h⟩ => (nomatch h), fun ⟨_, h, _⟩ => (nomatch h)⟩
  | literal m => simp only [exprToFilter]; exact ⟨fun ⟨_, h⟩ => (nomatch h), fun ⟨_, h, _⟩ => (nomatch h)⟩
  | other m => simp only [exprToFilter]; exact ⟨fun ⟨_, h⟩ => (nomatch h), fun ⟨_, h, _⟩ => (nomatch h)⟩
  | binary l op r =>
    simp only [exprToFilter]
    rw [hb]
    constructor
    · rintro ⟨v, h1, ⟨rfl, rfl⟩ | ⟨rfl, rfl⟩, h2⟩
      · exact ⟨v, .column op h1, h2⟩
      · exact ⟨v, .literal op h1, h2⟩
    · rintro ⟨v, h1, h2⟩
      cases h1 with
      | column op h => exact ⟨v, h, .inl ⟨rfl, rfl⟩, h2⟩
      | literal op h => exact ⟨v, h, .inr ⟨rfl, rfl⟩, h2⟩
  | not e =>
    cases e with
    | column m =>
      simp only [exprToFilter, notToFilter]; exact ⟨fun ⟨_, h⟩ => (nomatch h), fun ⟨_, h, _⟩ => (nomatch h)⟩
    | literal m =>
      simp only [exprToFilter, notToFilter]; exact ⟨fun ⟨_, h⟩ => (nomatch h), fun ⟨_, h, _⟩ => (nomatch h)⟩
    | other m =>
      simp only [exprToFilter, notToFilter]; exact ⟨fun ⟨_, h⟩ => (nomatch h), fun ⟨_, h, _⟩ => (nomatch h)⟩
    | not e =>
      simp only [exprToFilter, notToFilter]; exact ⟨fun ⟨_, h⟩ => (nomatch h), fun ⟨_, h, _⟩ => (nomatch h)⟩
    | binary l op r =>
      have hneg : (∃ p, exprToFilter D (.not (.binary l op r)) = some ⟨n, p, value⟩) ↔
          ∃ p, binaryToFilter D l op r = some ⟨n, p, value⟩ := by
        simp only [exprToFilter, notToFilter]
        cases binaryToFilter D l op r with
        | none => simp
        | some f =>
          obtain ⟨a, b, c⟩ := f
          cases b <;> simp [Filter.negate, Op.negate]
      rw [hneg, hb]
      constructor
      · rintro ⟨v, h1, ⟨rfl, rfl⟩ | ⟨rfl, rfl⟩, h2⟩
        · exact ⟨v, .notColumn op h1, h2⟩
        · exact ⟨v, .notLiteral op h1, h2⟩
      · rintro ⟨v, h1, h2⟩
        cases h1 with
        | notColumn op h => exact ⟨v, h, .inl ⟨rfl, rfl⟩, h2⟩
        | notLiteral op h => exact ⟨v, h, .inr ⟨rfl, rfl⟩, h2⟩

/-- **C70, when a query is answered.**  Of a table whose file slices can be listed, a query is answered
exactly if every predicate handed to the table that compares a column with a literal is on a partition
column, with a literal that reads as a value of the column's type. -/
theorem C70_answered_exactly (E : Env) (A : Arrow) (U : Str → Option Str) (D : Str → Str)
    (tb : Table) (t : Tree) (hwf : TreeWF t) (base : Str) (hbase : tb.baseUrlPath U = .ok base)
    (schema : Schema) (hschema : tb.partitionSchema t = .ok schema) (hnames : FieldNames schema)
    (hive url : Bool) (hstyle : PathStyle tb.opts hive url) (handed : List Expr)
    (ss : List FileSlice) (hss : (tb.fileSlices E A t [] []).2 = .ok ss) :
    (∃ gs, (tb.scan E A U D t handed []).2 = .ok gs) ↔
      (tb.timeline.completed = [] ∨ ∀ e ∈ handed, ∀ n v, Compares n v e →
        ∃ field ∈ schema, field.name = n ∧ ∃ w, TextReads A field.dtype (showLit D v) w) := by
  have happ : (∀ f ∈ handed.filterMap (exprToFilter D), Applicable A schema f) ↔
      ∀ e ∈ handed, ∀ n v, Compares n v e →
        ∃ field ∈ schema, field.name = n ∧ ∃ w, TextReads A field.dtype (showLit D v) w := by
    constructor
    · intro h e he n v hc
      obtain ⟨op, hf⟩ := (exprToFilter_compares (D := D) e n (showLit D v)).2 ⟨v, hc, rfl⟩
      obtain ⟨field, w, h1, h2⟩ := h _ (List.mem_filterMap.2 ⟨e, he, hf⟩)
      exact ⟨field, List.mem_of_find?_eq_some h1, by simpa using List.find?_some h1, w, h2⟩
    · intro h f hf
      obtain ⟨e, he, hf⟩ := List.mem_filterMap.1 hf
      obtain ⟨n, op, value⟩ := f
      obtain ⟨v, hc, rfl⟩ := (exprToFilter_compares e n value).1 ⟨op, hf⟩
      obtain ⟨field, hm, rfl, w, hw⟩ := h e he n v hc
      refine ⟨field, w, ?_, hw⟩
      obtain ⟨g, hg⟩ : ∃ g, schema.find? (fun g => decide (g.name = field.name)) = some g :=
        Option.isSome_iff_exists.1 (List.find?_isSome.2 ⟨field, hm, by simp⟩)
      rw [hg]
      have hgm := List.mem_of_find?_eq_some hg
      have hgn : g.name = field.name := by simpa using List.find?_some hg
      rw [List.inj_on_of_nodup_map hnames.1 hgm hm hgn]
  rw [← happ]
  have hfs : fromStrTuples (exprsToFilters D handed) = .ok (handed.filterMap (exprToFilter D)) := by
    rw [exprsToFilters, fromStrTuples_toTuple]
  have hscan : (∃ gs, (tb.scan E A U D t handed []).2 = .ok gs) ↔
      ∃ ss', (tb.fileSlices E A t (exprsToFilters D handed) []).2 = .ok ss' := by
    constructor
    · rintro ⟨gs, h⟩
      obtain ⟨ss', _, _, h1, _⟩ := scan_ok h
      exact ⟨ss', h1⟩
    · rintro ⟨ss', h⟩
      obtain ⟨n, hn, _⟩ := inputPartitions_eq tb
      obtain ⟨sp, hs, _⟩ := (C32_splits E A tb t n (exprsToFilters D handed) [] _ _ rfl).1 ss' h
      refine ⟨sp.map (fun g => g.map (partitionedFile base)), ?_⟩
      unfold Table.scan
      refine Query.bind_lift_snd.2 ⟨n, hn, ?_⟩
      refine Query.bind_snd.2 ⟨sp, by rw [hs], ?_⟩
      exact Query.bind_lift_snd.2 ⟨base, hbase, rfl⟩
  rw [hscan]
  unfold Table.fileSlices at hss ⊢
  cases hl : tb.timeline.latestTimestamp with
  | none =>
    unfold Timeline.latestTimestamp at hl
    rw [Option.map_eq_none_iff, List.getLast?_eq_none_iff] at hl
    exact ⟨fun _ => .inl hl, fun _ => ⟨[], rfl⟩⟩
  | some ts =>
    rw [hl] at hss
    obtain ⟨_, e, hss⟩ := Query.bind_lift_snd.1 hss
    cases e
    obtain ⟨s1, s2⟩ := slices_filter (fs := handed.filterMap (exprToFilter D)) hwf hschema hnames hstyle hss
    have hne : tb.timeline.completed ≠ [] := by
      intro h
      unfold Timeline.latestTimestamp at hl
      rw [h] at hl; cases hl
    constructor
    · rintro ⟨ss', h⟩
      obtain ⟨fs, h1, h2⟩ := Query.bind_lift_snd.1 h
      rw [hfs] at h1; cases h1
      exact .inr (s2 ⟨ss', h2⟩)
    · rintro (h | h)
      · exact absurd h hne
      · obtain ⟨keep, _, hs⟩ := s1 h
        exact ⟨_, Query.bind_lift_snd.2 ⟨_, hfs, hs⟩⟩

end Hudi
