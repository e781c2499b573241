import Verif.Spec.DataFusion
import Verif.Props.Partitions
import Verif.Props.Splits
import Verif.Spec.Demo
import Verif.Spec.Snapshot

/-! # C46: predicates of the query engine -/

namespace Hudi
open Spec

theorem showDigits_eq (fuel n : Nat) (h : n < fuel) : showDigits fuel n = decimal n := by
  induction fuel generalizing n with
  | zero => omega
  | succ fuel ih =>
    rw [showDigits, decimal]
    split
    · rfl
    · rw [ih _ (by omega)]

/-- Whatever integer arrow reads from the text of an integer is that integer. -/
theorem parse_showInt {signed : Bool} {bits : Nat} {i j : Int}
    (h : parseArrowInt signed bits (showInt i) = some j) : j = i := by
  have chk : ∀ (x y : Int), (if signed = true then
      if -(2 ^ (bits - 1) : Int) ≤ x ∧ x < (2 ^ (bits - 1) : Int) then some x else none
      else if 0 ≤ x ∧ x < (2 ^ bits : Int) then some x else none) = some y → y = x := by
    intro x y hxy
    split at hxy <;> split at hxy <;> first | (cases hxy; rfl) | cases hxy
  cases i with
  | ofNat n =>
    rw [showInt, showDigits_eq _ _ (by omega)] at h
    obtain ⟨h1, h2, h3⟩ := decimal_spec n
    obtain ⟨c, cs, hd, hm, hp⟩ := decimal_head n
    unfold parseArrowInt at h
    simp only at h
    split at h
    · rename_i heq; rw [hd] at heq; cases heq; exact absurd rfl hm
    · rename_i heq; rw [hd] at heq; cases heq; exact absurd rfl hp
    · rw [if_pos ⟨h1, h2⟩, h3] at h
      exact chk _ _ h
  | negSucc n =>
    rw [showInt, showDigits_eq _ _ (by omega)] at h
    obtain ⟨h1, h2, h3⟩ := decimal_spec (n + 1)
    unfold parseArrowInt at h
    simp only at h
    rw [if_pos ⟨h1, h2⟩, h3] at h
    rw [chk _ _ h]
    rfl

/-- The value arrow reads from the text of a literal compares like the literal. -/
theorem cmp_cast {A : Arrow} {D : Str → Str} (hD : Readable A D) {d : DType} {a b w : Val}
    {o : Ordering} (ha : a.hasType d = true) (hc : a.cmp A b = some o)
    (hw : castStr A d (showLit D (some b)) = some w) : a.cmp A w = some o := by
  cases a <;> cases d <;> simp only [Val.hasType, Bool.false_eq_true] at ha <;> cases b <;>
    simp only [Val.cmp, reduceCtorEq] at hc
  · simp only [castStr, showLit] at hw; cases hw; exact hc
  · rename_i b
    have : w = .bool b := by
      cases b <;> simp only [castStr, showLit] at hw
      · cases hw; rfl
      · cases hw; rfl
    rw [this]; exact hc
  · simp only [castStr, showLit, Option.map_eq_some_iff] at hw
    obtain ⟨j, h1, rfl⟩ := hw
    rw [parse_showInt h1]; exact hc
  · simp only [castStr, showLit, Option.map_eq_some_iff] at hw
    obtain ⟨j, h1, rfl⟩ := hw
    simp only [Val.cmp, hD _ _ _ h1]; exact hc

theorem related_of_holds {A : Arrow} {op : Op} {v w : Val} {o : Ordering}
    (h : v.cmp A w = some o) (ho : op.holds o = true) : Related A op.token v w := by
  have hap : SFilter.apply A ⟨⟨[], .utf8, false⟩, op, w⟩ v = .ok true := by
    simp [SFilter.apply, h, ho]
  exact ((apply_iff A _ v true).1 hap).2.1 rfl

/-- A row on which the column compares as the operator says passes the filter. -/
theorem passes_of {A : Arrow} {D : Str → Str} (hD : Readable A D) {schema : Schema} {vals : List Val}
    (hv : ∀ (i : Nat) (f : Field) (v : Val), schema[i]? = some f → vals[i]? = some v →
      v.hasType f.dtype = true) {row : Row} (hrow : RowOf schema vals row) {n : Str} {op : Op}
    {a b : Val} {o : Ordering} (ha : row n = some a) (hc : a.cmp A b = some o)
    (ho : op.holds o = true) : Passes A schema vals ⟨n, op, showLit D (some b)⟩ := by
  intro i fld v w hi hn hvi hw
  simp only at hn
  have hav : a = v := by
    rcases hrow i fld v hi hvi with h | h
    · rw [hn, ha] at h; exact Option.some.inj h
    · rw [hn, ha] at h; cases h
  subst hav
  exact related_of_holds (cmp_cast hD (hv i fld a hi hvi) hc (textReads_iff.2 hw)) ho

theorem sqlCompare_true {A : Arrow} {test : Ordering → Bool} {x y : Option Val} {b : Bool}
    (h : sqlCompare A test x y = some (.bool b)) :
    ∃ u w o, x = some u ∧ y = some w ∧ u.cmp A w = some o ∧ test o = b := by
  cases x with
  | none => simp [sqlCompare] at h
  | some u =>
    cases y with
    | none => simp [sqlCompare] at h
    | some w =>
      simp only [sqlCompare, Option.map_eq_some_iff] at h
      obtain ⟨o, h1, h2⟩ := h
      exact ⟨u, w, o, rfl, rfl, h1, by simpa using h2⟩

theorem cmp_swap {A : Arrow} {u w : Val} {o : Ordering} (h : u.cmp A w = some o) :
    w.cmp A u = some o.swap := by
  have := A.cmpOther_trans
  cases u <;> cases w <;> simp only [Val.cmp, reduceCtorEq, Option.some.injEq] at h ⊢ <;> subst h
  · exact Std.OrientedCmp.eq_swap
  · exact Std.OrientedCmp.eq_swap
  · exact Std.OrientedCmp.eq_swap
  · exact Std.OrientedCmp.eq_swap

/-- The comparison of a column with a literal, written either way (inequalities with the column on
the left), evaluates to `r`: then the column's value compares accordingly. -/
theorem eval_comparison {A : Arrow} {M : Meaning} {row : Row} {D : Str → Str} {l r : Expr} {op : DfOp}
    {f : Filter} {res : Bool} (hf : binaryToFilter D l op r = some f)
    (hor : ColumnFirst (.binary l op r)) (he : eval A M row (.binary l op r) = some (.bool res)) :
    ∃ a b o, row f.field = some a ∧ f.value = showLit D (some b) ∧ a.cmp A b = some o ∧
      f.op.holds o = res := by
  unfold binaryToFilter at hf
  simp only [Option.bind_eq_bind, Option.bind_eq_some_iff, Option.pure_def, Option.some.injEq] at hf
  obtain ⟨⟨n, v⟩, h1, p, h2, rfl⟩ := hf
  have key : ∃ test, eval A M row (.binary l op r) = sqlCompare A test (eval A M row l) (eval A M row r)
      ∧ ∀ o, test o = p.holds o := by
    cases op <;> simp only [DfOp.toOp, Option.some.injEq, reduceCtorEq] at h2 <;> subst h2 <;>
      refine ⟨_, rfl, ?_⟩ <;> intro o <;> cases o <;> rfl
  obtain ⟨test, h3, h4⟩ := key
  rw [h3] at he
  obtain ⟨u, w, o, e1, e2, e3, e4⟩ := sqlCompare_true he
  unfold columnAndLiteral at h1
  split at h1
  · cases h1
    simp only [eval] at e1 e2
    subst e2
    exact ⟨u, w, o, e1, rfl, e3, by rw [← h4]; exact e4⟩
  · cases h1
    simp only [eval] at e1 e2
    subst e1
    refine ⟨w, u, o.swap, e2, rfl, cmp_swap e3, ?_⟩
    rw [← e4, h4]
    rcases hor with hop | hop <;> subst hop <;> cases h2 <;> cases o <;> rfl
  · cases h1

theorem negate_holds {op op' : Op} (h : op.negate = some op') (o : Ordering) :
    op'.holds o = !op.holds o := by
  cases op <;> cases h <;> cases o <;> rfl

/-- A row satisfying the predicate passes the filter it is translated to. -/
theorem passes_of_satisfies {A : Arrow} {M : Meaning} {D : Str → Str} (hD : Readable A D)
    {schema : Schema} {vals : List Val}
    (hv : ∀ (i : Nat) (f : Field) (v : Val), schema[i]? = some f → vals[i]? = some v →
      v.hasType f.dtype = true) {row : Row} (hrow : RowOf schema vals row) {e : Expr} {f : Filter}
    (hf : exprToFilter D e = some f) (hor : ColumnFirst e) (hs : Satisfies A M row e) :
    Passes A schema vals f := by
  cases e with
  | column | literal | other => simp [exprToFilter] at hf
  | binary l op r =>
    obtain ⟨a, b, o, h1, h2, h3, h4⟩ := eval_comparison hf hor hs
    have := passes_of hD hv hrow h1 h3 h4
    rw [← h2] at this
    exact this
  | not e =>
    cases e with
    | column | literal | other | not => simp [exprToFilter, notToFilter] at hf
    | binary l op r =>
      simp only [exprToFilter, notToFilter, Option.bind_eq_some_iff] at hf
      obtain ⟨f0, hf0, hneg⟩ := hf
      have hev : eval A M row (.binary l op r) = some (.bool false) := by
        have hs' : sqlNot (eval A M row (.binary l op r)) = some (.bool true) := hs
        cases hx : eval A M row (.binary l op r) with
        | none => rw [hx] at hs'; cases hs'
        | some v =>
          rw [hx] at hs'
          cases v with
          | bool b => cases b with
            | false => rfl
            | true => cases hs'
          | str | int | opq => cases hs'
      have hor' : ColumnFirst (.binary l op r) := by
        cases l with
        | literal => exact hor
        | column | binary | not | other => trivial
      obtain ⟨a, b, o, h1, h2, h3, h4⟩ := eval_comparison hf0 hor' hev
      unfold Filter.negate at hneg
      simp only [Option.map_eq_some_iff] at hneg
      obtain ⟨op', hop, rfl⟩ := hneg
      have := passes_of (op := op') (D := D) hD hv hrow h1 h3 (by rw [negate_holds hop, h4]; rfl)
      rw [← h2] at this
      exact this

theorem fromStrTuples_toTuple (fs : List Filter) : fromStrTuples (fs.map Filter.toTuple) = .ok fs := by
  unfold fromStrTuples
  induction fs with
  | nil => rfl
  | cons f fs ih =>
    rw [List.map_cons, Res.mapL_cons_ok]
    exact ⟨f, fs, (C31_tokens []).2.1 f, ih, rfl⟩

theorem translated {D : Str → Str} {es : List Expr} {fs : List Filter}
    (h : fromStrTuples (exprsToFilters D es) = .ok fs) : fs = es.filterMap (exprToFilter D) := by
  rw [exprsToFilters, fromStrTuples_toTuple] at h
  exact (Res.ok.inj h).symm

/-- **C46 (partial), no matching row is lost.**  If a partition contains a row satisfying all
predicates handed to the table, the partition is not skipped by the filters they are translated to.
What is missing: inequalities with the literal on the left (`C46_false`). -/
theorem C46_no_matching_row_lost_partial (A : Arrow) (M : Meaning) (D : Str → Str)
    (hD : Readable A D) (es : List Expr) (hor : ∀ e ∈ es, ColumnFirst e) (fs : List Filter)
    (hfs : fromStrTuples (exprsToFilters D es) = .ok fs) (schema : Schema) (o : Opts) (p : Pruner)
    (hp : Pruner.new A fs schema o = .ok p) (hnames : FieldNames schema) (path : Str)
    (vals : List Val) (hr : PathReads A schema p.hiveStyle p.urlEncoded path vals) (row : Row)
    (hrow : RowOf schema vals row) (hs : ∀ e ∈ es, Satisfies A M row e) :
    p.shouldInclude A path = true := by
  obtain ⟨hps, _⟩ := pruner_new_ok hp
  have hr' := hr
  rw [← hps] at hr'
  obtain ⟨hl, hv⟩ := reads_types hr
  have hparse := reads_parse (fun _ f hf => hnames.2 f (hps ▸ hf)) hr'
  rw [hps] at hparse
  rw [include_iff hp hnames.1 hl hv hparse]
  rw [translated hfs]
  intro f hf
  obtain ⟨e, he, hef⟩ := List.mem_filterMap.1 hf
  exact passes_of_satisfies hD hv hrow hef (hor e he) (hs e he)

/-- **C46, the rest imposes nothing.**  Exactly the comparisons of a column with a literal and their
negations become filters, one each; the column named in the filter is the one in the predicate. -/
theorem C46_only_comparisons_filter (D : Str → Str) (e : Expr) :
    (¬ Translatable e → exprsToFilters D [e] = []) ∧
    (Translatable e → ∃ n token v, exprsToFilters D [e] = [(n, token, showLit D v)] ∧
      ∃ op, e = .binary (.column n) op (.literal v) ∨ e = .binary (.literal v) op (.column n) ∨
        e = .not (.binary (.column n) op (.literal v)) ∨
        e = .not (.binary (.literal v) op (.column n))) ∧
    ∀ es es', exprsToFilters D (es ++ es') = exprsToFilters D es ++ exprsToFilters D es' := by
  have hb : ∀ l op r, (¬ Comparison (.binary l op r) → binaryToFilter D l op r = none) ∧
      (Comparison (.binary l op r) → ∃ n v p, binaryToFilter D l op r = some ⟨n, p, showLit D v⟩ ∧
        ((l = .column n ∧ r = .literal v) ∨ (l = .literal v ∧ r = .column n))) := by
    intro l op r
    cases l <;> cases r <;> cases op <;>
      simp [Comparison, binaryToFilter, columnAndLiteral, DfOp.toOp]
  refine ⟨?_, ?_, fun es es' => by simp [exprsToFilters]⟩
  · intro h
    cases e with
    | column | literal | other => rfl
    | binary l op r => simp [exprsToFilters, exprToFilter, (hb l op r).1 h]
    | not e =>
      cases e with
      | column | literal | other | not => rfl
      | binary l op r => simp [exprsToFilters, exprToFilter, notToFilter, (hb l op r).1 h]
  · intro h
    cases e with
    | column | literal | other => exact h.elim
    | binary l op r =>
      obtain ⟨n, v, p, h1, h2⟩ := (hb l op r).2 h
      refine ⟨n, _, v, by simp [exprsToFilters, exprToFilter, h1, Filter.toTuple]; rfl, op, ?_⟩
      rcases h2 with ⟨rfl, rfl⟩ | ⟨rfl, rfl⟩ <;> simp
    | not e =>
      cases e with
      | column | literal | other | not => exact h.elim
      | binary l op r =>
        obtain ⟨n, v, p, h1, h2⟩ := (hb l op r).2 h
        cases hneg : p.negate with
        | none => cases p <;> cases hneg
        | some p' =>
          refine ⟨n, p'.token, v, by simp [exprsToFilters, exprToFilter, notToFilter, h1,
            Filter.toTuple, Filter.negate, hneg], op, ?_⟩
          rcases h2 with ⟨rfl, rfl⟩ | ⟨rfl, rfl⟩ <;> simp

/-- **C46, the engine filters again.**  No predicate is reported as evaluated exactly by the table, so
rows let through by the pruning of partitions are filtered by the engine. -/
theorem C46_never_exact (s : Schema) (es : List Expr) :
    (supportsPushDown s es).length = es.length ∧ PushDown.exact ∉ supportsPushDown s es := by
  refine ⟨by simp [supportsPushDown], ?_⟩
  intro h
  obtain ⟨e, _, he⟩ := List.mem_map.1 h
  split at he <;> cases he

theorem supportedOperand_iff (s : Schema) (e : Expr) :
    supportedOperand s e = true ↔ (∃ v, e = .literal v) ∨ ∃ f ∈ s, e = .column f.name := by
  cases e with
  | column n =>
    simp only [supportedOperand, Schema.fieldWithName, Option.isSome_iff_exists, Expr.column.injEq]
    constructor
    · rintro ⟨f, hf⟩
      exact .inr ⟨f, List.mem_of_find?_eq_some hf, by have := List.find?_some hf; simpa using Eq.symm (by simpa using this)⟩
    · rintro (⟨v, h⟩ | ⟨f, hf, rfl⟩)
      · cases h
      · have : (s.find? (fun g => decide (g.name = f.name))).isSome := by
          rw [List.find?_isSome]
          exact ⟨f, hf, by simp⟩
        exact Option.isSome_iff_exists.1 this
  | literal v => simp [supportedOperand]
  | binary l op r => simp [supportedOperand]
  | not e => simp [supportedOperand]
  | other n => simp [supportedOperand]

/-- **C46, what the engine is told.**  For every schema and predicate: the table asks to be handed the
predicate exactly if it is a comparison between literals and columns of the table, or the negation of
one.  Every predicate that becomes a filter on a column of the table is among them. -/
theorem C46_handed_exactly (s : Schema) (e : Expr) :
    (supportsPushDown s [e] = [.inexact] ↔ Handed s e) ∧
    (¬ Handed s e → supportsPushDown s [e] = [.unsupported]) ∧
    (∀ D n token v, exprsToFilters D [e] = [(n, token, v)] → (∃ f ∈ s, f.name = n) → Handed s e) := by
  have key : ∀ e, canPushDown s e = true ↔ Handed s e := by
    intro e
    induction e with
    | column n => exact ⟨fun h => (by cases h), fun h => (by cases h)⟩
    | literal v => exact ⟨fun h => (by cases h), fun h => (by cases h)⟩
    | other n => exact ⟨fun h => (by cases h), fun h => (by cases h)⟩
    | not e ih =>
      show canPushDown s e = true ↔ _
      rw [ih]
      exact ⟨.negation e, fun h => by cases h; assumption⟩
    | binary l op r _ _ =>
      simp only [canPushDown, Bool.and_eq_true, supportedOperand_iff]
      constructor
      · rintro ⟨⟨h1, h2⟩, h3⟩
        refine .comparison l r op ?_ h2 h3
        rintro n rfl
        cases h1
      · intro h
        cases h with
        | comparison _ _ _ h1 h2 h3 =>
          refine ⟨⟨?_, h2⟩, h3⟩
          cases op <;> first | rfl | exact absurd rfl (h1 _)
  refine ⟨?_, ?_, ?_⟩
  · rw [← key]
    unfold supportsPushDown
    cases h : canPushDown s e <;> simp [h]
  · rw [← key]
    intro h
    simp [supportsPushDown, h]
  · rintro D n token v hx ⟨f, hf, rfl⟩
    have htr : Translatable e := by
      by_contra hn
      rw [(C46_only_comparisons_filter D e).1 hn] at hx
      cases hx
    obtain ⟨n', token', v', h1, op, h2⟩ := (C46_only_comparisons_filter D e).2.1 htr
    rw [h1] at hx
    cases hx
    have hop : ∀ l r, (e = .binary l op r ∨ e = .not (.binary l op r)) → ∀ m, op ≠ .other m := by
      rintro l r h m rfl
      rcases h with rfl | rfl <;> cases l <;> cases r <;> first | exact htr.elim | exact htr m rfl
    rcases h2 with rfl | rfl | rfl | rfl
    · exact .comparison _ _ _ (hop _ _ (.inl rfl)) (.inr ⟨f, hf, rfl⟩) (.inl ⟨_, rfl⟩)
    · exact .comparison _ _ _ (hop _ _ (.inl rfl)) (.inl ⟨_, rfl⟩) (.inr ⟨f, hf, rfl⟩)
    · exact .negation _ (.comparison _ _ _ (hop _ _ (.inr rfl)) (.inr ⟨f, hf, rfl⟩) (.inl ⟨_, rfl⟩))
    · exact .negation _ (.comparison _ _ _ (hop _ _ (.inr rfl)) (.inl ⟨_, rfl⟩) (.inr ⟨f, hf, rfl⟩))

/-- Predicates of both kinds. -/
example : Handed [⟨c!"year", .int true 32, true⟩]
      (.not (.binary (.literal (some (.int 2024))) .lt (.column c!"year"))) ∧
    ¬ Handed [⟨c!"year", .int true 32, true⟩] (.binary (.column c!"month") .eq (.column c!"year")) := by
  refine ⟨.negation _ (.comparison _ _ _ (by simp) (.inl ⟨_, rfl⟩) (.inr ⟨_, List.mem_singleton_self _, rfl⟩)), ?_⟩
  rw [← (C46_handed_exactly _ _).1]
  decide

namespace Demo

def yearSchema : Schema := [⟨c!"year", .int true 32, true⟩]
def yearOpts : Opts := [(c!"hoodie.datasource.write.hive_style_partitioning", c!"true"),
  (c!"hoodie.datasource.write.partitionpath.urlencode", c!"false")]
def yearRow : Row := fun n => if n = c!"year" then some (.int 2024) else some (.str c!"x")

theorem readable : Readable arrow id := by
  intro d s s' h
  cases h

theorem year_reads : PathReads arrow yearSchema true false c!"year=2024" [.int 2024] :=
  ⟨c!"year=2024", [c!"2024"], fun _ => rfl, (fun h => nomatch h), rfl, rfl, by decide, by decide, rfl, by
    intro i f t v h1 h2 h3
    rcases i with _ | i
    · cases h1; cases h2; cases h3; exact textReads_iff.1 (by decide)
    · cases h1⟩

theorem year_row : RowOf yearSchema [.int 2024] yearRow := by
  intro i f v h1 h2
  cases i with
  | zero => cases h1; cases h2; exact .inl rfl
  | succ i => cases h1

/-- The hypotheses of C46 hold for `year >= 2020 and not (year = 2025) and name like ..`. -/
example : (∀ e ∈ [Expr.binary (.column c!"year") .gtEq (.literal (some (.int 2020))),
      .not (.binary (.column c!"year") .eq (.literal (some (.int 2025)))), .other c!"like"],
      ColumnFirst e ∧ Satisfies arrow ⟨fun _ _ => some (.bool true), fun _ _ _ => none⟩ yearRow e) ∧
    fromStrTuples (exprsToFilters id [.binary (.column c!"year") .gtEq (.literal (some (.int 2020))),
      .not (.binary (.column c!"year") .eq (.literal (some (.int 2025)))), .other c!"like"]) =
      .ok [⟨c!"year", .gte, c!"2020"⟩, ⟨c!"year", .ne, c!"2025"⟩] := by
  refine ⟨?_, by decide⟩
  intro e he
  simp only [List.mem_cons, List.not_mem_nil, or_false] at he
  rcases he with rfl | rfl | rfl <;> exact ⟨trivial, rfl⟩

end Demo

/-- **C46 is false of the code**: `2020 < year` becomes the filter `year < 2020`, and the partition of
the year 2024, whose rows satisfy the predicate, is skipped. -/
theorem C46_false : ∃ (A : Arrow) (M : Meaning) (D : Str → Str) (e : Expr) (fs : List Filter)
    (schema : Schema) (o : Opts) (p : Pruner) (path : Str) (vals : List Val) (row : Row),
    Readable A D ∧ fromStrTuples (exprsToFilters D [e]) = .ok fs ∧
    Pruner.new A fs schema o = .ok p ∧ FieldNames schema ∧
    PathReads A schema p.hiveStyle p.urlEncoded path vals ∧ RowOf schema vals row ∧
    Satisfies A M row e ∧ p.shouldInclude A path = false :=
  ⟨Demo.arrow, ⟨fun _ _ => none, fun _ _ _ => none⟩, id,
    .binary (.literal (some (.int 2020))) .lt (.column c!"year"), _, Demo.yearSchema, Demo.yearOpts, _,
    c!"year=2024", [.int 2024], Demo.yearRow, Demo.readable, rfl, rfl, ⟨by decide, by decide⟩,
    Demo.year_reads, Demo.year_row, rfl, by decide⟩

end Hudi
