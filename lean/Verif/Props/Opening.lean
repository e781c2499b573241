import Verif.Spec.Config
import Verif.Props.Options
import Verif.Lemmas.Merge

/-! # C44, C45: typed options, opening a table -/

namespace Hudi
open Spec

theorem intersperse_comma (ls : List Str) : (ls.intersperse c!",").flatten = joinWith ',' ls := by
  induction ls with
  | nil => rfl
  | cons l ls ih =>
    cases ls with
    | nil => simp [joinWith]
    | cons l' ls =>
      rw [List.intersperse_cons_cons, joinWith]
      simp only [List.flatten_cons, ih]
      simp

theorem parseBool_eq {v : Str} {b : Bool} : parseBool v = some b ↔
    (v = c!"true" ∧ b = true) ∨ (v = c!"false" ∧ b = false) := by
  unfold parseBool
  by_cases h1 : v = c!"true"
  · subst h1; cases b <;> decide
  · by_cases h2 : v = c!"false"
    · subst h2; cases b <;> decide
    · simp [h1, h2]

theorem digits_iff {s : Str} : (s ≠ [] ∧ s.all isDigit = true) ↔ Digits s (natOfDigits s) := by
  unfold Digits; simp

theorem digit_head {s : Str} {n : Nat} (h : Digits s n) : ∃ c r, s = c :: r ∧ c ≠ '+' ∧ c ≠ '-' := by
  obtain ⟨h1, h2, _⟩ := h
  cases s with
  | nil => exact absurd rfl h1
  | cons c r =>
    have := h2 c (by simp)
    refine ⟨c, r, rfl, ?_, ?_⟩ <;> rintro rfl <;> revert this <;> decide

theorem parseIsize_eq {v : Str} {i : Int} : parseIsize v = some i ↔ Denotes .int v (.integer i) := by
  have fwd : parseIsize v = some i → Denotes .int v (.integer i) := by
    intro h
    unfold parseIsize at h
    split at h
    · rename_i t
      split at h
      · rename_i hc
        cases h
        exact ⟨t, natOfDigits t, digits_iff.1 ⟨hc.1, hc.2.1⟩, .inr ⟨rfl, hc.2.2, rfl⟩⟩
      · cases h
    · rename_i t
      split at h
      · rename_i hc
        cases h
        exact ⟨t, natOfDigits t, digits_iff.1 ⟨hc.1, hc.2.1⟩, .inl ⟨.inr rfl, by omega, rfl⟩⟩
      · cases h
    · split at h
      · rename_i hc
        cases h
        exact ⟨v, natOfDigits v, digits_iff.1 ⟨hc.1, hc.2.1⟩, .inl ⟨.inl rfl, by omega, rfl⟩⟩
      · cases h
  refine ⟨fwd, ?_⟩
  rintro ⟨s, n, hd, h⟩
  obtain ⟨c, r, e, hc1, hc2⟩ := digit_head hd
  have hd2 := hd
  obtain ⟨h1, h2, h3⟩ := hd2
  have h2' : s.all isDigit = true := by simpa using h2
  rcases h with ⟨rfl | rfl, hn, hx⟩ | ⟨rfl, hn, hx⟩
  · cases hx
    unfold parseIsize
    split
    · cases e; exact absurd rfl hc2
    · cases e; exact absurd rfl hc1
    · rw [if_pos ⟨h1, h2', by omega⟩, h3]
  · cases hx
    simp only [parseIsize]
    rw [if_pos ⟨h1, h2', by omega⟩, h3]
  · cases hx
    simp only [parseIsize]
    rw [if_pos ⟨h1, h2', by omega⟩, h3]

theorem parseUsize_eq {v : Str} {n : Nat} : parseUsize v = some n ↔ Denotes .nat v (.uinteger n) := by
  unfold parseUsize parseUnsigned
  simp only
  constructor
  · intro h
    split at h
    · rename_i hc
      split at h
      · rename_i hb
        cases h
        refine ⟨stripPlus v, _, digits_iff.1 hc, ?_, hb, rfl⟩
        unfold stripPlus
        split
        · exact .inr rfl
        · exact .inl rfl
      · cases h
    · cases h
  · rintro ⟨s, m, hd, h, hb, hx⟩
    cases hx
    obtain ⟨c, r, e, hc1, hc2⟩ := digit_head hd
    have hs : stripPlus v = s := by
      rcases h with rfl | rfl
      · rw [e]
        unfold stripPlus
        split
        · rename_i heq; cases heq; exact absurd rfl hc1
        · rfl
      · rfl
    obtain ⟨h1, h2, h3⟩ := hd
    rw [hs, if_pos ⟨h1, by simpa using h2⟩, h3, if_pos hb]

theorem map_ok_iff {α β : Type} {x : Except CfgErr α} {f : α → β} {y : β} :
    x.map f = .ok y ↔ ∃ a, x = .ok a ∧ f a = y := by
  cases x <;> simp [Except.map]

theorem parseTableType_eq {v s : Str} : parseTableType v = .ok s ↔
    (lower v ∈ [c!"copy_on_write", c!"copy-on-write", c!"cow"] ∧ s = c!"COPY_ON_WRITE") ∨
    (lower v ∈ [c!"merge_on_read", c!"merge-on-read", c!"mor"] ∧ s = c!"MERGE_ON_READ") := by
  unfold parseTableType
  simp only [List.mem_cons, List.not_mem_nil, or_false]
  split
  · rename_i h
    constructor
    · intro e; cases e; exact .inl ⟨h, rfl⟩
    · rintro (⟨_, rfl⟩ | ⟨h', _⟩)
      · rfl
      · exfalso
        rcases h with h | h | h <;> rcases h' with h' | h' | h' <;> rw [h] at h' <;> revert h' <;> decide
  · rename_i h
    split
    · rename_i h'
      constructor
      · intro e; cases e; exact .inr ⟨h', rfl⟩
      · rintro (⟨h2, _⟩ | ⟨_, rfl⟩)
        · exact absurd h2 h
        · rfl
    · rename_i h'
      constructor
      · intro e; cases e
      · rintro (⟨h2, _⟩ | ⟨h2, _⟩)
        · exact absurd h2 h
        · exact absurd h2 h'

theorem parseFileFormat_eq {v s : Str} : parseBaseFileFormat v = .ok s ↔
    lower v = c!"parquet" ∧ s = c!"parquet" := by
  unfold parseBaseFileFormat
  simp only
  split
  · rename_i h
    constructor
    · intro e; cases e; exact ⟨h, rfl⟩
    · rintro ⟨_, rfl⟩; rfl
  · rename_i h
    split <;> simp [h]

theorem mergeStrategy_eq {v : Str} {m : MergeStrategy} : MergeStrategy.fromStr v = .ok m ↔ lower v = m.str := by
  unfold MergeStrategy.fromStr
  simp only
  split
  · rename_i h
    cases m
    · simp [h, MergeStrategy.str]
    · constructor
      · intro e; cases e
      · intro e; rw [h] at e; revert e; decide
  · rename_i h
    split
    · rename_i h'
      cases m
      · constructor
        · intro e; cases e
        · intro e; rw [h'] at e; revert e; decide
      · simp [h', MergeStrategy.str]
    · rename_i h'
      cases m
      · simp [MergeStrategy.str, h]
      · simp [MergeStrategy.str, h']

theorem parseTimezone_eq {v s : Str} : parseTimezone v = .ok s ↔
    lower v ∈ [c!"utc", c!"local"] ∧ s = lower v := by
  unfold parseTimezone
  simp only [List.mem_cons, List.not_mem_nil, or_false]
  split
  · rename_i h
    simp only [h, true_or, true_and, Except.ok.injEq]
    exact eq_comm
  · rename_i h
    split
    · rename_i h'
      simp only [h', or_true, true_and, Except.ok.injEq]
      exact eq_comm
    · rename_i h'
      simp [h, h']

/-- Parsing an option value: exactly the texts of its kind are accepted. -/
theorem parseRaw_eq (c : Cfg) (v : Str) (x : CfgVal) : c.parseRaw v = .ok x ↔ Denotes (kindOf c) v x := by
  have hbool : ∀ v x, (match parseBool v with
      | some b => (.ok (.boolean b) : Except CfgErr CfgVal)
      | none => .error .parseBool) = .ok x ↔ Denotes .bool v x := by
    intro v x
    cases hp : parseBool v with
    | none =>
      simp only [reduceCtorEq, false_iff, Denotes]
      rintro (⟨rfl, _⟩ | ⟨rfl, _⟩) <;> revert hp <;> decide
    | some b =>
      rcases parseBool_eq.1 hp with ⟨rfl, rfl⟩ | ⟨rfl, rfl⟩
      · simp only [Except.ok.injEq, Denotes]
        constructor
        · rintro rfl; exact .inl ⟨by trivial, rfl⟩
        · rintro (⟨_, rfl⟩ | ⟨h, _⟩)
          · rfl
          · exact absurd h (by decide)
      · simp only [Except.ok.injEq, Denotes]
        constructor
        · rintro rfl; exact .inr ⟨by trivial, rfl⟩
        · rintro (⟨h, _⟩ | ⟨_, rfl⟩)
          · exact absurd h (by decide)
          · rfl
  have hint : ∀ v x, (match parseIsize v with
      | some i => (.ok (.integer i) : Except CfgErr CfgVal)
      | none => .error .parseInt) = .ok x ↔ Denotes .int v x := by
    intro v x
    cases hp : parseIsize v with
    | none =>
      simp only [reduceCtorEq, false_iff]
      intro h
      have : ∃ i, x = .integer i := by
        obtain ⟨s, n, _, ⟨_, _, h⟩ | ⟨_, _, h⟩⟩ := h
        · exact ⟨_, h⟩
        · exact ⟨_, h⟩
      obtain ⟨i, rfl⟩ := this
      rw [parseIsize_eq.2 h] at hp; cases hp
    | some i =>
      simp only [Except.ok.injEq]
      constructor
      · rintro rfl; exact parseIsize_eq.1 hp
      · intro h
        have : ∃ i, x = .integer i := by
          obtain ⟨s, n, _, ⟨_, _, h⟩ | ⟨_, _, h⟩⟩ := h
          · exact ⟨_, h⟩
          · exact ⟨_, h⟩
        obtain ⟨j, rfl⟩ := this
        rw [parseIsize_eq.2 h] at hp; cases hp; rfl
  have hnat : ∀ v x, (match parseUsize v with
      | some i => (.ok (.uinteger i) : Except CfgErr CfgVal)
      | none => .error .parseInt) = .ok x ↔ Denotes .nat v x := by
    intro v x
    have hx : Denotes .nat v x → ∃ i, x = .uinteger i := by
      rintro ⟨s, n, _, _, _, h⟩; exact ⟨_, h⟩
    cases hp : parseUsize v with
    | none =>
      simp only [reduceCtorEq, false_iff]
      intro h
      obtain ⟨i, rfl⟩ := hx h
      rw [parseUsize_eq.2 h] at hp; cases hp
    | some i =>
      simp only [Except.ok.injEq]
      constructor
      · rintro rfl; exact parseUsize_eq.1 hp
      · intro h
        obtain ⟨j, rfl⟩ := hx h
        rw [parseUsize_eq.2 h] at hp; cases hp; rfl
  have hlist : ∀ v x, (.ok (.list (splitAll ',' v)) : Except CfgErr CfgVal) = .ok x ↔ Denotes .list v x := by
    intro v x
    simp only [Except.ok.injEq, Denotes, intersperse_comma]
    constructor
    · rintro rfl
      exact ⟨_, rfl, splitAll_ne_nil _ _, splitAll_not_mem _ _, (join_splitAll _ _).symm⟩
    · rintro ⟨l, rfl, h1, h2, rfl⟩
      rw [splitAll_joinWith h1 h2]
  have htext : ∀ v x, (.ok (.string v) : Except CfgErr CfgVal) = .ok x ↔ Denotes .text v x := by
    intro v x
    simp only [Except.ok.injEq, Denotes]
    exact eq_comm
  cases c
  case baseFileFormat =>
    simp only [Cfg.parseRaw, kindOf, Denotes, map_ok_iff, parseFileFormat_eq]
    constructor
    · rintro ⟨a, ⟨h, rfl⟩, rfl⟩; exact ⟨h, rfl⟩
    · rintro ⟨h, rfl⟩; exact ⟨_, ⟨h, rfl⟩, rfl⟩
  case recordMergeStrategy =>
    simp only [Cfg.parseRaw, kindOf, Denotes, map_ok_iff, mergeStrategy_eq]
    constructor
    · rintro ⟨m, h, rfl⟩
      refine ⟨?_, by rw [h]⟩
      cases m <;> simp [h, MergeStrategy.str]
    · rintro ⟨h, rfl⟩
      simp only [List.mem_cons, List.not_mem_nil, or_false] at h
      rcases h with h | h
      · exact ⟨.appendOnly, h, by rw [h]; rfl⟩
      · exact ⟨.overwriteWithLatest, h, by rw [h]; rfl⟩
  case tableType =>
    simp only [Cfg.parseRaw, kindOf, Denotes, map_ok_iff, parseTableType_eq]
    constructor
    · rintro ⟨a, ⟨h, rfl⟩ | ⟨h, rfl⟩, rfl⟩
      · exact .inl ⟨h, rfl⟩
      · exact .inr ⟨h, rfl⟩
    · rintro (⟨h, rfl⟩ | ⟨h, rfl⟩)
      · exact ⟨_, .inl ⟨h, rfl⟩, rfl⟩
      · exact ⟨_, .inr ⟨h, rfl⟩, rfl⟩
  case timelineTimezone =>
    simp only [Cfg.parseRaw, kindOf, Denotes, map_ok_iff, parseTimezone_eq]
    constructor
    · rintro ⟨a, ⟨h, rfl⟩, rfl⟩; exact ⟨h, rfl⟩
    · rintro ⟨h, rfl⟩; exact ⟨_, ⟨h, rfl⟩, rfl⟩
  all_goals first
    | exact htext v x
    | exact hint v x
    | exact hbool v x
    | exact hlist v x
    | exact hnat v x

theorem key_eq (c : Cfg) : c.key = optionKey c := by cases c <;> rfl

theorem get_eq (c : Cfg) (o : Opts) (x : CfgVal) : c.get o = .ok x ↔ Given c o x := by
  unfold Cfg.get Given
  rw [← key_eq]
  cases hmGet c.key o with
  | none => simp
  | some v => simp [parseRaw_eq]

theorem denotes_det {k : Kind} {v : Str} {x y : CfgVal} (c : Cfg) (hk : kindOf c = k) (h : Denotes k v x)
    (h' : Denotes k v y) : x = y := by
  subst hk
  have := (parseRaw_eq c v x).2 h
  rw [(parseRaw_eq c v y).2 h'] at this
  cases this; rfl

theorem get_error {c : Cfg} {o : Opts} (h : NotGiven c o) : ∃ e, c.get o = .error e := by
  cases hg : c.get o with
  | error e => exact ⟨e, rfl⟩
  | ok x =>
    obtain ⟨v, h1, h2⟩ := (get_eq c o x).1 hg
    exact absurd h2 (h v h1 x)

/-- **C44, look-ups.**  A well-formed value is returned as given, by every way of looking it up. -/
theorem C44_given (c : Cfg) (o : Opts) (x : CfgVal) (h : Given c o x) :
    c.get o = .ok x ∧ c.getOrDefault o = .ok x ∧ c.tryGet o = some x := by
  have := (get_eq c o x).2 h
  refine ⟨this, ?_, ?_⟩
  · unfold Cfg.getOrDefault; rw [this]
  · unfold Cfg.tryGet; rw [this]

theorem metaFieldsPopulated_eq (o : Opts) : metaFieldsPopulated o =
    decide (hmGet c!"hoodie.populate.meta.fields" o ≠ some c!"false") := by
  unfold metaFieldsPopulated Cfg.get
  rw [show Cfg.populatesMetaFields.key = c!"hoodie.populate.meta.fields" from rfl]
  cases hmGet c!"hoodie.populate.meta.fields" o with
  | none => simp
  | some v =>
    simp only [Cfg.parseRaw, parseBool, Option.some.injEq]
    by_cases h1 : v = c!"true"
    · subst h1; decide
    · by_cases h2 : v = c!"false"
      · subst h2; decide
      · simp [h1, h2]

/-- **C44, defaults.**  An option that is absent or malformed yields its default; one that has no default
is reported as missing by the look-ups that can say so, and the others panic. -/
theorem C44_default (c : Cfg) (o : Opts) (h : NotGiven c o) :
    (∃ e, c.get o = .error e) ∧
    (∀ d, defaultOf o c = some d → c.getOrDefault o = .ok d ∧ (c ≠ .recordMergeStrategy → c.tryGet o = some d)) ∧
    (defaultOf o c = none → c.getOrDefault o = .panic ∧ c.tryGet o = none) := by
  obtain ⟨e, he⟩ := get_error h
  refine ⟨⟨e, he⟩, ?_, ?_⟩
  · intro d hd
    unfold Cfg.getOrDefault Cfg.tryGet
    rw [he]
    simp only
    cases c <;> first
      | (simp only [defaultOf, Option.some.injEq] at hd; subst hd; exact ⟨rfl, fun _ => rfl⟩)
      | (cases hd; done)
      | skip
    simp only [defaultOf, Option.some.injEq] at hd
    subst hd
    refine ⟨?_, fun h => absurd rfl h⟩
    rw [metaFieldsPopulated_eq]
    unfold hmContains
    rw [show Cfg.precombineField.key = c!"hoodie.table.precombine.field" from rfl]
    by_cases h1 : hmGet c!"hoodie.populate.meta.fields" o = some c!"false"
    · simp [h1]; rfl
    · cases h2 : hmGet c!"hoodie.table.precombine.field" o with
      | none => simp [h1]; rfl
      | some v => simp [h1]; rfl
  · intro hd
    unfold Cfg.getOrDefault Cfg.tryGet
    rw [he]
    simp only
    cases c <;> first
      | exact ⟨rfl, rfl⟩
      | cases hd

/-- The two cases are exhaustive. -/
theorem given_or_not (c : Cfg) (o : Opts) : (∃ x, Given c o x) ∨ NotGiven c o := by
  by_cases h : ∃ x, Given c o x
  · exact .inl h
  · right
    intro v hv x hx
    exact h ⟨x, v, hv, hx⟩

theorem getOrDefault_bool {c : Cfg} (hk : kindOf c = .bool) (hd : ∀ o, defaultOf o c = some (.boolean false))
    (o : Opts) : (c.getOrDefault o >>= CfgVal.toBool) = .ok (decide (hmGet c.key o = some c!"true")) := by
  rw [key_eq]
  rcases given_or_not c o with ⟨x, hx⟩ | hn
  · rw [(C44_given c o x hx).2.1]
    obtain ⟨v, h1, h2⟩ := hx
    rw [hk] at h2
    rcases h2 with ⟨rfl, rfl⟩ | ⟨rfl, rfl⟩
    · rw [h1]; rfl
    · rw [h1]; rfl
  · rw [((C44_default c o hn).2.1 _ (hd o)).1]
    have : hmGet (optionKey c) o ≠ some c!"true" := by
      intro h
      exact hn _ h (.boolean true) (by rw [hk]; exact .inl ⟨rfl, rfl⟩)
    simp only [Res.ok_bind, this, decide_false]
    rfl

theorem map_error {α β : Type} {x : Except CfgErr α} {f : α → β} {e : CfgErr} (h : x.map f = .error e) :
    x = .error e := by
  cases x with
  | ok a => cases h
  | error e' => cases h; rfl

theorem parseRaw_notFound (c : Cfg) (v : Str) (h : c.parseRaw v = .error .notFound) : False := by
  cases c <;> simp only [Cfg.parseRaw] at h
  all_goals first
    | (cases h; done)
    | (have h := map_error h; unfold parseBaseFileFormat at h; simp only at h; split at h <;> [skip; split at h] <;> cases h; done)
    | (have h := map_error h; unfold parseTableType at h; simp only at h; split at h <;> [skip; split at h] <;> cases h; done)
    | (have h := map_error h; unfold MergeStrategy.fromStr at h; simp only at h; split at h <;> [skip; split at h] <;> cases h; done)
    | (have h := map_error h; unfold parseTimezone at h; split at h <;> [skip; split at h] <;> cases h; done)
    | (split at h <;> cases h; done)

theorem validate_eq (c : Cfg) (o : Opts) : c.validate o = .ok () ↔
    (∃ x, Given c o x) ∨ (hmGet c.key o = none ∧ c.isRequired = false) := by
  unfold Cfg.validate
  cases hg : c.get o with
  | ok x =>
    have : ∃ x, Given c o x := ⟨x, (get_eq c o x).1 hg⟩
    simp [this]
  | error e =>
    have hno : ¬ ∃ x, Given c o x := by
      rintro ⟨x, hx⟩
      rw [(get_eq c o x).2 hx] at hg; cases hg
    simp only [hno, false_or]
    have he : e = .notFound ↔ hmGet c.key o = none := by
      unfold Cfg.get at hg
      cases hk : hmGet c.key o with
      | none => rw [hk] at hg; cases hg; simp
      | some v =>
        rw [hk] at hg
        simp only [reduceCtorEq, iff_false]
        rintro rfl
        simp only at hg
        exact parseRaw_notFound c v hg
    rw [← he]
    by_cases h1 : e = .notFound <;> by_cases h2 : c.isRequired = false <;> simp [h1, h2]

theorem ofCfg_ok {α : Type} {x : Except CfgErr α} {a : α} : Res.ofCfg x = .ok a ↔ x = .ok a := by
  cases x <;> simp [Res.ofCfg]

theorem populates_iff (o : Opts) : Given .populatesMetaFields o (.boolean false) ↔
    hmGet c!"hoodie.populate.meta.fields" o = some c!"false" := by
  constructor
  · rintro ⟨v, h3, h4 | h4⟩
    · cases h4.2
    · rw [← h4.1]; exact h3
  · intro h
    exact ⟨_, h, .inr ⟨rfl, rfl⟩⟩

theorem populates_eq (o : Opts) : (Cfg.populatesMetaFields.getOrDefault o >>= CfgVal.toBool) =
    .ok (decide (hmGet c!"hoodie.populate.meta.fields" o ≠ some c!"false")) := by
  rcases given_or_not .populatesMetaFields o with ⟨x, hx⟩ | hn
  · rw [(C44_given _ o x hx).2.1]
    obtain ⟨v, h1, h2⟩ := hx
    rw [show optionKey .populatesMetaFields = c!"hoodie.populate.meta.fields" from rfl] at h1
    rw [h1]
    rcases h2 with ⟨rfl, rfl⟩ | ⟨rfl, rfl⟩ <;> rfl
  · rw [((C44_default _ o hn).2.1 _ rfl).1]
    have : ¬ Given .populatesMetaFields o (.boolean false) := by
      rintro ⟨v, h3, h4⟩
      exact hn v h3 _ h4
    rw [populates_iff] at this
    simp [this, CfgVal.toBool]

theorem mergeValidate_eq (o : Opts) : mergeValidate o = .ok (.ok ()) ↔
    (Given .recordMergeStrategy o (.string c!"overwrite_with_latest") →
      ¬ Given .populatesMetaFields o (.boolean false) ∧ hmGet c!"hoodie.table.precombine.field" o ≠ none) := by
  have hpre : Cfg.precombineField.tryGet o = none ↔ hmGet c!"hoodie.table.precombine.field" o = none := by
    unfold Cfg.tryGet Cfg.get
    rw [show Cfg.precombineField.key = c!"hoodie.table.precombine.field" from rfl]
    cases hmGet c!"hoodie.table.precombine.field" o with
    | none => exact ⟨fun _ => rfl, fun _ => rfl⟩
    | some v => exact ⟨fun h => (by cases h), fun h => (by cases h)⟩
  have hp := populates_eq o
  have key : ∀ m : MergeStrategy, (Cfg.recordMergeStrategy.getOrDefault o = .ok (.string m.str)) →
      (mergeValidate o = .ok (.ok ()) ↔ (m = .overwriteWithLatest →
        ¬ Given .populatesMetaFields o (.boolean false) ∧ hmGet c!"hoodie.table.precombine.field" o ≠ none)) := by
    intro m hm
    unfold mergeValidate
    rw [hm]
    simp only [Res.ok_bind, CfgVal.toStr]
    rw [show MergeStrategy.fromStr m.str = .ok m by cases m <;> decide]
    simp only
    obtain ⟨b, hb1, hb2⟩ := Res.bind_eq_ok.1 hp
    rw [hb1]
    simp only [Res.ok_bind]
    rw [hb2]
    simp only [Res.ok_bind]
    cases m with
    | appendOnly => simp
    | overwriteWithLatest =>
      rw [populates_iff]
      by_cases h1 : hmGet c!"hoodie.populate.meta.fields" o = some c!"false"
      · simp [h1]
      · by_cases h2 : hmGet c!"hoodie.table.precombine.field" o = none
        · simp [h1, h2, hpre.2 h2]
        · have h3 : Cfg.precombineField.tryGet o ≠ none := fun h => h2 (hpre.1 h)
          have h4 : (Cfg.precombineField.tryGet o).isNone = false := by
            cases hh : Cfg.precombineField.tryGet o with
            | none => exact absurd hh h3
            | some v => rfl
          simp [h1, h2, h4]
  rcases given_or_not .recordMergeStrategy o with ⟨x, hx⟩ | hn
  · have hg := (C44_given _ o x hx).2.1
    have hx' := hx
    obtain ⟨v, h1, h2, rfl⟩ := hx'
    simp only [List.mem_cons, List.not_mem_nil, or_false] at h2
    have huniq : Given .recordMergeStrategy o (.string c!"overwrite_with_latest") ↔
        lower v = c!"overwrite_with_latest" := by
      constructor
      · rintro ⟨v', h3, _, h4⟩
        rw [h1] at h3; cases h3
        injection h4 with h4
        exact h4.symm
      · intro h; rw [h] at hx; exact hx
    rcases h2 with h2 | h2
    · rw [key .appendOnly (by rw [hg, h2]; rfl), huniq, h2]
      simp
    · rw [key .overwriteWithLatest (by rw [hg, h2]; rfl), huniq, h2]
      simp
  · have hng : ¬ Given .recordMergeStrategy o (.string c!"overwrite_with_latest") := by
      rintro ⟨v, h3, h4⟩; exact hn v h3 _ h4
    have hd := ((C44_default _ o hn).2.1 _ rfl).1
    by_cases hc : hmGet c!"hoodie.populate.meta.fields" o ≠ some c!"false" ∧
      hmGet c!"hoodie.table.precombine.field" o ≠ none
    · rw [if_pos hc] at hd
      rw [key .overwriteWithLatest hd]
      simp only [hng, false_implies, iff_true]
      rw [populates_iff]
      exact fun _ => hc
    · rw [if_neg hc] at hd
      rw [key .appendOnly hd]
      simp [hng]

theorem toIsize_ok {x : CfgVal} {i : Int} : x.toIsize = .ok i ↔ x = .integer i := by
  cases x <;> simp [CfgVal.toIsize]

theorem given_int {c : Cfg} (hk : kindOf c = .int) {o : Opts} {x : CfgVal} (h : Given c o x) :
    ∃ i, x = .integer i := by
  obtain ⟨v, _, h⟩ := h
  rw [hk] at h
  obtain ⟨s, n, _, ⟨_, _, h⟩ | ⟨_, _, h⟩⟩ := h
  · exact ⟨_, h⟩
  · exact ⟨_, h⟩

theorem given_det {c : Cfg} {o : Opts} {x y : CfgVal} (h : Given c o x) (h' : Given c o y) : x = y := by
  have := (get_eq c o x).2 h
  rw [(get_eq c o y).2 h'] at this
  cases this; rfl

/-- Validation accepts exactly the well-formed options of supported tables, unless it is skipped. -/
theorem validateConfigs_eq (o : Opts) : validateConfigs o = .ok () ↔
    SkipsValidation o ∨ (WellFormedOptions o ∧ Supported o) := by
  have hskip := getOrDefault_bool (c := .skipConfigValidation) rfl (fun _ => rfl) o
  have hdrop := getOrDefault_bool (c := .dropsPartitionFields) rfl (fun _ => rfl) o
  unfold validateConfigs
  obtain ⟨b, hb1, hb2⟩ := Res.bind_eq_ok.1 hskip
  rw [hb1]
  simp only [Res.ok_bind]
  rw [hb2]
  simp only [Res.ok_bind]
  rw [show Cfg.skipConfigValidation.key = c!"hoodie.internal.skip.config.validation" from rfl]
  by_cases hs : SkipsValidation o
  · have : hmGet c!"hoodie.internal.skip.config.validation" o = some c!"true" := hs
    simp [this, hs]
  · have hs' : ¬ hmGet c!"hoodie.internal.skip.config.validation" o = some c!"true" := hs
    simp only [hs', decide_false, Bool.false_eq_true, if_false, hs, false_or]
    have hval : ∀ cs : List Cfg, (∃ ys, Res.mapL (fun c => Res.ofCfg (Cfg.validate c o)) cs = .ok ys) ↔
        ∀ c ∈ cs, (∃ x, Given c o x) ∨ (hmGet c.key o = none ∧ c.isRequired = false) := by
      intro cs
      rw [Res.mapL_ok_iff_all]
      refine forall₂_congr fun c _ => ?_
      rw [← validate_eq]
      constructor
      · rintro ⟨u, h⟩; exact ofCfg_ok.1 h
      · intro h; exact ⟨(), ofCfg_ok.2 h⟩
    have hdropIff : hmGet Cfg.dropsPartitionFields.key o = some c!"true" ↔
        Given .dropsPartitionFields o (.boolean true) := by
      constructor
      · intro h; exact ⟨_, h, .inl ⟨rfl, rfl⟩⟩
      · rintro ⟨v, h1, h2 | h2⟩
        · rw [key_eq, h1, h2.1]
        · cases h2.2
    constructor
    · intro h
      obtain ⟨y1, h1, h⟩ := Res.bind_eq_ok.1 h
      obtain ⟨y2, h2, h⟩ := Res.bind_eq_ok.1 h
      obtain ⟨x3, h3, h⟩ := Res.bind_eq_ok.1 h
      obtain ⟨ver, h4, h⟩ := Res.bind_eq_ok.1 h
      rw [toIsize_ok.1 h4] at h3
      have h3 := (get_eq _ _ _).1 (ofCfg_ok.1 h3)
      split at h
      · cases h
      rename_i hver
      obtain ⟨x5, h5, h⟩ := Res.bind_eq_ok.1 h
      obtain ⟨lay, h6, h⟩ := Res.bind_eq_ok.1 h
      rw [toIsize_ok.1 h6] at h5
      have h5 := (get_eq _ _ _).1 (ofCfg_ok.1 h5)
      split at h
      · cases h
      rename_i hlay
      obtain ⟨x7, h7, h⟩ := Res.bind_eq_ok.1 h
      obtain ⟨d, h8, h⟩ := Res.bind_eq_ok.1 h
      rw [h7] at hdrop
      simp only [Res.ok_bind] at hdrop
      rw [h8] at hdrop
      simp only [Res.ok.injEq] at hdrop
      subst hdrop
      split at h
      · cases h
      rename_i hd
      obtain ⟨x9, h9, h⟩ := Res.bind_eq_ok.1 h
      rw [ofCfg_ok.1 h] at h9
      have hlay' : lay = 1 := by
        by_contra hne; exact hlay hne
      subst hlay'
      have hver' : ver = 5 ∨ ver = 6 := by omega
      refine ⟨?_, ?_, h5, ?_, (mergeValidate_eq o).1 h9⟩
      · intro c hc
        have hall : c ∈ tableConfigs ∨ c ∈ readConfigs := by
          cases c <;> first | exact absurd rfl hc | decide
        have hv : (∃ x, Given c o x) ∨ (hmGet c.key o = none ∧ c.isRequired = false) :=
          hall.elim ((hval _).1 ⟨y1, h1⟩ c) ((hval _).1 ⟨y2, h2⟩ c)
        rcases hv with hv | ⟨hv, hr⟩
        · exact .inl hv
        · by_cases hl : c = .timelineLayoutVersion
          · subst hl; exact .inl ⟨_, h5⟩
          · right
            refine ⟨hv, ?_⟩
            cases c <;> first | exact id | (cases hr; done) | exact absurd rfl hl
      · rcases hver' with rfl | rfl
        · exact .inl h3
        · exact .inr h3
      · rw [← hdropIff]
        simpa using hd
    · rintro ⟨hw, hver, hlay, hd, hm⟩
      have hreq : ∀ c : Cfg, ¬ Required c → c.isRequired = false := by
        intro c hc
        cases c <;> first | rfl | exact absurd trivial hc
      obtain ⟨y1, h1⟩ := (hval tableConfigs).2 (fun c hc => by
        rcases hw c (by rintro rfl; revert hc; decide) with h | ⟨h, h'⟩
        · exact .inl h
        · exact .inr ⟨h, hreq c h'⟩)
      obtain ⟨y2, h2⟩ := (hval readConfigs).2 (fun c hc => by
        rcases hw c (by rintro rfl; revert hc; decide) with h | ⟨h, h'⟩
        · exact .inl h
        · exact .inr ⟨h, hreq c h'⟩)
      rw [h1, h2]
      simp only [Res.ok_bind]
      obtain ⟨ver, h3, h4⟩ : ∃ ver : Int, Given .tableVersion o (.integer ver) ∧ (5 ≤ ver ∧ ver ≤ 6) := by
        rcases hver with h | h
        · exact ⟨5, h, by omega⟩
        · exact ⟨6, h, by omega⟩
      rw [(C44_given _ _ _ h3).1, (C44_given _ _ _ hlay).1]
      simp only [Res.ofCfg, Res.ok_bind, CfgVal.toIsize]
      rw [if_neg (by omega), if_neg (by simp)]
      obtain ⟨x7, h7, h8⟩ := Res.bind_eq_ok.1 hdrop
      rw [h7]
      simp only [Res.ok_bind]
      rw [h8]
      simp only [Res.ok_bind]
      rw [if_neg (by simpa [hdropIff] using hd), (mergeValidate_eq o).2 hm]
      rfl

/-- An opened table passed validation. -/
theorem build_valid {E : Env} {w : World} {b : TableBuilder} {tb : Table} (h : b.build E w = .ok tb) :
    validateConfigs tb.hudiOptions = .ok () := by
  unfold TableBuilder.build at h
  obtain ⟨b', _, h⟩ := Res.bind_eq_ok.1 h
  obtain ⟨u, h1, h⟩ := Res.bind_eq_ok.1 h
  obtain ⟨_, _, h⟩ := Res.bind_eq_ok.1 h
  obtain ⟨_, _, h⟩ := Res.bind_eq_ok.1 h
  obtain ⟨_, _, h⟩ := Res.bind_eq_ok.1 h
  cases h
  show validateConfigs (hmOfList b'.hudiOptions) = .ok ()
  revert h1
  cases validateConfigs (hmOfList b'.hudiOptions) with
  | ok a => intro _; rfl
  | err e => intro h; cases h
  | panic => intro h; cases h

/-- **C44, opening.**  A table opens only if each of its options is well formed and none that is required
is missing, unless validation is skipped. -/
theorem C44_opening (E : Env) (w : World) (b : TableBuilder) (tb : Table) (h : b.build E w = .ok tb)
    (hs : ¬ SkipsValidation tb.hudiOptions) : WellFormedOptions tb.hudiOptions :=
  (((validateConfigs_eq _).1 (build_valid h)).resolve_left hs).1

/-- **C45.**  A table opens only if it is supported, unless validation is skipped. -/
theorem C45_only_supported_tables_open (E : Env) (w : World) (b : TableBuilder) (tb : Table)
    (h : b.build E w = .ok tb) (hs : ¬ SkipsValidation tb.hudiOptions) : Supported tb.hudiOptions :=
  (((validateConfigs_eq _).1 (build_valid h)).resolve_left hs).2

/-- **C45, converse.**  A supported table with well-formed options is never rejected for its options: the
builder goes on to load the timeline. -/
theorem C45_supported_tables_open (E : Env) (w : World) (b b' : TableBuilder)
    (hr : b.resolveOptions w = .ok b') (hw : WellFormedOptions (hmOfList b'.hudiOptions))
    (hs : Supported (hmOfList b'.hudiOptions)) (s : Storage) (tl : Timeline)
    (hst : w.storage b'.storageOptions (hmOfList b'.hudiOptions) = .ok s)
    (htl : Timeline.load E (hmOfList b'.hudiOptions) s.tree = .ok tl) :
    b.build E w = .ok ⟨hmOfList b'.hudiOptions, b'.storageOptions, tl⟩ := by
  unfold TableBuilder.build
  rw [hr]
  simp only [Res.ok_bind, (validateConfigs_eq _).2 (.inr ⟨hw, hs⟩), Res.expect, hst, htl]
  rfl

end Hudi
