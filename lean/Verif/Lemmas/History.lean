import Verif.Spec.History
import Verif.Props.FileNames
import Verif.Props.Order
import Verif.Lemmas.Answers
import Mathlib.Tactic.Common
import Mathlib.Data.List.Induction

/-! # Lemmas: commit histories -/

namespace Hudi
open Spec

/-! ## The fold -/

/-- The commit neither writes a base file for the group nor replaces it. -/
def Quiet (k : GroupKey) (c : HCommit) : Prop :=
  c.changeOf k = none ∨ ∃ ls, c.changeOf k = some (.append ls)

theorem changeOf_iff {c : HCommit} (h : (c.changes.map Prod.fst).Nodup) {k : GroupKey} {ch : Change} :
    c.changeOf k = some ch ↔ (k, ch) ∈ c.changes := by
  unfold HCommit.changeOf
  generalize c.changes = l at h
  induction l with
  | nil => simp
  | cons e l ih =>
    obtain ⟨h1, h2⟩ := List.nodup_cons.1 h
    rw [List.find?_cons]
    by_cases hk : e.1 = k
    · simp only [hk, decide_true, Option.map_some, Option.some.injEq, List.mem_cons]
      constructor
      · rintro rfl; left; rw [← hk]
      · rintro (h | h)
        · rw [← h]
        · exact absurd (List.mem_map_of_mem (f := Prod.fst) h) (by rw [← hk] at h; simpa [hk] using h1)
    · simp only [hk, decide_false, List.mem_cons]
      rw [ih h2]
      constructor
      · exact Or.inr
      · rintro (h | h)
        · exact absurd (by rw [← h]) hk
        · exact h

theorem changeOf_mem {c : HCommit} {k : GroupKey} {ch : Change} (h : c.changeOf k = some ch) :
    (k, ch) ∈ c.changes := by
  unfold HCommit.changeOf at h
  obtain ⟨e, h1, rfl⟩ := Option.map_eq_some_iff.1 h
  have := List.find?_some h1
  simp only [decide_eq_true_eq] at this
  rw [← this]
  exact List.mem_of_find?_eq_some h1

theorem versionAfter_snoc (h : History) (c : HCommit) (k : GroupKey) :
    versionAfter (h ++ [c]) k =
      match c.changeOf k with | none => versionAfter h k | some ch => ch.apply c.ts (versionAfter h k) := by
  unfold versionAfter
  rw [List.foldl_append]
  rfl

theorem appends_append {h1 h2 : History} {k : GroupKey} (hq : ∀ c ∈ h1, Quiet k c) :
    appendsUntilWrite (h1 ++ h2) k = appendsUntilWrite h1 k ++ appendsUntilWrite h2 k := by
  induction h1 with
  | nil => rfl
  | cons c h1 ih =>
    have ih := ih (fun c hc => hq c (List.mem_cons_of_mem _ hc))
    simp only [List.cons_append, appendsUntilWrite]
    rcases hq c (List.mem_cons_self ..) with h | ⟨ls, h⟩
    · rw [h]; exact ih
    · rw [h]; simp only [ih, List.append_assoc]

theorem mem_appends {h : History} {k : GroupKey} {l : Str × Str} :
    l ∈ appendsUntilWrite h k ↔ ∃ a c b ls, h = a ++ c :: b ∧ (∀ c ∈ a, Quiet k c) ∧
      c.changeOf k = some (.append ls) ∧ l ∈ ls := by
  induction h with
  | nil => simp [appendsUntilWrite]
  | cons c h ih =>
    unfold appendsUntilWrite
    constructor
    · intro hl
      split at hl
      · next hc =>
        obtain ⟨a, c', b, ls, rfl, h2, h3, h4⟩ := ih.1 hl
        refine ⟨c :: a, c', b, ls, rfl, ?_, h3, h4⟩
        intro d hd
        rcases List.mem_cons.1 hd with rfl | hd
        · exact .inl hc
        · exact h2 d hd
      · next ls hc =>
        rcases List.mem_append.1 hl with hl | hl
        · exact ⟨[], c, h, ls, rfl, by simp, hc, hl⟩
        · obtain ⟨a, c', b, ls', rfl, h2, h3, h4⟩ := ih.1 hl
          refine ⟨c :: a, c', b, ls', rfl, ?_, h3, h4⟩
          intro d hd
          rcases List.mem_cons.1 hd with rfl | hd
          · exact .inr ⟨_, hc⟩
          · exact h2 d hd
      · cases hl
    · rintro ⟨a, c', b, ls, he, h2, h3, h4⟩
      cases a with
      | nil =>
        cases he
        rw [h3]
        exact List.mem_append_left _ h4
      | cons d a =>
        cases he
        have := ih.2 ⟨a, c', b, ls, rfl, fun c hc => h2 c (List.mem_cons_of_mem _ hc), h3, h4⟩
        rcases h2 c (List.mem_cons_self ..) with h | ⟨ls', h⟩
        · rw [h]; exact this
        · rw [h]; exact List.mem_append_right _ this

theorem versionAfter_some {h : History} {k : GroupKey} {v : Version} :
    versionAfter h k = some v ↔ ∃ h1 c h2, h = h1 ++ c :: h2 ∧ c.changeOf k = some (.write v.token) ∧
      c.ts = v.base ∧ (∀ c ∈ h2, Quiet k c) ∧ v.logs = appendsUntilWrite h2 k := by
  induction h using List.reverseRecOn generalizing v with
  | nil => simp [versionAfter]
  | append_singleton h c ih =>
    rw [versionAfter_snoc]
    constructor
    · intro hv
      split at hv
      · next hc =>
        obtain ⟨h1, d, h2, rfl, e1, e2, e3, e4⟩ := ih.1 hv
        refine ⟨h1, d, h2 ++ [c], by simp, e1, e2, ?_, ?_⟩
        · intro x hx
          rcases List.mem_append.1 hx with hx | hx
          · exact e3 x hx
          · rw [List.mem_singleton.1 hx]; exact .inl hc
        · rw [appends_append e3]; simp [appendsUntilWrite, hc, e4]
      · next ch hc =>
        cases ch with
        | write tok =>
          cases hv
          exact ⟨h, c, [], rfl, hc, rfl, by simp, rfl⟩
        | replace => cases hv
        | append ls =>
          obtain ⟨w, hw, rfl⟩ := Option.map_eq_some_iff.1 hv
          obtain ⟨h1, d, h2, rfl, e1, e2, e3, e4⟩ := ih.1 hw
          refine ⟨h1, d, h2 ++ [c], by simp, e1, e2, ?_, ?_⟩
          · intro x hx
            rcases List.mem_append.1 hx with hx | hx
            · exact e3 x hx
            · rw [List.mem_singleton.1 hx]; exact .inr ⟨_, hc⟩
          · rw [appends_append e3]; simp [appendsUntilWrite, hc, e4]
    · rintro ⟨h1, d, h2, he, e1, e2, e3, e4⟩
      obtain ⟨vb, vt, vl⟩ := v
      simp only at e1 e2 e4
      rcases List.eq_nil_or_concat h2 with rfl | ⟨h2', x, rfl⟩
      · obtain ⟨rfl, hcd⟩ := List.append_inj' he rfl
        cases hcd
        rw [e1, e4, ← e2]
        rfl
      · have he' : h ++ [c] = (h1 ++ d :: h2') ++ [x] := by rw [he]; simp
        obtain ⟨rfl, hcd⟩ := List.append_inj' he' rfl
        cases hcd
        have hq : ∀ c ∈ h2', Quiet k c := fun y hy => e3 y (by simp [hy])
        have := (ih (v := ⟨vb, vt, appendsUntilWrite h2' k⟩)).2 ⟨h1, d, h2', rfl, e1, e2, hq, rfl⟩
        rw [this]
        rcases e3 c (by simp) with hc | ⟨ls, hc⟩
        · rw [hc]
          simp only [Option.some.injEq, Version.mk.injEq, true_and]
          rw [e4, List.concat_eq_append, appends_append hq]
          simp [appendsUntilWrite, hc]
        · rw [hc]
          simp only [Change.apply, Option.map_some, Option.some.injEq, Version.mk.injEq, true_and]
          rw [e4, List.concat_eq_append, appends_append hq]
          simp [appendsUntilWrite, hc]

/-! ## Order -/

theorem history_split {h : History} (ho : h.Pairwise (fun a b => compare a.ts b.ts = .lt)) (T : Str) :
    h = h.filter (fun c => (compare c.ts T).isLE) ++ h.filter (fun c => (compare c.ts T).isGT) := by
  induction h with
  | nil => rfl
  | cons c h ih =>
    obtain ⟨h1, h2⟩ := List.pairwise_cons.1 ho
    have ih := ih h2
    by_cases hc : (compare c.ts T).isLE = true
    · have hg : (compare c.ts T).isGT = false := by
        revert hc; cases compare c.ts T <;> simp
      simp only [List.filter_cons, hc, hg, if_true, Bool.false_eq_true, if_false, List.cons_append]
      rw [← ih]
    · have hall : ∀ d ∈ h, ¬ (compare d.ts T).isLE = true := by
        intro d hd hle
        apply hc
        have := h1 d hd
        exact Std.TransCmp.isLE_trans (cmp := (compare : Str → Str → Ordering)) (by rw [this]; rfl) hle
      have hgt : ∀ {o : Ordering}, ¬ o.isLE = true → o.isGT = true := by
        intro o; cases o <;> simp
      simp only [List.filter_cons, hc, hgt hc, if_true, Bool.false_eq_true, if_false]
      rw [List.filter_eq_nil_iff.2 hall, List.nil_append,
        List.filter_eq_self.2 (fun d hd => hgt (hall d hd))]

theorem split_unique {h : History} (ho : h.Pairwise (fun a b => compare a.ts b.ts = .lt))
    {a b a' b' : History} {c c' : HCommit} (h1 : h = a ++ c :: b) (h2 : h = a' ++ c' :: b')
    (hts : c.ts = c'.ts) : a = a' ∧ c = c' ∧ b = b' := by
  subst h1
  induction a generalizing a' with
  | nil =>
    cases a' with
    | nil => cases h2; exact ⟨rfl, rfl, rfl⟩
    | cons d a' =>
      cases h2
      have := (List.pairwise_cons.1 ho).1 c' (by simp)
      rw [hts, Std.ReflCmp.compare_self (cmp := (compare : Str → Str → Ordering))] at this
      cases this
  | cons d a ih =>
    cases a' with
    | nil =>
      cases h2
      have := (List.pairwise_cons.1 ho).1 c (by simp)
      rw [hts, Std.ReflCmp.compare_self (cmp := (compare : Str → Str → Ordering))] at this
      cases this
    | cons d' a' =>
      simp only [List.cons_append, List.cons.injEq] at h2
      obtain ⟨rfl, h2⟩ := h2
      obtain ⟨rfl, h3, h4⟩ := ih (List.pairwise_cons.1 ho).2 h2
      exact ⟨rfl, h3, h4⟩

/-! ## File names -/

theorem fromMeta_baseName {f tok ts : Str} {size : Nat} (hf : NamePart f) (ht : NamePart tok)
    (hs : '_' ∉ ts) :
    BaseFile.fromMeta (FileMeta.new (baseName f tok ts) size) =
      .ok ⟨f, tok, ts, c!"parquet", some (FileMeta.new (baseName f tok ts) size)⟩ := by
  have h := ((C12_accepted_exactly_partial (baseName f tok ts)).1 ⟨f, tok, ts, c!"parquet", none⟩).2
    ⟨rfl, by simp, hf.2.1, ht.2.1, hs, [], .inl rfl, by simp [baseName]⟩
  unfold BaseFile.fromStr at h
  unfold BaseFile.fromMeta
  obtain ⟨⟨a, b, c, d⟩, h1, h2⟩ := Res.bind_eq_ok.1 h
  cases h2
  simp only [FileMeta.new]
  rw [h1]
  rfl

theorem fromMeta_logName {f base ver tok : Str} {size : Nat} (hf : NamePart f) (hb : '.' ∉ base)
    (hb' : base ≠ []) (hv : NamePart ver) (ht : NamePart tok) :
    LogFile.fromMeta (FileMeta.new (logName f base ver tok) size) =
      .ok ⟨f, base, c!"log", ver, tok, some (FileMeta.new (logName f base ver tok) size)⟩ := by
  have h := ((C13_accepted_exactly (logName f base ver tok)).1 ⟨f, base, c!"log", ver, tok, none⟩).2
    ⟨rfl, hf.2.1, hb, by simp, hv.2.2.1, ht.2.1, hf.1, hb', by simp, hv.1, ht.1, by simp [logName]⟩
  unfold LogFile.fromStr at h
  unfold LogFile.fromMeta
  obtain ⟨⟨a, b, c, d, e⟩, h1, h2⟩ := Res.bind_eq_ok.1 h
  cases h2
  simp only [FileMeta.new]
  rw [h1]
  rfl

theorem parquetName_base {f tok ts : Str} : ParquetName (baseName f tok ts) := ⟨_, rfl⟩

theorem parquetName_log {f base ver tok : Str} (hv : NamePart ver) (ht : NamePart tok) :
    ¬ ParquetName (logName f base ver tok) := by
  rintro ⟨stem, h⟩
  have h1 : rsplitOnce '.' (logName f base ver tok) =
      some (c!"." ++ f ++ c!"_" ++ base ++ c!".log", ver ++ '_' :: tok) := by
    rw [rsplitOnce_eq_some]
    refine ⟨by simp [logName], ?_⟩
    simp only [List.mem_append, List.mem_cons, not_or]
    exact ⟨hv.2.2.1, by decide, ht.2.2.1⟩
  have h2 : rsplitOnce '.' (logName f base ver tok) = some (stem, c!"parquet") := by
    rw [rsplitOnce_eq_some]
    exact ⟨h, by decide⟩
  rw [h1] at h2
  have h3 := (Prod.mk.inj (Option.some.inj h2)).2
  have : '_' ∈ c!"parquet" := by rw [← h3]; simp
  revert this
  decide

theorem digits_part {ts : Str} (h : WriterTimestamp ts) : NamePart ts := by
  obtain ⟨h1, h2, _⟩ := h
  rw [List.all_eq_true] at h1
  refine ⟨?_, ?_, ?_, ?_, ?_⟩
  · rintro rfl; revert h2; decide
  · intro hc; have := h1 _ hc; revert this; decide
  · intro hc; have := h1 _ hc; revert this; decide
  · intro hc; have := h1 _ hc; revert this; decide
  · intro c hc
    have := h1 c hc
    unfold isDigit at this
    simp only [Bool.and_eq_true, decide_eq_true_eq] at this
    omega

theorem Spec.History.WF.of_mem {h : History} {n : Nat} (hw : h.WF n) {c : HCommit} (hc : c ∈ h)
    {k : GroupKey} {ch : Change} : c.changeOf k = some ch ↔ (k, ch) ∈ c.changes :=
  changeOf_iff (hw.once c hc)

/-- The base files of a partition are those the history wrote. -/
theorem stored_base {ltz : LocalTz} {tz : Str} {o : Opts} {t : Tree} {h : History} {n : Nat}
    (hw : h.WF n) (hst : Stores ltz tz o t h) {x : Str} (hx : PartitionOf o t x) {b : BaseFile}
    (hb : BaseIn (filesOf t x) b) :
    ∃ c ∈ h, c.changeOf (x, b.fileId) = some (.write b.writeToken) ∧ b.commitTimestamp = c.ts ∧
      b.extension = c!"parquet" ∧
      ∃ size, b.fileMeta = some (FileMeta.new (baseName b.fileId b.writeToken b.commitTimestamp) size) ∧
        (baseName b.fileId b.writeToken b.commitTimestamp, size) ∈ filesOf t x := by
  obtain ⟨name, size, h1, h2, h3, h4⟩ := hb
  obtain ⟨h1', c, h2', f, he, hr⟩ := (hst.files x hx name).1 ⟨size, h1, h2⟩
  have hc : c ∈ h := by rw [he]; simp
  rcases hr with ⟨tok, m1, rfl⟩ | ⟨ls, l, v, m1, m2, m3, rfl⟩
  · rw [fromMeta_baseName (hw.ids c hc _ m1) (hw.tokens c hc _ _ m1) (digits_part (hw.times c hc).1).2.1] at h4
    cases h4
    exact ⟨c, hc, (hw.of_mem hc).2 m1, rfl, rfl, size, rfl, h1⟩
  · obtain ⟨q1, q2⟩ := hw.logs c hc _ _ m1 l m2
    exact absurd h3 (parquetName_log q1 q2)

theorem base_stored {ltz : LocalTz} {tz : Str} {o : Opts} {t : Tree} {h : History} {n : Nat}
    (hw : h.WF n) (hst : Stores ltz tz o t h) {x f tok : Str} {c : HCommit} (hc : c ∈ h)
    (hch : c.changeOf (x, f) = some (.write tok)) :
    PartitionOf o t x ∧ ∃ b, BaseIn (filesOf t x) b ∧ b.fileId = f ∧ b.writeToken = tok ∧
      b.commitTimestamp = c.ts := by
  have hm := (hw.of_mem hc).1 hch
  have hx := hst.partitions c hc _ hm
  obtain ⟨a, b, he⟩ := List.append_of_mem hc
  obtain ⟨size, h1, h2⟩ := (hst.files x hx _).2 ⟨a, c, b, f, he, .inl ⟨tok, hm, rfl⟩⟩
  exact ⟨hx, _, ⟨_, size, h1, h2, parquetName_base, fromMeta_baseName (hw.ids c hc _ hm)
    (hw.tokens c hc _ _ hm) (digits_part (hw.times c hc).1).2.1⟩, rfl, rfl, rfl⟩

/-- The log file was appended to by the history, against the base file it names. -/
def AppendedBy (h : History) (x : Str) (l : LogFile) : Prop :=
  ∃ a c b ls v, h = a ++ c :: b ∧ c.changeOf (x, l.fileId) = some (.append ls) ∧
    (l.version, l.writeToken) ∈ ls ∧ versionAfter a (x, l.fileId) = some v ∧
    v.base = l.baseCommitTimestamp

theorem version_base_mem {h : History} {k : GroupKey} {v : Version} (hv : versionAfter h k = some v) :
    ∃ c ∈ h, c.ts = v.base := by
  obtain ⟨a, c, b, rfl, _, h3, _⟩ := versionAfter_some.1 hv
  exact ⟨c, by simp, h3⟩

theorem stored_log {ltz : LocalTz} {tz : Str} {o : Opts} {t : Tree} {h : History} {n : Nat}
    (hw : h.WF n) (hst : Stores ltz tz o t h) {x : Str} (hx : PartitionOf o t x) {l : LogFile}
    (hl : LogIn (filesOf t x) l) :
    AppendedBy h x l ∧ l.extension = c!"log" ∧
      ∃ size, l.fileMeta =
        some (FileMeta.new (logName l.fileId l.baseCommitTimestamp l.version l.writeToken) size) ∧
        (logName l.fileId l.baseCommitTimestamp l.version l.writeToken, size) ∈ filesOf t x := by
  obtain ⟨name, size, h1, h2, h3, h4⟩ := hl
  obtain ⟨h1', c, h2', f, he, hr⟩ := (hst.files x hx name).1 ⟨size, h1, h2⟩
  have hc : c ∈ h := by rw [he]; simp
  rcases hr with ⟨tok, m1, rfl⟩ | ⟨ls, l, v, m1, m2, m3, rfl⟩
  · exact absurd parquetName_base h3
  · obtain ⟨q1, q2⟩ := hw.logs c hc _ _ m1 l m2
    obtain ⟨c0, hc0, hts⟩ := version_base_mem m3
    have hp : NamePart v.base := by
      rw [← hts]; exact digits_part (hw.times c0 (by rw [he]; simp [hc0])).1
    rw [fromMeta_logName (hw.ids c hc _ m1) hp.2.2.1 hp.1 q1 q2] at h4
    cases h4
    exact ⟨⟨h1', c, h2', ls, v, he, (hw.of_mem hc).2 m1, m2, m3, rfl⟩, rfl, size, rfl, h1⟩

theorem log_stored {ltz : LocalTz} {tz : Str} {o : Opts} {t : Tree} {h : History} {n : Nat}
    (hw : h.WF n) (hst : Stores ltz tz o t h) {x f : Str} {a b : History} {c : HCommit}
    {ls : List (Str × Str)} {v : Version} {e : Str × Str} (he : h = a ++ c :: b)
    (hch : c.changeOf (x, f) = some (.append ls)) (hm : e ∈ ls) (hv : versionAfter a (x, f) = some v) :
    ∃ l, LogIn (filesOf t x) l ∧ l.fileId = f ∧ l.baseCommitTimestamp = v.base ∧
      (l.version, l.writeToken) = e := by
  have hc : c ∈ h := by rw [he]; simp
  have hmem := (hw.of_mem hc).1 hch
  have hx := hst.partitions c hc _ hmem
  obtain ⟨size, h1, h2⟩ := (hst.files x hx _).2 ⟨a, c, b, f, he, .inr ⟨ls, e, v, hmem, hm, hv, rfl⟩⟩
  obtain ⟨q1, q2⟩ := hw.logs c hc _ _ hmem e hm
  obtain ⟨c0, hc0, hts⟩ := version_base_mem hv
  have hp : NamePart v.base := by
    rw [← hts]; exact digits_part (hw.times c0 (by rw [he]; simp [hc0])).1
  exact ⟨_, ⟨_, size, h1, h2, parquetName_log q1 q2,
    fromMeta_logName (hw.ids c hc _ hmem) hp.2.2.1 hp.1 q1 q2⟩, rfl, rfl, rfl⟩

theorem stored_oneExtension {ltz : LocalTz} {tz : Str} {o : Opts} {t : Tree} {h : History} {n : Nat}
    (hwf : TreeWF t) (hw : h.WF n) (hst : Stores ltz tz o t h) {x : Str} (hx : PartitionOf o t x) :
    OneExtension (filesOf t x) := by
  intro l l' h1 h2 e1 e2 e3 e4
  obtain ⟨_, x1, s1, m1, f1⟩ := stored_log hw hst hx h1
  obtain ⟨_, x2, s2, m2, f2⟩ := stored_log hw hst hx h2
  have hnd : ((filesOf t x).map Prod.fst).Nodup := (hwf.at (pathSegs x)).files_nodup
  rw [e1, e2, e3, e4] at f1
  have := List.inj_on_of_nodup_map hnd f1 f2 rfl
  obtain ⟨a, b, c, d, e, f⟩ := l
  obtain ⟨a', b', c', d', e', f'⟩ := l'
  simp only at e1 e2 e3 e4 x1 x2 m1 m2 this
  subst e1 e2 e3 e4 x1 x2 m1 m2
  have := (Prod.mk.inj this).2
  rw [this]

/-- A partition that holds what a history wrote can be listed. -/
theorem stored_listable {ltz : LocalTz} {tz : Str} {o : Opts} {t : Tree} {h : History} {n : Nat}
    (hwf : TreeWF t) (hw : h.WF n) (hst : Stores ltz tz o t h) {x : Str} (hx : PartitionOf o t x) :
    Listable (filesOf t x) where
  names := by
    intro name size h1 h2 h3
    obtain ⟨h1', c, h2', f, he, hr⟩ := (hst.files x hx name).1 ⟨size, h1, h2⟩
    have hc : c ∈ h := by rw [he]; simp
    rcases hr with ⟨tok, m1, rfl⟩ | ⟨ls, l, v, m1, m2, m3, rfl⟩
    · exact ⟨_, fromMeta_baseName (hw.ids c hc _ m1) (hw.tokens c hc _ _ m1)
        (digits_part (hw.times c hc).1).2.1⟩
    · obtain ⟨q1, q2⟩ := hw.logs c hc _ _ m1 l m2
      exact absurd h3 (parquetName_log q1 q2)
  unique := by
    intro b b' h1 h2 e1 e2
    obtain ⟨c1, hc1, w1, t1, x1, s1, m1, f1⟩ := stored_base hw hst hx h1
    obtain ⟨c2, hc2, w2, t2, x2, s2, m2, f2⟩ := stored_base hw hst hx h2
    obtain ⟨a1, d1, he1⟩ := List.append_of_mem hc1
    obtain ⟨a2, d2, he2⟩ := List.append_of_mem hc2
    obtain ⟨_, rfl, _⟩ := split_unique hw.ordered he1 he2 (by rw [← t1, ← t2, e2])
    rw [e1, w2] at w1
    have e3 : b'.writeToken = b.writeToken := by injection w1 with w1; injection w1
    have hnd : ((filesOf t x).map Prod.fst).Nodup := (hwf.at (pathSegs x)).files_nodup
    rw [e1, e2, ← e3] at f1
    have := List.inj_on_of_nodup_map hnd f1 f2 rfl
    obtain ⟨a, b, c, d, e⟩ := b
    obtain ⟨a', b', c', d', e'⟩ := b'
    simp only at e1 e2 e3 x1 x2 m1 m2 this
    subst e1 e2 e3 x1 x2 m1 m2
    have := (Prod.mk.inj this).2
    rw [this]
  logs := by
    intro l hl _
    obtain ⟨⟨a, c, b, ls, v, he, h1, h2, h3, h4⟩, _⟩ := stored_log hw hst hx hl
    obtain ⟨a', c', b', he', q1, q2, _⟩ := versionAfter_some.1 h3
    obtain ⟨_, bf, k1, k2, k3, k4⟩ := base_stored hw hst (c := c') (by rw [he, he']; simp) q1
    exact ⟨bf, k1, k2, by rw [k4, q2, h4]⟩

end Hudi
