import Verif.Spec.Writer
import Verif.Lemmas.Objects
import Verif.Lemmas.Remains

/-! # Lemmas: the paths of a writer's files -/

namespace Hudi
open Spec

/-! ## Names -/

theorem base_normal {f tok ts : Str} (h1 : NamePart f) (h2 : NamePart tok) (h3 : NamePart ts) :
    NormalName (baseName f tok ts) := by
  refine ⟨by simp [baseName], ?_, ?_, ?_, ?_⟩
  · unfold baseName
    simp only [List.mem_append, not_or]
    exact ⟨⟨⟨⟨⟨h1.2.2.2.1, by decide⟩, h2.2.2.2.1⟩, by decide⟩, h3.2.2.2.1⟩, by decide⟩
  · intro e
    have := congrArg List.length e
    simp [baseName] at this
    omega
  · intro e
    have := congrArg List.length e
    simp [baseName] at this
    omega
  · intro c hc
    unfold baseName at hc
    simp only [List.mem_append] at hc
    rcases hc with ((((hc | hc) | hc) | hc) | hc) | hc
    · exact h1.2.2.2.2 c hc
    · revert c; decide
    · exact h2.2.2.2.2 c hc
    · revert c; decide
    · exact h3.2.2.2.2 c hc
    · revert c; decide

theorem log_normal {f base v tok : Str} (h1 : NamePart f) (h2 : NamePart base) (h3 : NamePart v)
    (h4 : NamePart tok) : NormalName (logName f base v tok) := by
  refine ⟨by simp [logName], ?_, ?_, ?_, ?_⟩
  · unfold logName
    simp only [List.mem_append, not_or]
    exact ⟨⟨⟨⟨⟨⟨⟨by decide, h1.2.2.2.1⟩, by decide⟩, h2.2.2.2.1⟩, by decide⟩, h3.2.2.2.1⟩, by decide⟩, h4.2.2.2.1⟩
  · intro e
    have := congrArg List.length e
    simp [logName] at this
  · intro e
    have := congrArg List.length e
    simp [logName] at this
    omega
  · intro c hc
    unfold logName at hc
    simp only [List.mem_append] at hc
    rcases hc with ((((((hc | hc) | hc) | hc) | hc) | hc) | hc) | hc
    · revert c; decide
    · exact h1.2.2.2.2 c hc
    · revert c; decide
    · exact h2.2.2.2.2 c hc
    · revert c; decide
    · exact h3.2.2.2.2 c hc
    · revert c; decide
    · exact h4.2.2.2.2 c hc

theorem log_not_ignored {f base v tok : Str} (h1 : NamePart f) (h2 : WriterTimestamp base) (h3 : NamePart v)
    (h4 : NamePart tok) : ¬ Ignored (logName f base v tok) := by
  rintro (⟨rest, h⟩ | ⟨stem, h⟩)
  · have e1 : splitOnce '_' (f ++ '_' :: (base ++ c!".log." ++ v ++ c!"_" ++ tok)) = some (f, _) :=
      splitOnce_eq_some.2 ⟨rfl, h1.2.1⟩
    have e2 : splitOnce '_' (c!"hoodie" ++ '_' :: (c!"partition_metadata" ++ rest)) = some (c!"hoodie", _) :=
      splitOnce_eq_some.2 ⟨rfl, by decide⟩
    have e : f ++ '_' :: (base ++ c!".log." ++ v ++ c!"_" ++ tok) =
        c!"hoodie" ++ '_' :: (c!"partition_metadata" ++ rest) := by
      have := congrArg List.tail h
      simpa [logName] using this
    rw [e, e2] at e1
    have e3 := (Prod.mk.inj (Option.some.inj e1)).2
    obtain ⟨d1, d2, _⟩ := h2
    cases base with
    | nil => simp at d2
    | cons b base =>
      simp only [List.cons_append, List.cons.injEq] at e3
      have := List.all_eq_true.1 d1 b (by simp)
      rw [← e3.1] at this
      revert this; decide
  · have e1 : rsplitOnce '.' (logName f base v tok) =
        some (c!"." ++ f ++ c!"_" ++ base ++ c!".log", v ++ '_' :: tok) := by
      rw [rsplitOnce_eq_some]
      refine ⟨by simp [logName], ?_⟩
      simp only [List.mem_append, List.mem_cons, not_or]
      exact ⟨h3.2.2.1, by decide, h4.2.2.1⟩
    have e2 : rsplitOnce '.' (logName f base v tok) = some (stem, c!"crc") := by
      rw [rsplitOnce_eq_some]
      exact ⟨h, by decide⟩
    rw [e1] at e2
    have e3 := (Prod.mk.inj (Option.some.inj e2)).2
    have : '_' ∈ (c!"crc" : Str) := by rw [← e3]; simp
    revert this; decide

theorem baseName_inj {f tok ts f' tok' ts' : Str} (h1 : NamePart f) (h2 : NamePart tok) (h3 : NamePart ts)
    (h1' : NamePart f') (h2' : NamePart tok') (h3' : NamePart ts')
    (h : baseName f tok ts = baseName f' tok' ts') : f = f' ∧ tok = tok' ∧ ts = ts' := by
  have e1 := fromMeta_baseName (size := 0) h1 h2 h3.2.1
  have e2 := fromMeta_baseName (size := 0) h1' h2' h3'.2.1
  rw [h, e2] at e1
  injection e1 with e1
  injection e1 with a b c
  exact ⟨a.symm, b.symm, c.symm⟩

theorem logName_inj {f base v tok f' base' v' tok' : Str} (h1 : NamePart f) (h2 : NamePart base) (h3 : NamePart v)
    (h4 : NamePart tok) (h1' : NamePart f') (h2' : NamePart base') (h3' : NamePart v') (h4' : NamePart tok')
    (h : logName f base v tok = logName f' base' v' tok') : f = f' ∧ base = base' ∧ v = v' ∧ tok = tok' := by
  have e1 := fromMeta_logName (size := 0) h1 h2.2.2.1 h2.1 h3 h4
  have e2 := fromMeta_logName (size := 0) h1' h2'.2.2.1 h2'.1 h3' h4'
  rw [h, e2] at e1
  injection e1 with e1
  injection e1 with a b c d e
  exact ⟨a.symm, b.symm, d.symm, e.symm⟩

/-! ## Partitions -/

theorem site_segs {S : Setting} {x : Str} (h : Site S x) :
    (¬ Partitioned S.o ∧ x = [] ∧ pathSegs x = []) ∨
    (Partitioned S.o ∧ ∃ n ns, (∀ m ∈ n :: ns, NormalName m) ∧ n ∉ metadataDirs ∧ pathSegs x = n :: ns ∧
      x = joinWith '/' (n :: ns)) := by
  rcases h.1 with ⟨h1, rfl⟩ | ⟨h1, n, ns, h2, h3, rfl⟩
  · exact .inl ⟨h1, rfl, rfl⟩
  · exact .inr ⟨h1, n, ns, h2, h3, pathSegs_joinWith h2, rfl⟩

theorem site_normal {S : Setting} {x : Str} (h : Site S x) : ∀ n ∈ pathSegs x, NormalName n := by
  rcases site_segs h with ⟨_, _, e⟩ | ⟨_, n, ns, h1, _, e, _⟩
  · rw [e]; simp
  · rw [e]; exact h1

theorem site_inj {S : Setting} {x y : Str} (hx : Site S x) (hy : Site S y) (h : pathSegs x = pathSegs y) : x = y := by
  rcases site_segs hx with ⟨h1, e, _⟩ | ⟨h1, n, ns, _, _, e1, e⟩ <;>
    rcases site_segs hy with ⟨h1', e', _⟩ | ⟨h1', n', ns', _, _, e1', e'⟩
  · rw [e, e']
  · exact absurd h1' h1
  · exact absurd h1 h1'
  · rw [e1, e1'] at h
    rw [e, e', h]

theorem inPartition_inj {S : Setting} {x y n m : Str} (hx : Site S x) (hy : Site S y)
    (h : inPartition x n = inPartition y m) : x = y ∧ n = m := by
  unfold inPartition at h
  obtain ⟨h1, h2⟩ := List.append_inj' h rfl
  exact ⟨site_inj hx hy h1, by simpa using h2⟩

theorem inPartition_length {S : Setting} {x n : Str} (hx : Site S x) : (inPartition x n).length = S.depth + 1 := by
  unfold inPartition; rw [List.length_append, hx.2]; rfl

/-- A file of a partition is not in the timeline directory. -/
theorem inPartition_ne {S : Setting} {x n m : Str} (hx : Site S x) : inPartition x n ≠ [c!".hoodie", m] := by
  intro h
  unfold inPartition at h
  rcases site_segs hx with ⟨_, _, e⟩ | ⟨_, a, as, _, h1, e, _⟩
  · rw [e] at h; simp at h
  · rw [e] at h
    simp only [List.cons_append, List.cons.injEq] at h
    rw [h.1] at h1
    revert h1; decide

theorem inPartition_normal {S : Setting} {x n : Str} (hx : Site S x) (hn : NormalName n) :
    ∀ m ∈ inPartition x n, NormalName m := by
  intro m hm
  rcases List.mem_append.1 hm with h | h
  · exact site_normal hx m h
  · rw [List.mem_singleton.1 h]; exact hn

/-! ## Paths -/

/-- The names of a file group. -/
def KeyOk (S : Setting) (k : GroupKey) : Prop := Site S k.1 ∧ NamePart k.2

theorem baseAt_inj {S : Setting} {k k' : GroupKey} {tok tok' ts ts' : Str} (hk : KeyOk S k) (hk' : KeyOk S k')
    (ht : NamePart tok) (ht' : NamePart tok') (hs : WriterTimestamp ts) (hs' : WriterTimestamp ts')
    (h : baseAt k tok ts = baseAt k' tok' ts') : k = k' ∧ tok = tok' ∧ ts = ts' := by
  obtain ⟨h1, h2⟩ := inPartition_inj hk.1 hk'.1 h
  obtain ⟨h3, h4, h5⟩ := baseName_inj hk.2 ht (digits_part hs) hk'.2 ht' (digits_part hs') h2
  exact ⟨Prod.ext h1 h3, h4, h5⟩

theorem logAt_inj {S : Setting} {k k' : GroupKey} {base base' : Str} {l l' : Str × Str} (hk : KeyOk S k)
    (hk' : KeyOk S k') (hs : WriterTimestamp base) (hs' : WriterTimestamp base')
    (hl : NamePart l.1 ∧ NamePart l.2) (hl' : NamePart l'.1 ∧ NamePart l'.2)
    (h : logAt k base l = logAt k' base' l') : k = k' ∧ base = base' ∧ l = l' := by
  obtain ⟨h1, h2⟩ := inPartition_inj hk.1 hk'.1 h
  obtain ⟨h3, h4, h5, h6⟩ := logName_inj hk.2 (digits_part hs) hl.1 hl.2 hk'.2 (digits_part hs') hl'.1 hl'.2 h2
  exact ⟨Prod.ext h1 h3, h4, Prod.ext h5 h6⟩

theorem base_ne_log {S : Setting} {k k' : GroupKey} {tok ts base : Str} {l : Str × Str} (hk : KeyOk S k)
    (hk' : KeyOk S k') (hl : NamePart l.1 ∧ NamePart l.2) : baseAt k tok ts ≠ logAt k' base l := by
  intro h
  obtain ⟨_, h2⟩ := inPartition_inj hk.1 hk'.1 h
  exact parquetName_log hl.1 hl.2 (h2 ▸ parquetName_base)

theorem base_ne_instant {S : Setting} {k : GroupKey} {tok ts : Str} {c : HCommit} (hk : KeyOk S k) :
    baseAt k tok ts ≠ instantAt c := inPartition_ne hk.1

theorem log_ne_instant {S : Setting} {k : GroupKey} {base : Str} {l : Str × Str} {c : HCommit} (hk : KeyOk S k) :
    logAt k base l ≠ instantAt c := inPartition_ne hk.1

theorem base_read {S : Setting} {k : GroupKey} {tok ts : Str} (hk : KeyOk S k) : ¬ Unread S (baseAt k tok ts) := by
  rintro (⟨name, h, _⟩ | ⟨x, name, h, hx, _, hi⟩)
  · exact inPartition_ne hk.1 h
  · obtain ⟨_, h2⟩ := inPartition_inj hk.1 hx h
    exact base_not_ignored hk.2 (h2 ▸ hi)

theorem log_read {S : Setting} {k : GroupKey} {base : Str} {l : Str × Str} (hk : KeyOk S k)
    (hs : WriterTimestamp base) (hl : NamePart l.1 ∧ NamePart l.2) : ¬ Unread S (logAt k base l) := by
  rintro (⟨name, h, _⟩ | ⟨x, name, h, hx, _, hi⟩)
  · exact inPartition_ne hk.1 h
  · obtain ⟨_, h2⟩ := inPartition_inj hk.1 hx h
    exact log_not_ignored hk.2 hs hl.1 hl.2 (h2 ▸ hi)

theorem instant_completed {S : Setting} {c : HCommit} (ht : WriterTimestamp c.ts)
    (hp : ∃ d, parseDatetime S.ltz c.ts S.tz = .ok d) :
    ∃ i, CompletedFile S.ltz S.tz [.commit, .deltaCommit, .replaceCommit]
      (c.ts ++ c!"." ++ suffix c.action .completed) i := by
  obtain ⟨d, hd⟩ := hp
  refine ⟨_, c.ts, c.action, d, ?_, (digits_part ht).2.2.1, .inl rfl, hd, rfl⟩
  cases c.action <;> simp

theorem instant_read {S : Setting} {c : HCommit} (ht : WriterTimestamp c.ts)
    (hp : ∃ d, parseDatetime S.ltz c.ts S.tz = .ok d) : ¬ Unread S (instantAt c) := by
  rintro (⟨name, h, _, hn⟩ | ⟨x, name, h, hx, _, _⟩)
  · simp only [instantAt, List.cons.injEq, and_true, true_and] at h
    subst h
    exact hn (instant_completed ht hp)
  · exact inPartition_ne hx h.symm

theorem instantAt_inj {c c' : HCommit} (ht : WriterTimestamp c.ts) (ht' : WriterTimestamp c'.ts)
    (h : instantAt c = instantAt c') : c.ts = c'.ts ∧ c.action = c'.action := by
  simp only [instantAt, List.cons.injEq, and_true, true_and] at h
  exact completed_name (digits_part ht).2.2.1 (digits_part ht').2.2.1 (.inl h)

theorem instant_normal {c : HCommit} (ht : WriterTimestamp c.ts) :
    NormalName (c.ts ++ c!"." ++ suffix c.action .completed) := by
  have h := digits_part ht
  have hs : '/' ∉ suffix c.action .completed ∧ (suffix c.action .completed).length ≥ 6 ∧
      ∀ ch ∈ suffix c.action .completed, 32 ≤ ch.toNat ∧ ch.toNat ≠ 127 := by cases c.action <;> decide
  refine ⟨by simp, ?_, ?_, ?_, ?_⟩
  · simp only [List.mem_append, not_or]
    exact ⟨⟨h.2.2.2.1, by decide⟩, hs.1⟩
  · intro e
    have := congrArg List.length e
    simp at this
    omega
  · intro e
    have := congrArg List.length e
    simp at this
    omega
  · intro ch hc
    simp only [List.mem_append] at hc
    rcases hc with (hc | hc) | hc
    · exact h.2.2.2.2 ch hc
    · revert ch; decide
    · exact hs.2.2 ch hc

theorem unread_normal {S : Setting} {p : List Str} (h : Unread S p) : ∀ n ∈ p, NormalName n := by
  rcases h with ⟨name, rfl, h, _⟩ | ⟨x, name, rfl, hx, h, _⟩
  · intro n hn
    simp only [List.mem_cons, List.not_mem_nil, or_false] at hn
    rcases hn with rfl | rfl
    · decide
    · exact h
  · exact inPartition_normal hx h

end Hudi
