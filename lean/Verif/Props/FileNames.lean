import Verif.Lemmas.Str
import Verif.Model.Files

/-! # C12, C13: base and log file names -/

namespace Hudi

theorem baseFile_fromStr_ok {name : Str} {b : BaseFile} (h : BaseFile.fromStr name = .ok b) :
    ∃ more, name = joinWith '_' (b.fileId :: b.writeToken :: b.commitTimestamp :: more) ++ '.' :: b.extension
      ∧ '.' ∉ b.extension ∧ b.fileMeta = none ∧
      ∀ p ∈ b.fileId :: b.writeToken :: b.commitTimestamp :: more, '_' ∉ p := by
  unfold BaseFile.fromStr BaseFile.parseFileName at h
  obtain ⟨⟨fid, tok, ts, ext⟩, h1, h2⟩ := Res.bind_eq_ok.1 h
  cases h2
  split at h1
  · cases h1
  rename_i stem ext' hr
  obtain ⟨rfl, hext⟩ := rsplitOnce_eq_some.1 hr
  split at h1
  · rename_i fid' tok' ts' more hs
    cases h1
    refine ⟨more, ?_, hext, rfl, ?_⟩
    · show _ = joinWith '_' (fid :: tok :: ts :: more) ++ '.' :: ext
      rw [← hs, join_splitAll]
    · show ∀ p ∈ fid :: tok :: ts :: more, '_' ∉ p
      rw [← hs]; exact splitAll_not_mem '_' stem
  · cases h1

theorem count_joinWith (ps : List Str) (h : ∀ p ∈ ps, '_' ∉ p) :
    (joinWith '_' ps).count '_' = ps.length - 1 := by
  induction ps with
  | nil => rfl
  | cons p ps ih =>
    have hp : p.count '_' = 0 := List.count_eq_zero.2 (h p (by simp))
    cases ps with
    | nil => simpa [joinWith] using hp
    | cons q qs =>
      have := ih (fun x hx => h x (by simp [hx]))
      simp only [joinWith, List.count_append, List.count_cons_self, hp, this, List.length_cons]
      omega

/-- **C12 is false**: a name with a fourth `_`-separated part is accepted as a base file, and the
name generated for it (which the file is read by) is another one. -/
theorem C12_false : ∃ name b, BaseFile.fromStr name = .ok b ∧ b.fileName ≠ name ∧
    name = c!"f1-0_0-1-2_20240103153000000_copy.parquet" :=
  ⟨c!"f1-0_0-1-2_20240103153000000_copy.parquet", _, rfl, by decide, rfl⟩

/-- **C12, partial.**  A name accepted as a base file is regenerated exactly when the part before its
last dot contains exactly two underscores.  Missing: names with more, for which the claim is false
(`C12_false`). -/
theorem C12_base_file_name_regenerated_partial (name : Str) (b : BaseFile)
    (h : BaseFile.fromStr name = .ok b) :
    b.fileName = name ↔
      ∃ stem ext, name = stem ++ c!"." ++ ext ∧ '.' ∉ ext ∧ stem.count '_' = 2 := by
  obtain ⟨more, h1, h2, _, h3⟩ := baseFile_fromStr_ok h
  have hfn : b.fileName = joinWith '_' [b.fileId, b.writeToken, b.commitTimestamp]
      ++ '.' :: b.extension := by
    simp [BaseFile.fileName, joinWith]
  have hcount := count_joinWith _ h3
  constructor
  · intro heq
    refine ⟨joinWith '_' [b.fileId, b.writeToken, b.commitTimestamp], b.extension, ?_, h2, ?_⟩
    · rw [← heq, hfn]; simp
    · rw [count_joinWith]
      · rfl
      · intro p hp
        apply h3 p
        simp only [List.mem_cons, List.not_mem_nil, or_false] at hp
        simp only [List.mem_cons]
        rcases hp with h | h | h <;> simp [h]
  · rintro ⟨stem, ext, hn, hext, hc⟩
    have e1 := rsplitOnce_append (a := stem) hext
    have e2 := rsplitOnce_append
      (a := joinWith '_' (b.fileId :: b.writeToken :: b.commitTimestamp :: more)) h2
    rw [← h1, hn, List.append_assoc, List.singleton_append, e1] at e2
    simp only [Option.some.injEq, Prod.mk.injEq] at e2
    rw [← e2.1, hc] at hcount
    simp only [List.length_cons] at hcount
    have hm : more = [] := List.length_eq_zero_iff.1 (by omega)
    subst hm
    rw [hfn, h1]

/-- **C12.** Any base file whose parts contain no separator is recovered from its generated name, by
both entry points.  Missing: parts that contain separators (`C12_false`). -/
theorem C12_base_file_recovered_partial (fid tok ts ext : Str) (m : FileMeta)
    (h1 : '_' ∉ fid) (h2 : '_' ∉ tok) (h3 : '_' ∉ ts) (h4 : '.' ∉ ext) :
    let b : BaseFile := ⟨fid, tok, ts, ext, none⟩
    BaseFile.fromStr b.fileName = .ok b ∧
      BaseFile.fromMeta { m with name := b.fileName }
        = .ok { b with fileMeta := some { m with name := b.fileName } } := by
  intro b
  have hp : BaseFile.parseFileName b.fileName = .ok (fid, tok, ts, ext) := by
    have e : b.fileName = (fid ++ '_' :: (tok ++ '_' :: ts)) ++ '.' :: ext := by
      simp [b, BaseFile.fileName]
    unfold BaseFile.parseFileName
    rw [e, rsplitOnce_append h4]
    simp only
    rw [splitAll_append h1, splitAll_append h2, splitAll_single h3]
  refine ⟨?_, ?_⟩
  · unfold BaseFile.fromStr
    rw [hp]; rfl
  · unfold BaseFile.fromMeta
    rw [hp]; rfl

/-- **C12, partial.**  Exactly the names `id_token_time….ext` are accepted as base file names (the
name has a dot, the part before the last one has at least three `_`-separated parts), the parts are
the first three, and every other name is reported as an error rather than crashing.  Missing: that an accepted name is
the one generated again (`C12_false`). -/
theorem C12_accepted_exactly_partial (name : Str) :
    (∀ b, BaseFile.fromStr name = .ok b ↔
      b.fileMeta = none ∧ '.' ∉ b.extension ∧ '_' ∉ b.fileId ∧ '_' ∉ b.writeToken ∧
        '_' ∉ b.commitTimestamp ∧
        ∃ more, (more = [] ∨ ∃ r, more = c!"_" ++ r) ∧
          name = b.fileId ++ c!"_" ++ b.writeToken ++ c!"_" ++ b.commitTimestamp ++ more
            ++ c!"." ++ b.extension) ∧
    ((∀ b, BaseFile.fromStr name ≠ .ok b) → BaseFile.fromStr name = .err .fileGroup) := by
  refine ⟨fun b => ⟨fun h => ?_, ?_⟩, ?_⟩
  · obtain ⟨more, h1, h2, h3, h4⟩ := baseFile_fromStr_ok h
    refine ⟨h3, h2, h4 _ (by simp), h4 _ (by simp), h4 _ (by simp), ?_⟩
    cases more with
    | nil => exact ⟨[], .inl rfl, by rw [h1]; simp [joinWith]⟩
    | cons q qs =>
      exact ⟨c!"_" ++ joinWith '_' (q :: qs), .inr ⟨_, rfl⟩, by rw [h1]; simp [joinWith]⟩
  · rintro ⟨hm, he, hf, ht, hc, more, hmore, hn⟩
    obtain ⟨fid, tok, ts, ext, mt⟩ := b
    simp only at hm he hf ht hc hn
    subst hm
    have hp : BaseFile.parseFileName name = .ok (fid, tok, ts, ext) := by
      unfold BaseFile.parseFileName
      rcases hmore with rfl | ⟨r, rfl⟩
      · have e : name = (fid ++ '_' :: (tok ++ '_' :: ts)) ++ '.' :: ext := by rw [hn]; simp
        rw [e, rsplitOnce_append he]
        simp only
        rw [splitAll_append hf, splitAll_append ht, splitAll_single hc]
      · have e : name = (fid ++ '_' :: (tok ++ '_' :: (ts ++ '_' :: r))) ++ '.' :: ext := by
          rw [hn]; simp
        rw [e, rsplitOnce_append he]
        simp only
        rw [splitAll_append hf, splitAll_append ht, splitAll_append hc]
    unfold BaseFile.fromStr
    rw [hp]; rfl
  · intro h
    unfold BaseFile.fromStr at h ⊢
    cases hp : BaseFile.parseFileName name with
    | ok x => rw [hp] at h; exact absurd rfl (h _)
    | err e =>
      unfold BaseFile.parseFileName at hp
      repeat' split at hp
      all_goals first | (cases hp; rfl) | cases hp
    | panic =>
      unfold BaseFile.parseFileName at hp
      repeat' split at hp
      all_goals cases hp

example : ∃ b, BaseFile.fromStr c!"f1-0_0-1-2_20240103153000000.parquet" = .ok b ∧
    b.fileName = c!"f1-0_0-1-2_20240103153000000.parquet" := ⟨_, rfl, by decide⟩

theorem logFile_parse_ok {name fid ts ext ver tok : Str}
    (h : LogFile.parseFileName name = .ok (fid, ts, ext, ver, tok)) :
    name = c!"." ++ fid ++ c!"_" ++ ts ++ c!"." ++ ext ++ c!"." ++ ver ++ c!"_" ++ tok ∧
      '_' ∉ fid ∧ '.' ∉ ts ∧ '.' ∉ ext ∧ '.' ∉ ver ∧ '_' ∉ tok ∧
      fid ≠ [] ∧ ts ≠ [] ∧ ext ≠ [] ∧ ver ≠ [] ∧ tok ≠ [] := by
  unfold LogFile.parseFileName at h
  split at h
  · rename_i rest
    split at h
    · cases h
    rename_i fid' rest' h1
    obtain ⟨rfl, hf⟩ := splitOnce_eq_some.1 h1
    split at h
    · cases h
    rename_i middle tok' h2
    obtain ⟨rfl, ht⟩ := rsplitOnce_eq_some.1 h2
    split at h
    · rename_i ts' ext' ver' h3
      split at h
      · cases h
      · rename_i hne
        cases h
        have hj := join_splitAll '.' middle
        have hm := splitAll_not_mem '.' middle
        rw [h3] at hj hm
        simp only [not_or] at hne
        refine ⟨?_, hf, hm ts (by simp), hm ext (by simp), hm ver (by simp), ht, hne.1, hne.2.1,
          hne.2.2.1, hne.2.2.2.1, hne.2.2.2.2⟩
        rw [← hj]; simp [joinWith]
    · cases h
  · cases h

/-- **C13.** A log file parsed from a name denotes that file: the generated name is the original
name, by both entry points. -/
theorem C13_log_file_name_regenerated (name : Str) (l : LogFile) (m : FileMeta) :
    (LogFile.fromStr name = .ok l → l.fileName = name) ∧
    (LogFile.fromMeta m = .ok l → l.fileName = m.name ∧ l.fileMeta = some m) := by
  constructor
  · intro h
    unfold LogFile.fromStr at h
    obtain ⟨⟨fid, ts, ext, ver, tok⟩, h1, h2⟩ := Res.bind_eq_ok.1 h
    cases h2
    exact (logFile_parse_ok h1).1.symm
  · intro h
    unfold LogFile.fromMeta at h
    obtain ⟨⟨fid, ts, ext, ver, tok⟩, h1, h2⟩ := Res.bind_eq_ok.1 h
    cases h2
    exact ⟨(logFile_parse_ok h1).1.symm, rfl⟩

/-- **C13.** Any log file with separator-free non-empty parts is recovered from its generated
name. -/
theorem C13_log_file_recovered (fid ts ext ver tok : Str) (m : FileMeta)
    (h1 : '_' ∉ fid) (h2 : '.' ∉ ts) (h3 : '.' ∉ ext) (h4 : '.' ∉ ver) (h5 : '_' ∉ tok)
    (n1 : fid ≠ []) (n2 : ts ≠ []) (n3 : ext ≠ []) (n4 : ver ≠ []) (n5 : tok ≠ []) :
    let l : LogFile := ⟨fid, ts, ext, ver, tok, none⟩
    LogFile.fromStr l.fileName = .ok l ∧
      LogFile.fromMeta { m with name := l.fileName }
        = .ok { l with fileMeta := some { m with name := l.fileName } } := by
  intro l
  have hp : LogFile.parseFileName l.fileName = .ok (fid, ts, ext, ver, tok) := by
    have e : l.fileName = '.' :: (fid ++ '_' :: ((ts ++ '.' :: (ext ++ '.' :: ver)) ++ '_' :: tok)) := by
      simp [l, LogFile.fileName]
    unfold LogFile.parseFileName
    rw [e]
    simp only
    rw [splitOnce_append h1]
    simp only
    rw [rsplitOnce_append h5]
    simp only
    rw [splitAll_append h2, splitAll_append h3, splitAll_single h4]
    simp [n1, n2, n3, n4, n5]
  refine ⟨?_, ?_⟩
  · unfold LogFile.fromStr
    rw [hp]; rfl
  · unfold LogFile.fromMeta
    rw [hp]; rfl

/-- **C13.** Exactly the names `.id_time.ext.version_token` with non-empty parts are accepted as log
file names (the id ends at the first underscore, the token starts after the last one, and exactly
two dots lie between), and every other name is reported as an error rather than crashing. -/
theorem C13_accepted_exactly (name : Str) :
    (∀ l, LogFile.fromStr name = .ok l ↔
      l.fileMeta = none ∧
        '_' ∉ l.fileId ∧ '.' ∉ l.baseCommitTimestamp ∧ '.' ∉ l.extension ∧ '.' ∉ l.version ∧
        '_' ∉ l.writeToken ∧
        l.fileId ≠ [] ∧ l.baseCommitTimestamp ≠ [] ∧ l.extension ≠ [] ∧ l.version ≠ [] ∧
        l.writeToken ≠ [] ∧
        name = c!"." ++ l.fileId ++ c!"_" ++ l.baseCommitTimestamp ++ c!"." ++ l.extension ++ c!"."
          ++ l.version ++ c!"_" ++ l.writeToken) ∧
    ((∀ l, LogFile.fromStr name ≠ .ok l) → LogFile.fromStr name = .err .fileGroup) := by
  refine ⟨fun l => ⟨fun h => ?_, ?_⟩, ?_⟩
  · unfold LogFile.fromStr at h
    obtain ⟨⟨fid, ts, ext, ver, tok⟩, h1, h2⟩ := Res.bind_eq_ok.1 h
    cases h2
    obtain ⟨hn, h⟩ := logFile_parse_ok h1
    exact ⟨rfl, h.1, h.2.1, h.2.2.1, h.2.2.2.1, h.2.2.2.2.1, h.2.2.2.2.2.1, h.2.2.2.2.2.2.1,
      h.2.2.2.2.2.2.2.1, h.2.2.2.2.2.2.2.2.1, h.2.2.2.2.2.2.2.2.2, hn⟩
  · rintro ⟨hm, h1, h2, h3, h4, h5, n1, n2, n3, n4, n5, hn⟩
    obtain ⟨fid, ts, ext, ver, tok, mt⟩ := l
    simp only at hm h1 h2 h3 h4 h5 n1 n2 n3 n4 n5 hn
    subst hm
    have := (C13_log_file_recovered fid ts ext ver tok ⟨[], 0, 0, 0, false⟩ h1 h2 h3 h4 h5 n1 n2 n3 n4 n5).1
    rw [hn]
    exact this
  · intro h
    unfold LogFile.fromStr at h ⊢
    cases hp : LogFile.parseFileName name with
    | ok x => rw [hp] at h; exact absurd rfl (h _)
    | err e =>
      unfold LogFile.parseFileName at hp
      repeat' split at hp
      all_goals first | (cases hp; rfl) | cases hp
    | panic =>
      unfold LogFile.parseFileName at hp
      repeat' split at hp
      all_goals cases hp

example : LogFile.fromStr c!".f1-0_20240103153000000.log.1_" = .err .fileGroup := rfl

example : ∃ l, LogFile.fromStr c!".f1-0_20240103153000000.log.1_0-1-2" = .ok l ∧
    l.version = c!"1" ∧ l.baseCommitTimestamp = c!"20240103153000000" := ⟨_, rfl, by decide, by decide⟩

end Hudi
