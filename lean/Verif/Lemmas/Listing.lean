import Verif.Spec.Listing
import Verif.Lemmas.HMap
import Verif.Lemmas.Files
import Verif.Lemmas.Lists
import Mathlib.Data.List.Nodup

/-! # Lemmas: listing one partition -/

namespace Hudi
open Spec

theorem baseFileFormatOf_eq (o : Opts) : baseFileFormatOf o = .ok c!"parquet" := by
  unfold baseFileFormatOf
  have : Cfg.baseFileFormat.getOrDefault o = .ok (.string c!"parquet") := by
    unfold Cfg.getOrDefault
    cases h : Cfg.baseFileFormat.get o with
    | error e => rfl
    | ok v =>
      unfold Cfg.get at h
      split at h
      · cases h
      · rename_i v' _
        simp only [Cfg.parseRaw] at h
        unfold parseBaseFileFormat at h
        simp only at h
        split at h
        · cases h; rfl
        split at h <;> cases h
  rw [this]; rfl

theorem shouldExclude_iff (n : Str) : shouldExclude n = true ↔ Ignored n := by
  unfold shouldExclude Ignored partitionMetafieldPrefix startsWith endsWith
  rw [Bool.or_eq_true, List.isPrefixOf_iff_prefix, List.isSuffixOf_iff_suffix]
  constructor
  · rintro (⟨r, h⟩ | ⟨r, h⟩)
    · exact .inl ⟨r, h.symm⟩
    · exact .inr ⟨r, h.symm⟩
  · rintro (⟨r, h⟩ | ⟨r, h⟩)
    · exact .inl ⟨r, h.symm⟩
    · exact .inr ⟨r, h.symm⟩

theorem endsWith_iff (x n : Str) : endsWith x n = true ↔ ∃ stem, n = stem ++ x := by
  unfold endsWith
  rw [List.isSuffixOf_iff_suffix]
  exact ⟨fun ⟨r, h⟩ => ⟨r, h.symm⟩, fun ⟨r, h⟩ => ⟨r, h.symm⟩⟩

/-- The file is taken for a base file. -/
def isBaseM (m : FileMeta) : Bool := !shouldExclude m.name && endsWith c!".parquet" m.name

/-- The file is tried as a log file. -/
def isLogM (m : FileMeta) : Bool := !shouldExclude m.name && !endsWith c!".parquet" m.name

def basesOf (fs : List FileMeta) : List BaseFile :=
  fs.filterMap (fun m => if isBaseM m then (BaseFile.fromMeta m).toOption else none)

def logsOf (fs : List FileMeta) : List LogFile :=
  fs.filterMap (fun m => if isLogM m then (LogFile.fromMeta m).toOption else none)

theorem LogFile.fromMeta_ne_panic (m : FileMeta) : LogFile.fromMeta m ≠ .panic := by
  unfold LogFile.fromMeta
  intro h
  have : LogFile.parseFileName m.name = .panic := by
    cases hx : LogFile.parseFileName m.name with
    | ok a => rw [hx] at h; cases h
    | err e => rw [hx] at h; cases h
    | panic => rfl
  unfold LogFile.parseFileName at this
  repeat' split at this
  all_goals cases this

theorem BaseFile.fromMeta_ne_panic (m : FileMeta) : BaseFile.fromMeta m ≠ .panic := by
  unfold BaseFile.fromMeta
  intro h
  have : BaseFile.parseFileName m.name = .panic := by
    cases hx : BaseFile.parseFileName m.name with
    | ok a => rw [hx] at h; cases h
    | err e => rw [hx] at h; cases h
    | panic => rfl
  unfold BaseFile.parseFileName at this
  repeat' split at this
  all_goals cases this

section push
variable {κ ν : Type} [DecidableEq κ]

def pushAll (key : ν → κ) (m : List (κ × List ν)) (l : List ν) : List (κ × List ν) :=
  l.foldl (fun m x => hmPush (key x) x m) m

theorem pushAll_nodup {key : ν → κ} {m : List (κ × List ν)} (l : List ν) (h : HmNodup m) :
    HmNodup (pushAll key m l) := by
  induction l generalizing m with
  | nil => exact h
  | cons x l ih => exact ih (hmPush_nodup h)

theorem hmGet_pushAll (key : ν → κ) (m : List (κ × List ν)) (l : List ν) (k : κ) :
    hmGet k (pushAll key m l) = if l.filter (fun x => key x = k) = [] then hmGet k m
      else some ((hmGet k m).getD [] ++ l.filter (fun x => key x = k)) := by
  induction l generalizing m with
  | nil => simp [pushAll]
  | cons x l ih =>
    have : pushAll key m (x :: l) = pushAll key (hmPush (key x) x m) l := rfl
    rw [this, ih, hmGet_hmPush]
    by_cases hk : key x = k
    · subst hk
      simp only [List.filter_cons, decide_true, if_true]
      split
      · rename_i h; simp [h]
      · simp
    · rw [if_neg (Ne.symm hk)]
      simp [List.filter_cons, hk]

theorem hmGet_pushAll_nil (key : ν → κ) (l : List ν) (k : κ) :
    hmGet k (pushAll key [] l) = if l.filter (fun x => key x = k) = [] then none
      else some (l.filter (fun x => key x = k)) := by
  rw [hmGet_pushAll]; simp [hmGet]

end push

theorem foldL_listStep (fs : List FileMeta) (acc acc' : Listed) :
    Res.foldL (listStep c!"parquet") acc fs = .ok acc' ↔
      (∀ m ∈ fs, isBaseM m = true → ∃ b, BaseFile.fromMeta m = .ok b) ∧
      acc' = ⟨pushAll BaseFile.fileId acc.bases (basesOf fs),
        pushAll LogFile.fileId acc.logs (logsOf fs)⟩ := by
  induction fs generalizing acc with
  | nil =>
    constructor
    · intro h; cases h; exact ⟨fun m hm => (by cases hm), rfl⟩
    · rintro ⟨_, rfl⟩; rfl
  | cons m fs ih =>
    rw [Res.foldL_cons]
    have hb : basesOf (m :: fs) =
        (if isBaseM m then (BaseFile.fromMeta m).toOption else none).toList ++ basesOf fs := by
      unfold basesOf
      rw [List.filterMap_cons]
      cases (if isBaseM m then (BaseFile.fromMeta m).toOption else none) <;> rfl
    have hl : logsOf (m :: fs) =
        (if isLogM m then (LogFile.fromMeta m).toOption else none).toList ++ logsOf fs := by
      unfold logsOf
      rw [List.filterMap_cons]
      cases (if isLogM m then (LogFile.fromMeta m).toOption else none) <;> rfl
    rw [hb, hl]
    simp only [List.forall_mem_cons]
    cases he : shouldExclude m.name with
    | true =>
      have h1 : isBaseM m = false := by simp [isBaseM, he]
      have h2 : isLogM m = false := by simp [isLogM, he]
      have hs : listStep c!"parquet" acc m = .ok acc := by unfold listStep; rw [if_pos he]
      rw [hs]
      simp only [Res.ok_bind, ih, h1, h2, Bool.false_eq_true, if_false, false_implies, true_and,
        Option.toList, List.nil_append]
    | false =>
      have he' : ¬ shouldExclude m.name = true := by rw [he]; exact Bool.false_ne_true
      cases hp : endsWith c!".parquet" m.name with
      | true =>
        have h1 : isBaseM m = true := by unfold isBaseM; rw [he, hp]; rfl
        have h2 : isLogM m = false := by unfold isLogM; rw [he, hp]; rfl
        have hs : listStep c!"parquet" acc m = (BaseFile.fromMeta m >>= fun b =>
            pure { acc with bases := hmPush b.fileId b acc.bases }) := by
          unfold listStep; rw [if_neg he', if_pos (show endsWith (c!"." ++ c!"parquet") m.name = true from hp)]
        rw [hs]
        cases hf : BaseFile.fromMeta m with
        | ok b =>
          simp only [Res.ok_bind, Res.pure_eq, ih, h1, h2, Bool.false_eq_true, if_true, if_false,
            Res.toOption, Option.toList, List.nil_append, List.cons_append, pushAll,
            List.foldl_cons, forall_const, Res.ok.injEq, exists_eq', true_and]
        | err e => simp [h1]
        | panic => exact absurd hf (BaseFile.fromMeta_ne_panic m)
      | false =>
        have hp' : ¬ endsWith c!".parquet" m.name = true := by rw [hp]; exact Bool.false_ne_true
        have h1 : isBaseM m = false := by unfold isBaseM; rw [he, hp]; rfl
        have h2 : isLogM m = true := by unfold isLogM; rw [he, hp]; rfl
        have hs : listStep c!"parquet" acc m = (match LogFile.fromMeta m with
            | .ok l => .ok { acc with logs := hmPush l.fileId l acc.logs }
            | .err _ => .ok acc
            | .panic => .panic) := by
          unfold listStep; rw [if_neg he', if_neg (show ¬ endsWith (c!"." ++ c!"parquet") m.name = true from hp')]; rfl
        rw [hs]
        cases hf : LogFile.fromMeta m with
        | ok l =>
          simp only [Res.ok_bind, ih, h1, h2, Bool.false_eq_true, if_true, if_false,
            Res.toOption, Option.toList, List.nil_append, List.cons_append, pushAll,
            List.foldl_cons, false_implies, true_and]
        | err e =>
          simp only [Res.ok_bind, ih, h1, h2, Bool.false_eq_true, if_true, if_false,
            Res.toOption, Option.toList, List.nil_append, false_implies, true_and]
        | panic => exact absurd hf (LogFile.fromMeta_ne_panic m)

theorem addBaseFiles_spec {g : FileGroup} {bs : List BaseFile} (hs : MapSorted g.slices) :
    (((bs.map BaseFile.commitTimestamp).Nodup ∧ ∀ b ∈ bs, mapGet b.commitTimestamp g.slices = none) →
      ∃ g', g.addBaseFiles bs = .ok g' ∧ g'.fileId = g.fileId ∧ g'.partitionPath = g.partitionPath ∧
        MapSorted g'.slices ∧ ∀ ts s, mapGet ts g'.slices = some s ↔
          mapGet ts g.slices = some s ∨
            ∃ b ∈ bs, b.commitTimestamp = ts ∧ s = FileSlice.new b g.partitionPath) ∧
    (¬ ((bs.map BaseFile.commitTimestamp).Nodup ∧
        ∀ b ∈ bs, mapGet b.commitTimestamp g.slices = none) →
      g.addBaseFiles bs = .err .fileGroup) := by
  induction bs generalizing g with
  | nil =>
    refine ⟨fun _ => ⟨g, rfl, rfl, rfl, hs, by simp⟩, fun h => absurd ⟨by simp, by simp⟩ h⟩
  | cons b bs ih =>
    unfold FileGroup.addBaseFiles
    rw [Res.foldL_cons]
    cases hb : mapGet b.commitTimestamp g.slices with
    | some s =>
      refine ⟨?_, ?_⟩
      · rintro ⟨_, h⟩
        have := h b List.mem_cons_self
        rw [hb] at this; cases this
      · intro _
        simp [FileGroup.addBaseFile, hb]
    | none =>
      have ha : g.addBaseFile b = .ok { g with
          slices := mapInsert b.commitTimestamp (FileSlice.new b g.partitionPath) g.slices } := by
        simp [FileGroup.addBaseFile, hb]
      rw [ha]
      simp only [Res.ok_bind]
      have ih := ih (g := { g with
        slices := mapInsert b.commitTimestamp (FileSlice.new b g.partitionPath) g.slices })
        (mapInsert_sorted hs)
      simp only [mapGet_insert] at ih
      have hiff : ((List.map BaseFile.commitTimestamp (b :: bs)).Nodup ∧
          ∀ x ∈ b :: bs, mapGet x.commitTimestamp g.slices = none) ↔
          ((bs.map BaseFile.commitTimestamp).Nodup ∧ ∀ x ∈ bs,
            (if x.commitTimestamp = b.commitTimestamp then
              some (FileSlice.new b g.partitionPath) else mapGet x.commitTimestamp g.slices) = none) := by
        simp only [List.map_cons, List.nodup_cons, List.forall_mem_cons, hb, true_and]
        constructor
        · rintro ⟨⟨h1, h2⟩, h3⟩
          refine ⟨h2, fun x hx => ?_⟩
          rw [if_neg, h3 x hx]
          intro he
          exact h1 (he ▸ List.mem_map.2 ⟨x, hx, rfl⟩)
        · rintro ⟨h2, h3⟩
          refine ⟨⟨?_, h2⟩, fun x hx => ?_⟩
          · intro hm
            obtain ⟨x, hx, he⟩ := List.mem_map.1 hm
            have := h3 x hx
            rw [if_pos he] at this; cases this
          · have := h3 x hx
            split at this
            · cases this
            · exact this
      refine ⟨?_, ?_⟩
      · intro h
        obtain ⟨g', e1, e2, e3, e4, e5⟩ := ih.1 (hiff.1 h)
        refine ⟨g', e1, e2, e3, e4, fun ts s => ?_⟩
        rw [e5]
        simp only [List.mem_cons, exists_eq_or_imp]
        by_cases hts : ts = b.commitTimestamp
        · subst hts
          rw [if_pos rfl, hb]
          simp only [Option.some.injEq, reduceCtorEq, false_or, true_and]
          constructor
          · rintro (h | h)
            · exact .inl h.symm
            · exact .inr h
          · rintro (h | h)
            · exact .inl h.symm
            · exact .inr h
        · rw [if_neg hts]
          simp [Ne.symm hts]
      · intro h
        exact ih.2 (fun h' => h (hiff.2 h'))

theorem listGroup_spec (partition : Str) (logs : List (Str × List LogFile)) (fid : Str)
    (bs : List BaseFile) :
    (((bs.map BaseFile.commitTimestamp).Nodup ∧
        ∀ l ∈ (hmGet fid logs).getD [], ∃ b ∈ bs, b.commitTimestamp = l.baseCommitTimestamp) →
      ∃ g, listGroup partition logs (fid, bs) = .ok g ∧ g.fileId = fid ∧
        g.partitionPath = partition ∧ MapSorted g.slices ∧
        ∀ ts s, mapGet ts g.slices = some s ↔ ∃ b ∈ bs, b.commitTimestamp = ts ∧
          s = ⟨b, setExtend LogFile.cmp [] (((hmGet fid logs).getD []).filter
            (fun l => l.baseCommitTimestamp = ts)), partition⟩) ∧
    (¬ ((bs.map BaseFile.commitTimestamp).Nodup ∧
        ∀ l ∈ (hmGet fid logs).getD [], ∃ b ∈ bs, b.commitTimestamp = l.baseCommitTimestamp) →
      listGroup partition logs (fid, bs) = .err .fileGroup) := by
  have hspec := addBaseFiles_spec (g := FileGroup.new fid partition) (bs := bs) .nil
  have hnone : ∀ b ∈ bs, mapGet b.commitTimestamp (FileGroup.new fid partition).slices = none :=
    fun _ _ => rfl
  by_cases hnd : (bs.map BaseFile.commitTimestamp).Nodup
  · obtain ⟨g1, e1, e2, e3, e4, e5⟩ := hspec.1 ⟨hnd, hnone⟩
    have hg : ∀ ts, mapGet ts g1.slices ≠ none ↔ ∃ b ∈ bs, b.commitTimestamp = ts := by
      intro ts
      rw [Option.ne_none_iff_exists']
      constructor
      · rintro ⟨s, hs⟩
        rcases (e5 ts s).1 hs with h | ⟨b, hb, h, _⟩
        · cases h
        · exact ⟨b, hb, h⟩
      · rintro ⟨b, hb, h⟩
        exact ⟨_, (e5 ts _).2 (.inr ⟨b, hb, h, rfl⟩)⟩
    unfold listGroup
    simp only [e1, Res.ok_bind]
    constructor
    · rintro ⟨_, hl⟩
      obtain ⟨g, f1, f2, f3, f4, f5⟩ := addLogFiles_ok (g := g1)
        (ls := (hmGet fid logs).getD []) (fun l hm => (hg _).2 (hl l hm)) e4
      refine ⟨g, f1, f2.trans e2, f3.trans e3, f4, fun ts s => ?_⟩
      rw [f5, Option.map_eq_some_iff]
      constructor
      · rintro ⟨s0, h0, rfl⟩
        rcases (e5 ts s0).1 h0 with h | ⟨b, hb, h, rfl⟩
        · cases h
        · exact ⟨b, hb, h, rfl⟩
      · rintro ⟨b, hb, h, rfl⟩
        exact ⟨FileSlice.new b partition, (e5 _ _).2 (.inr ⟨b, hb, h, rfl⟩), rfl⟩
    · intro h
      apply addLogFiles_err
      have : ¬ ∀ l ∈ (hmGet fid logs).getD [], ∃ b ∈ bs, b.commitTimestamp = l.baseCommitTimestamp :=
        fun h' => h ⟨hnd, h'⟩
      obtain ⟨l, hl⟩ := Classical.not_forall.1 this
      obtain ⟨hl, hb⟩ := Classical.not_imp.1 hl
      refine ⟨l, hl, ?_⟩
      by_contra hc
      exact hb ((hg _).1 hc)
  · refine ⟨fun h => absurd h.1 hnd, fun _ => ?_⟩
    unfold listGroup
    simp only [hspec.2 (fun h => hnd h.1)]
    rfl

theorem isBaseM_iff (n : Str) (sz : Nat) :
    isBaseM (FileMeta.new n sz) = true ↔ ¬ Ignored n ∧ ParquetName n := by
  unfold isBaseM
  rw [Bool.and_eq_true, Bool.not_eq_true', ← Bool.not_eq_true, ← shouldExclude_iff]
  exact and_congr Iff.rfl (endsWith_iff _ _)

theorem isLogM_iff (n : Str) (sz : Nat) :
    isLogM (FileMeta.new n sz) = true ↔ ¬ Ignored n ∧ ¬ ParquetName n := by
  unfold isLogM
  rw [Bool.and_eq_true, Bool.not_eq_true', Bool.not_eq_true', ← Bool.not_eq_true,
    ← Bool.not_eq_true, ← shouldExclude_iff]
  exact and_congr Iff.rfl (not_congr (endsWith_iff _ _))

/-- The metadata of listed files. -/
def metas (files : List (Str × Nat)) : List FileMeta := files.map (fun e => FileMeta.new e.1 e.2)

theorem toOption_eq_some {α : Type} {r : Res α} {a : α} : r.toOption = some a ↔ r = .ok a := by
  cases r <;> simp [Res.toOption]

theorem mem_basesOf {files : List (Str × Nat)} {b : BaseFile} :
    b ∈ basesOf (metas files) ↔ BaseIn files b := by
  unfold basesOf metas BaseIn
  simp only [List.mem_filterMap, List.mem_map]
  constructor
  · rintro ⟨_, ⟨⟨n, sz⟩, he, rfl⟩, h⟩
    split at h
    · rename_i hb
      obtain ⟨h1, h2⟩ := (isBaseM_iff n sz).1 hb
      exact ⟨n, sz, he, h1, h2, toOption_eq_some.1 h⟩
    · cases h
  · rintro ⟨n, sz, he, h1, h2, h⟩
    refine ⟨_, ⟨(n, sz), he, rfl⟩, ?_⟩
    rw [if_pos ((isBaseM_iff n sz).2 ⟨h1, h2⟩)]
    exact toOption_eq_some.2 h

theorem mem_logsOf {files : List (Str × Nat)} {l : LogFile} :
    l ∈ logsOf (metas files) ↔ LogIn files l := by
  unfold logsOf metas LogIn
  simp only [List.mem_filterMap, List.mem_map]
  constructor
  · rintro ⟨_, ⟨⟨n, sz⟩, he, rfl⟩, h⟩
    split at h
    · rename_i hb
      obtain ⟨h1, h2⟩ := (isLogM_iff n sz).1 hb
      exact ⟨n, sz, he, h1, h2, toOption_eq_some.1 h⟩
    · cases h
  · rintro ⟨n, sz, he, h1, h2, h⟩
    refine ⟨_, ⟨(n, sz), he, rfl⟩, ?_⟩
    rw [if_pos ((isLogM_iff n sz).2 ⟨h1, h2⟩)]
    exact toOption_eq_some.2 h

theorem BaseFile.fromMeta_meta {m : FileMeta} {b : BaseFile} (h : BaseFile.fromMeta m = .ok b) :
    b.fileMeta = some m := by
  unfold BaseFile.fromMeta at h
  obtain ⟨⟨_, _, _, _⟩, _, h2⟩ := Res.bind_eq_ok.1 h
  cases h2; rfl

theorem LogFile.fromMeta_meta {m : FileMeta} {l : LogFile} (h : LogFile.fromMeta m = .ok l) :
    l.fileMeta = some m := by
  unfold LogFile.fromMeta at h
  obtain ⟨⟨_, _, _, _, _⟩, _, h2⟩ := Res.bind_eq_ok.1 h
  cases h2; rfl

theorem filterMap_nodup {α β : Type} {f : α → Option β} {l : List α} (h : l.Nodup)
    (hf : ∀ a a' b, f a = some b → f a' = some b → a = a') : (l.filterMap f).Nodup := by
  induction l with
  | nil => exact List.nodup_nil
  | cons x l ih =>
    obtain ⟨hx, hl⟩ := List.nodup_cons.1 h
    rw [List.filterMap_cons]
    split
    · exact ih hl
    · rename_i b hb
      refine List.nodup_cons.2 ⟨fun hm => ?_, ih hl⟩
      obtain ⟨a, ha, hab⟩ := List.mem_filterMap.1 hm
      exact hx (hf x a b hb hab ▸ ha)

theorem metas_nodup {files : List (Str × Nat)} (h : (files.map Prod.fst).Nodup) :
    (metas files).Nodup := by
  have : (metas files).map FileMeta.name = files.map Prod.fst := by
    unfold metas; rw [List.map_map]; rfl
  rw [← this] at h
  exact h.of_map

theorem basesOf_nodup {files : List (Str × Nat)} (h : (files.map Prod.fst).Nodup) :
    (basesOf (metas files)).Nodup := by
  refine filterMap_nodup (metas_nodup h) (fun a a' b h1 h2 => ?_)
  split at h1
  · split at h2
    · have e1 := BaseFile.fromMeta_meta (toOption_eq_some.1 h1)
      have e2 := BaseFile.fromMeta_meta (toOption_eq_some.1 h2)
      rw [e1] at e2; exact Option.some.inj e2
    · cases h2
  · cases h1

theorem logsOf_nodup {files : List (Str × Nat)} (h : (files.map Prod.fst).Nodup) :
    (logsOf (metas files)).Nodup := by
  refine filterMap_nodup (metas_nodup h) (fun a a' b h1 h2 => ?_)
  split at h1
  · split at h2
    · have e1 := LogFile.fromMeta_meta (toOption_eq_some.1 h1)
      have e2 := LogFile.fromMeta_meta (toOption_eq_some.1 h2)
      rw [e1] at e2; exact Option.some.inj e2
    · cases h2
  · cases h1

/-- The groups as the model computes them from the lists of base and log files. -/
theorem listFileGroups_eq (o : Opts) (t : Tree) (partition : Str) :
    listFileGroups o t partition = (do
      let acc ← Res.foldL (listStep c!"parquet") ⟨[], []⟩ (metas (t.at (pathSegs partition)).files)
      Res.mapL (listGroup partition acc.logs) acc.bases) := by
  unfold listFileGroups
  rw [baseFileFormatOf_eq]
  rfl

theorem foldL_listStep_ne_panic (fs : List FileMeta) (acc : Listed) :
    Res.foldL (listStep c!"parquet") acc fs ≠ .panic := by
  induction fs generalizing acc with
  | nil => intro h; cases h
  | cons m fs ih =>
    rw [Res.foldL_cons]
    have : listStep c!"parquet" acc m ≠ .panic := by
      unfold listStep
      split
      · intro h; cases h
      split
      · cases hb : BaseFile.fromMeta m with
        | ok b => intro h; cases h
        | err e => intro h; cases h
        | panic => exact absurd hb (BaseFile.fromMeta_ne_panic m)
      · cases hb : LogFile.fromMeta m with
        | ok b => intro h; cases h
        | err e => intro h; cases h
        | panic => exact absurd hb (LogFile.fromMeta_ne_panic m)
    cases hs : listStep c!"parquet" acc m with
    | ok a => exact ih a
    | err e => intro h; cases h
    | panic => exact absurd hs this

theorem mapL_ne_panic {α β : Type} {f : α → Res β} {l : List α} (h : ∀ x ∈ l, f x ≠ .panic) :
    Res.mapL f l ≠ .panic := by
  induction l with
  | nil => intro h; cases h
  | cons x l ih =>
    have ih := ih (fun y hy => h y (by simp [hy]))
    have hx := h x (by simp)
    unfold Res.mapL
    cases hf : f x with
    | ok a =>
      cases hm : Res.mapL f l with
      | ok _ => intro h; cases h
      | err _ => intro h; cases h
      | panic => exact absurd hm ih
    | err _ => intro h; cases h
    | panic => exact absurd hf hx

/-- Listing a partition never panics. -/
theorem listFileGroups_ne_panic (o : Opts) (t : Tree) (partition : Str) :
    listFileGroups o t partition ≠ .panic := by
  rw [listFileGroups_eq]
  cases hs : Res.foldL (listStep c!"parquet") ⟨[], []⟩ (metas (t.at (pathSegs partition)).files) with
  | ok a =>
    refine mapL_ne_panic (fun e _ => ?_)
    obtain ⟨h1, h2⟩ := listGroup_spec partition a.logs e.1 e.2
    intro hp
    by_cases hc : ((e.2.map BaseFile.commitTimestamp).Nodup ∧ ∀ l ∈ (hmGet e.1 a.logs).getD [],
        ∃ b ∈ e.2, b.commitTimestamp = l.baseCommitTimestamp)
    · obtain ⟨g, hg, _⟩ := h1 hc
      rw [hp] at hg; cases hg
    · rw [show listGroup partition a.logs e = _ from h2 hc] at hp; cases hp
  | err e => intro h; cases h
  | panic => exact absurd hs (foldL_listStep_ne_panic _ _)

/-- When a listing succeeds. -/
theorem listFileGroups_ok_iff (o : Opts) (t : Tree) (partition : Str)
    (hnd : ((t.at (pathSegs partition)).files.map Prod.fst).Nodup) :
    (∃ gs, listFileGroups o t partition = .ok gs) ↔
      Listable (t.at (pathSegs partition)).files := by
  generalize hF : (t.at (pathSegs partition)).files = files at *
  rw [listFileGroups_eq, hF]
  have key : ∀ acc : Listed, acc = ⟨pushAll BaseFile.fileId [] (basesOf (metas files)),
      pushAll LogFile.fileId [] (logsOf (metas files))⟩ →
      ((∃ gs, Res.mapL (listGroup partition acc.logs) acc.bases = .ok gs) ↔
        ((∀ b b', BaseIn files b → BaseIn files b' → b.fileId = b'.fileId →
          b.commitTimestamp = b'.commitTimestamp → b = b') ∧
         ∀ l, LogIn files l → (∃ b, BaseIn files b ∧ b.fileId = l.fileId) →
          ∃ b, BaseIn files b ∧ b.fileId = l.fileId ∧
            b.commitTimestamp = l.baseCommitTimestamp)) := by
    rintro _ rfl
    have hB : HmNodup (pushAll BaseFile.fileId [] (basesOf (metas files))) :=
      pushAll_nodup _ (by simp [HmNodup])
    have hmemB : ∀ fid bs, (fid, bs) ∈ pushAll BaseFile.fileId [] (basesOf (metas files)) ↔
        bs = (basesOf (metas files)).filter (fun b => b.fileId = fid) ∧ bs ≠ [] := by
      intro fid bs
      rw [← hmGet_eq_some hB, hmGet_pushAll_nil]
      split
      · rename_i h
        constructor
        · intro h'; cases h'
        · rintro ⟨rfl, h'⟩; exact absurd h h'
      · rename_i h
        constructor
        · intro h'; cases h'; exact ⟨rfl, h⟩
        · rintro ⟨rfl, _⟩; rfl
    have hL : ∀ fid, (hmGet fid (pushAll LogFile.fileId [] (logsOf (metas files)))).getD [] =
        (logsOf (metas files)).filter (fun l => l.fileId = fid) := by
      intro fid
      rw [hmGet_pushAll_nil]
      split
      · rename_i h; rw [h]; rfl
      · rfl
    rw [Res.mapL_ok_iff_all]
    have hone : ∀ fid bs, (∃ g, listGroup partition
        (pushAll LogFile.fileId [] (logsOf (metas files))) (fid, bs) = .ok g) ↔
        ((bs.map BaseFile.commitTimestamp).Nodup ∧ ∀ l, LogIn files l → l.fileId = fid →
          ∃ b ∈ bs, b.commitTimestamp = l.baseCommitTimestamp) := by
      intro fid bs
      obtain ⟨h1, h2⟩ := listGroup_spec partition
        (pushAll LogFile.fileId [] (logsOf (metas files))) fid bs
      rw [hL] at h1 h2
      simp only [List.mem_filter, mem_logsOf, decide_eq_true_eq, and_imp] at h1 h2
      constructor
      · rintro ⟨g, hg⟩
        by_contra hc
        rw [h2 hc] at hg; cases hg
      · intro h
        obtain ⟨g, hg, _⟩ := h1 h.1 h.2
        exact ⟨g, hg⟩
    constructor
    · intro h
      refine ⟨fun b b' hb hb' hfid hts => ?_, fun l hl ⟨b, hb, hbl⟩ => ?_⟩
      · have hm : b ∈ (basesOf (metas files)).filter (fun x => x.fileId = b.fileId) :=
          List.mem_filter.2 ⟨mem_basesOf.2 hb, by simp⟩
        have hm' : b' ∈ (basesOf (metas files)).filter (fun x => x.fileId = b.fileId) :=
          List.mem_filter.2 ⟨mem_basesOf.2 hb', by simp [hfid]⟩
        have := (hone _ _).1 (h (b.fileId, _)
          ((hmemB _ _).2 ⟨rfl, List.ne_nil_of_mem hm⟩))
        exact List.inj_on_of_nodup_map this.1 hm hm' hts
      · have hm : b ∈ (basesOf (metas files)).filter (fun x => x.fileId = l.fileId) :=
          List.mem_filter.2 ⟨mem_basesOf.2 hb, by simp [hbl]⟩
        have := (hone _ _).1 (h (l.fileId, _)
          ((hmemB _ _).2 ⟨rfl, List.ne_nil_of_mem hm⟩))
        obtain ⟨b', hb', e⟩ := this.2 l hl rfl
        obtain ⟨e1, e2⟩ := List.mem_filter.1 hb'
        exact ⟨b', mem_basesOf.1 e1, by simpa using e2, e⟩
    · rintro ⟨h1, h2⟩ ⟨fid, bs⟩ he
      obtain ⟨rfl, hne⟩ := (hmemB fid bs).1 he
      refine (hone _ _).2 ⟨?_, fun l hl hf => ?_⟩
      · refine List.Nodup.map_on ?_ ((basesOf_nodup hnd).filter _)
        intro b hb b' hb' hts
        obtain ⟨e1, e2⟩ := List.mem_filter.1 hb
        obtain ⟨e3, e4⟩ := List.mem_filter.1 hb'
        simp only [decide_eq_true_eq] at e2 e4
        exact h1 b b' (mem_basesOf.1 e1) (mem_basesOf.1 e3) (e2.trans e4.symm) hts
      · obtain ⟨b0, hb0⟩ := List.exists_mem_of_ne_nil _ hne
        obtain ⟨e1, e2⟩ := List.mem_filter.1 hb0
        simp only [decide_eq_true_eq] at e2
        obtain ⟨b, hb, e3, e4⟩ := h2 l hl ⟨b0, mem_basesOf.1 e1, e2.trans hf.symm⟩
        exact ⟨b, List.mem_filter.2 ⟨mem_basesOf.2 hb, by simp [e3, hf]⟩, e4⟩
  have hnames : (∀ m ∈ metas files, isBaseM m = true → ∃ b, BaseFile.fromMeta m = .ok b) ↔
      (∀ name size, (name, size) ∈ files → ¬ Ignored name → ParquetName name →
        ∃ b, BaseFile.fromMeta (FileMeta.new name size) = .ok b) := by
    unfold metas
    constructor
    · intro h n sz he h1 h2
      exact h _ (List.mem_map.2 ⟨(n, sz), he, rfl⟩) ((isBaseM_iff n sz).2 ⟨h1, h2⟩)
    · intro h m hm hb
      obtain ⟨⟨n, sz⟩, he, rfl⟩ := List.mem_map.1 hm
      obtain ⟨h1, h2⟩ := (isBaseM_iff n sz).1 hb
      exact h n sz he h1 h2
  constructor
  · rintro ⟨gs, h⟩
    obtain ⟨acc, h1, h2⟩ := Res.bind_eq_ok.1 h
    obtain ⟨h3, h4⟩ := (foldL_listStep _ _ _).1 h1
    obtain ⟨k1, k2⟩ := (key acc h4).1 ⟨gs, h2⟩
    exact ⟨hnames.1 h3, k1, k2⟩
  · rintro ⟨h1, h2, h3⟩
    obtain ⟨gs, hgs⟩ := (key _ rfl).2 ⟨h2, h3⟩
    refine ⟨gs, ?_⟩
    rw [(foldL_listStep _ _ _).2 ⟨hnames.2 h1, rfl⟩]
    exact hgs

/-- What a successful listing contains. -/
theorem listFileGroups_spec {o : Opts} {t : Tree} {partition : Str} {gs : List FileGroup}
    (hnd : ((t.at (pathSegs partition)).files.map Prod.fst).Nodup)
    (h : listFileGroups o t partition = .ok gs) :
    (gs.map FileGroup.fileId).Nodup ∧
    (∀ g ∈ gs, g.partitionPath = partition ∧ MapSorted g.slices ∧
      ∀ ts s, mapGet ts g.slices = some s ↔ ∃ b, BaseIn (t.at (pathSegs partition)).files b ∧
        b.fileId = g.fileId ∧ b.commitTimestamp = ts ∧
        s = ⟨b, setExtend LogFile.cmp [] ((logsOf (metas (t.at (pathSegs partition)).files)).filter
            (fun l => l.fileId = g.fileId ∧ l.baseCommitTimestamp = ts)), partition⟩) ∧
    ∀ fid, (∃ g ∈ gs, g.fileId = fid) ↔
      ∃ b, BaseIn (t.at (pathSegs partition)).files b ∧ b.fileId = fid := by
  have hok := (listFileGroups_ok_iff o t partition hnd).1 ⟨gs, h⟩
  generalize hF : (t.at (pathSegs partition)).files = files at *
  rw [listFileGroups_eq, hF] at h
  obtain ⟨acc, h1, h2⟩ := Res.bind_eq_ok.1 h
  obtain ⟨h3, rfl⟩ := (foldL_listStep _ _ _).1 h1
  simp only at h2
  have hB : HmNodup (pushAll BaseFile.fileId [] (basesOf (metas files))) :=
    pushAll_nodup _ (by simp [HmNodup])
  have hgr : ∀ e g, listGroup partition (pushAll LogFile.fileId [] (logsOf (metas files))) e = .ok g →
      e ∈ pushAll BaseFile.fileId [] (basesOf (metas files)) →
      g.fileId = e.1 ∧ g.partitionPath = partition ∧ MapSorted g.slices ∧
      ∀ ts s, mapGet ts g.slices = some s ↔ ∃ b, BaseIn files b ∧
        b.fileId = g.fileId ∧ b.commitTimestamp = ts ∧
        s = ⟨b, setExtend LogFile.cmp [] ((logsOf (metas files)).filter
            (fun l => l.fileId = g.fileId ∧ l.baseCommitTimestamp = ts)), partition⟩ := by
    rintro ⟨fid, bs⟩ g hg he
    obtain ⟨k1, k2⟩ := listGroup_spec partition
      (pushAll LogFile.fileId [] (logsOf (metas files))) fid bs
    have hbs : bs = (basesOf (metas files)).filter (fun b => b.fileId = fid) := by
      rw [← hmGet_eq_some hB, hmGet_pushAll_nil] at he
      split at he
      · cases he
      · cases he; rfl
    have hls : (hmGet fid (pushAll LogFile.fileId [] (logsOf (metas files)))).getD [] =
        (logsOf (metas files)).filter (fun l => l.fileId = fid) := by
      rw [hmGet_pushAll_nil]
      split
      · rename_i h; rw [h]; rfl
      · rfl
    rw [hls] at k1 k2
    obtain ⟨g', e1, e2, e3, e4, e5⟩ := k1 (by
      by_contra hc
      rw [k2 hc] at hg; cases hg)
    rw [hg] at e1
    cases e1
    refine ⟨e2, e3, e4, fun ts s => ?_⟩
    rw [e5, hbs, e2]
    have hff : ((logsOf (metas files)).filter (fun l => decide (l.fileId = fid))).filter
        (fun l => decide (l.baseCommitTimestamp = ts)) = (logsOf (metas files)).filter
        (fun l => decide (l.fileId = fid ∧ l.baseCommitTimestamp = ts)) := by
      rw [List.filter_filter]
      congr 1
      funext l
      rw [Bool.decide_and, Bool.and_comm]
    rw [hff]
    simp only [List.mem_filter, mem_basesOf, decide_eq_true_eq, and_assoc]
  have hfids : gs.map FileGroup.fileId =
      (pushAll BaseFile.fileId [] (basesOf (metas files))).map Prod.fst := by
    have aux : ∀ (es : List (Str × List BaseFile)) gs,
        (∀ e ∈ es, e ∈ pushAll BaseFile.fileId [] (basesOf (metas files))) →
        Res.mapL (listGroup partition (pushAll LogFile.fileId [] (logsOf (metas files)))) es = .ok gs →
        gs.map FileGroup.fileId = es.map Prod.fst := by
      intro es
      induction es with
      | nil => intro gs _ h; cases h; rfl
      | cons e es ih =>
        intro gs hsub h
        obtain ⟨g, gs', a1, a2, rfl⟩ := Res.mapL_cons_ok.1 h
        rw [List.map_cons, List.map_cons, ih gs' (fun x hx => hsub x (by simp [hx])) a2,
          (hgr e g a1 (hsub e (by simp))).1]
    exact aux _ gs (fun _ h => h) h2
  refine ⟨by rw [hfids]; exact hB, fun g hg => ?_, fun fid => ?_⟩
  · obtain ⟨e, he, hge⟩ := (Res.mapL_mem h2 g).1 hg
    exact (hgr e g hge he).2
  · have : (∃ g ∈ gs, g.fileId = fid) ↔ fid ∈ gs.map FileGroup.fileId := by simp
    rw [this, hfids]
    have hcase := hmGet_pushAll_nil BaseFile.fileId (basesOf (metas files)) fid
    constructor
    · intro hm
      obtain ⟨⟨k, bs⟩, he, rfl⟩ := List.mem_map.1 hm
      have he' := (hmGet_eq_some hB).2 he
      simp only at hcase
      rw [he'] at hcase
      split at hcase
      · cases hcase
      · rename_i hne
        obtain ⟨b, hb⟩ := List.exists_mem_of_ne_nil _ hne
        obtain ⟨b1, b2⟩ := List.mem_filter.1 hb
        exact ⟨b, mem_basesOf.1 b1, by simpa using b2⟩
    · rintro ⟨b, hb, rfl⟩
      rw [if_neg] at hcase
      · exact List.mem_map.2 ⟨_, (hmGet_eq_some hB).1 hcase, rfl⟩
      · exact List.ne_nil_of_mem (List.mem_filter.2 ⟨mem_basesOf.2 hb, by simp⟩)

theorem listFileGroups_wf {o : Opts} {t : Tree} {partition : Str} {gs : List FileGroup}
    (hnd : ((t.at (pathSegs partition)).files.map Prod.fst).Nodup)
    (h : listFileGroups o t partition = .ok gs) : ∀ g ∈ gs, GroupWF g := by
  obtain ⟨_, h2, _⟩ := listFileGroups_spec hnd h
  intro g hg
  obtain ⟨e1, e2, e3⟩ := h2 g hg
  refine ⟨e2, fun ts s hs => ?_⟩
  obtain ⟨b, _, _, hts, rfl⟩ := (e3 ts s).1 hs
  refine ⟨⟨hts, e1.symm, ?_⟩, setExtend_sorted .nil⟩
  intro l hl
  rcases setExtend_sub _ _ l hl with hl | hl
  · cases hl
  · have := (List.mem_filter.1 hl).2
    simp only [decide_eq_true_eq] at this
    exact this.2

/-- A successful listing is the listing of the directory. -/
theorem listFileGroups_listing {o : Opts} {t : Tree} {partition : Str} {gs : List FileGroup}
    (hnd : ((t.at (pathSegs partition)).files.map Prod.fst).Nodup)
    (hone : OneExtension (t.at (pathSegs partition)).files)
    (h : listFileGroups o t partition = .ok gs) :
    ListingOf (t.at (pathSegs partition)).files partition gs := by
  obtain ⟨h1, h2, h3⟩ := listFileGroups_spec hnd h
  refine ⟨h1, fun g hg => (h2 g hg).1, h3, fun g hg b hb hf => ?_, fun g hg ts s hs => ?_⟩
  · rw [sliceAt_eq]
    exact ⟨_, ((h2 g hg).2.2 _ _).2 ⟨b, hb, hf, rfl, rfl⟩, rfl⟩
  · rw [sliceAt_eq] at hs
    obtain ⟨b, hb, hf, hts, rfl⟩ := ((h2 g hg).2.2 ts s).1 hs
    refine ⟨hb, hf, hts, rfl, fun l => ?_⟩
    simp only
    rw [mem_setExtend .nil]
    · simp only [List.not_mem_nil, false_or, List.mem_filter, mem_logsOf, decide_eq_true_eq,
        false_implies, implies_true, and_true]
    · refine List.Nodup.pairwise_of_forall_ne ((logsOf_nodup hnd).filter _) ?_
      intro a ha c hc hne heq
      obtain ⟨a1, a2⟩ := List.mem_filter.1 ha
      obtain ⟨c1, c2⟩ := List.mem_filter.1 hc
      simp only [decide_eq_true_eq] at a2 c2
      obtain ⟨q1, q2, q3⟩ := LogFile.cmp_eq_iff.1 heq
      exact hne (hone a c (mem_logsOf.1 a1) (mem_logsOf.1 c1) (a2.1.trans c2.1.symm) q1 q2 q3)

end Hudi
