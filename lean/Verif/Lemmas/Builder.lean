import Mathlib.Data.List.Forall2
import Verif.Lemmas.Files
import Verif.Spec.Commit
import Verif.Props.FileNames

/-! Lemmas about file groups built from commit metadata. -/

namespace Hudi

open Spec

theorem Json.asStr_str (s : Str) : (Json.str s).asStr = some s := rfl
theorem Json.asArr_arr (l : List Json) : (Json.arr l).asArr = some l := rfl
theorem Json.asObj_obj (l : List (Str × Json)) : (Json.obj l).asObj = some l := rfl

theorem addBase_new (fid p : Str) (b : BaseFile) :
    (FileGroup.new fid p).addBaseFile b =
      .ok ⟨fid, p, [(b.commitTimestamp, FileSlice.new b p)]⟩ := rfl

theorem base_fromStr {w : Write} (h : w.WF) : BaseFile.fromStr w.base.fileName = .ok w.base := by
  obtain ⟨h1, h2, h3, h4, _, h6⟩ := h.base_parts
  have := (C12_base_file_recovered_partial w.base.fileId w.base.writeToken w.base.commitTimestamp
    w.base.extension (FileMeta.new [] 0) h1 h2 h3 h4).1
  have e : w.base = ⟨w.base.fileId, w.base.writeToken, w.base.commitTimestamp, w.base.extension, none⟩ := by
    rw [← h6]
  rw [e]; exact this

theorem log_fromStr {w : Write} (h : w.WF) {l : LogFile} (hl : l ∈ w.logs) :
    LogFile.fromStr l.fileName = .ok l := by
  obtain ⟨h1, h2, h3, h4, h5, h6, h7, h8, h9⟩ := h.log_parts l hl
  obtain ⟨_, he, _⟩ := h.log_group l hl
  have := (C13_log_file_recovered l.fileId l.baseCommitTimestamp l.extension l.version l.writeToken
    (FileMeta.new [] 0) h1 h2 (by rw [he]; decide) h3 h4 h5 h6 (by rw [he]; decide) h7 h8).1
  have e : l = ⟨l.fileId, l.baseCommitTimestamp, l.extension, l.version, l.writeToken, none⟩ := by
    rw [← h9]
  rw [e]; exact this

theorem pathFileName_plain {n : Str} (h1 : '/' ∉ n) (h2 : n ≠ []) (h3 : n ≠ c!".") (h4 : n ≠ c!"..") :
    pathFileName n = some n := by
  unfold pathFileName
  rw [splitAll_single h1]
  simp [stripTrailing, h2, h3, h4]

theorem splitAll_append_last {c : Char} (a b : Str) :
    splitAll c (a ++ c :: b) = splitAll c a ++ splitAll c b := by
  induction a with
  | nil => simp [splitAll]
  | cons x xs ih =>
    simp only [List.cons_append, splitAll]
    split
    · simp [ih]
    · rw [ih]
      cases hx : splitAll c xs with
      | nil => exact absurd hx (splitAll_ne_nil c xs)
      | cons p ps => simp

theorem pathFileName_dir {d n : Str} (h1 : '/' ∉ n) (h2 : n ≠ []) (h3 : n ≠ c!".") (h4 : n ≠ c!"..") :
    pathFileName (d ++ c!"/" ++ n) = some n := by
  have e : d ++ c!"/" ++ n = d ++ '/' :: n := by simp
  unfold pathFileName
  rw [e, splitAll_append_last, splitAll_single h1]
  simp [stripTrailing, h2, h3, h4]

theorem stripTrailing_eq (r : List Str) : ∃ pre, r = pre ++ stripTrailing r ∧ (∀ s ∈ pre, s = [] ∨ s = c!".") ∧
    ∀ s ss, stripTrailing r = s :: ss → s ≠ [] ∧ s ≠ c!"." := by
  induction r with
  | nil => exact ⟨[], rfl, by simp, by simp [stripTrailing]⟩
  | cons x r ih =>
    obtain ⟨pre, h1, h2, h3⟩ := ih
    unfold stripTrailing
    split
    · rename_i hx
      refine ⟨x :: pre, by rw [List.cons_append, ← h1], ?_, h3⟩
      intro s hs
      rcases List.mem_cons.1 hs with rfl | hs
      · exact hx
      · exact h2 s hs
    · rename_i hx
      refine ⟨[], rfl, by simp, ?_⟩
      intro s ss e
      cases e
      exact not_or.1 hx

theorem stripTrailing_append {pre : List Str} (h : ∀ s ∈ pre, s = [] ∨ s = c!".") (r : List Str) :
    stripTrailing (pre ++ r) = stripTrailing r := by
  induction pre with
  | nil => rfl
  | cons x pre ih =>
    rw [List.cons_append, stripTrailing, if_pos (h x (by simp)), ih (fun s hs => h s (by simp [hs]))]

/-- The file name of a path is its last name. -/
theorem pathFileName_iff {p n : Str} : pathFileName p = some n ↔ LastName p n := by
  constructor
  · intro h
    unfold pathFileName at h
    obtain ⟨pre, h1, h2, h3⟩ := stripTrailing_eq (splitAll '/' p).reverse
    cases hs : stripTrailing (splitAll '/' p).reverse with
    | nil => rw [hs] at h; cases h
    | cons s ss =>
      rw [hs] at h h1
      obtain ⟨h4, h5⟩ := h3 s ss hs
      replace h : (if s = c!".." then none else some s) = some n := h
      split at h
      · cases h
      · rename_i h6
        cases h
        have e : splitAll '/' p = ss.reverse ++ n :: pre.reverse := by
          rw [← List.reverse_reverse (splitAll '/' p), h1]; simp
        refine ⟨ss.reverse, pre.reverse, ?_, ?_, h4, h5, h6, fun s hs => h2 s (List.mem_reverse.1 hs)⟩
        · rw [← e, join_splitAll]
        · rw [← e]; exact splitAll_not_mem '/' p
  · rintro ⟨before, after, rfl, h1, h2, h3, h4, h5⟩
    unfold pathFileName
    rw [splitAll_joinWith (by simp) h1]
    have e : (before ++ n :: after).reverse = after.reverse ++ n :: before.reverse := by simp
    rw [e, stripTrailing_append (fun s hs => h5 s (List.mem_reverse.1 hs))]
    simp [stripTrailing, h2, h3, h4]

theorem baseName_normal (b : BaseFile) : b.fileName ≠ [] ∧ b.fileName ≠ c!"." ∧ b.fileName ≠ c!".." := by
  have : '_' ∈ b.fileName := by simp [BaseFile.fileName]
  refine ⟨?_, ?_, ?_⟩ <;> intro h <;> rw [h] at this <;> simp at this

/-- The loop over `logFiles`. -/
theorem foldLogs_eq (g : FileGroup) (ls : List LogFile)
    (h : ∀ l ∈ ls, LogFile.fromStr l.fileName = .ok l) :
    Res.foldL (fun g (l : Json) => do
      let n ← Res.ofOption .commitMetadata l.asStr
      g.addLogFileFromName n) g (ls.map (fun l => Json.str l.fileName)) = g.addLogFiles ls := by
  induction ls generalizing g with
  | nil => rfl
  | cons l ls ih =>
    unfold FileGroup.addLogFiles
    rw [List.map_cons, Res.foldL_cons, Res.foldL_cons]
    simp only [Json.asStr_str, Res.ofOption_some, Res.ok_bind, FileGroup.addLogFileFromName,
      h l (by simp)]
    cases g.addLogFile l with
    | ok g' => exact ih g' (fun x hx => h x (by simp [hx]))
    | err e => rfl
    | panic => rfl

theorem eq_of_cmp_eq_wf {w : Write} (h : w.WF) {a b : LogFile} (ha : a ∈ w.logs) (hb : b ∈ w.logs)
    (he : LogFile.cmp a b = .eq) : a = b := by
  obtain ⟨h1, h2, h3⟩ := LogFile.cmp_eq_iff.1 he
  have la := h.log_group a ha
  have lb := h.log_group b hb
  obtain ⟨_, _, _, _, _, _, _, _, ma⟩ := h.log_parts a ha
  obtain ⟨_, _, _, _, _, _, _, _, mb⟩ := h.log_parts b hb
  have e1 := la.1.trans lb.1.symm
  have e2 := la.2.1.trans lb.2.1.symm
  have e3 := ma.trans mb.symm
  cases a; cases b; simp_all

theorem fileGroupOfStat_wf {w : Write} (h : w.WF) {stat : Json} (he : Encodes w stat) :
    ∃ g, fileGroupOfStat w.partition stat = .ok g ∧ Holds g w ∧ GroupWF g := by
  obtain ⟨o, rfl, hf, hcase⟩ := he
  obtain ⟨_, _, _, _, hslash, _⟩ := h.base_parts
  obtain ⟨n1, n2, n3⟩ := baseName_normal w.base
  have hg0wf : GroupWF ⟨w.fileId, w.partition, [(w.base.commitTimestamp, FileSlice.new w.base w.partition)]⟩ :=
    GroupWF.addBase (built_wf (.new w.fileId w.partition)) (addBase_new w.fileId w.partition w.base)
  have hget : ∀ ts, mapGet ts [(w.base.commitTimestamp, FileSlice.new w.base w.partition)] =
      if ts = w.base.commitTimestamp then some (FileSlice.new w.base w.partition) else none := by
    intro ts; rw [mapGet_cons]; simp only [strCmp]; rfl
  have key : ∃ g, FileGroup.addLogFiles
        ⟨w.fileId, w.partition, [(w.base.commitTimestamp, FileSlice.new w.base w.partition)]⟩ w.logs
          = .ok g ∧ Holds g w ∧ GroupWF g := by
    obtain ⟨g, h1, h2, h3, h4, h5⟩ := addLogFiles_ok
      (g := ⟨w.fileId, w.partition, [(w.base.commitTimestamp, FileSlice.new w.base w.partition)]⟩)
      (ls := w.logs) (by
        intro l hl
        rw [hget, (h.log_group l hl).2.2]; simp) hg0wf.sorted
    have hfilter : w.logs.filter (fun l => l.baseCommitTimestamp = w.base.commitTimestamp) = w.logs :=
      List.filter_eq_self.2 (fun l hl => by simp [(h.log_group l hl).2.2])
    have hself := h5 w.base.commitTimestamp
    rw [hget, if_pos rfl, hfilter] at hself
    simp only [Option.map_some] at hself
    have hmem : ∀ l, l ∈ setExtend LogFile.cmp [] w.logs ↔ l ∈ w.logs := by
      intro l
      constructor
      · intro hl
        rcases setExtend_sub _ _ l hl with hl | hl
        · cases hl
        · exact hl
      · intro hl
        obtain ⟨z, hz, he⟩ := setExtend_covers (cmp := LogFile.cmp) [] w.logs l (.inr hl)
        have hz' : z ∈ w.logs := by
          rcases setExtend_sub _ _ z hz with hz | hz
          · cases hz
          · exact hz
        rw [eq_of_cmp_eq_wf h hl hz' he]; exact hz
    have hnone : ∀ ts, ts ≠ w.base.commitTimestamp → mapGet ts g.slices = none := by
      intro ts hts; rw [h5, hget, if_neg hts]; rfl
    refine ⟨g, h1, ⟨by simp [groupId, Write.id, h2, h3], _, by rw [sliceAt_eq]; exact hself, rfl, rfl,
      hmem, fun ts hts => by rw [sliceAt_eq]; exact hnone ts hts⟩, h4, fun ts s hs => ?_⟩
    by_cases hts : ts = w.base.commitTimestamp
    · subst hts
      rw [hself] at hs; cases hs
      refine ⟨⟨rfl, h3.symm, ?_⟩, setExtend_sorted List.Pairwise.nil⟩
      intro l hl
      exact (h.log_group l ((hmem l).1 hl)).2.2
    · rw [hnone ts hts] at hs; cases hs
  unfold fileGroupOfStat
  simp only [Json.field, Json.asObj_obj, Option.bind_some, hf, Json.asStr_str, Res.ofOption_some, Res.ok_bind]
  rcases hcase with ⟨hb, hl⟩ | ⟨hb, hlogs, hpath⟩
  · simp only [hb, hl, Json.asStr_str, Json.asArr_arr, Res.ofOption_some, Res.ok_bind,
      FileGroup.addBaseFileFromName, base_fromStr h, addBase_new]
    rw [foldLogs_eq _ _ (fun l hl => log_fromStr h hl)]
    exact key
  · have hp : ∃ path, jGet c!"path" o = some (.str path) ∧ pathFileName path = some w.base.fileName := by
      rcases hpath with hp | ⟨d, hp⟩
      · exact ⟨_, hp, pathFileName_plain hslash n1 n2 n3⟩
      · exact ⟨_, hp, pathFileName_dir hslash n1 n2 n3⟩
    obtain ⟨path, hp1, hp2⟩ := hp
    rw [hlogs] at key
    simp only [hb, hp1, hp2, Json.asStr_str, Option.bind_some, Res.ofOption_some, Res.ok_bind,
      FileGroup.addBaseFileFromName, base_fromStr h, addBase_new]
    exact key

/-! ### Readability -/

theorem foldL_ne_panic {α β : Type} {f : β → α → Res β} (hf : ∀ b a, f b a ≠ .panic) (b : β)
    (xs : List α) : Res.foldL f b xs ≠ .panic := by
  induction xs generalizing b with
  | nil => simp
  | cons x xs ih =>
    rw [Res.foldL_cons]
    cases h : f b x with
    | ok b' => exact ih b'
    | err e => simp
    | panic => exact absurd h (hf b x)

theorem bind_ne_panic {α β : Type} {x : Res α} {f : α → Res β} (hx : x ≠ .panic)
    (hf : ∀ a, f a ≠ .panic) : (x >>= f) ≠ .panic := by
  cases x with
  | ok a => exact hf a
  | err e => simp
  | panic => exact absurd rfl hx

theorem ofOption_ne_panic {α : Type} {e : ErrKind} {o : Option α} : Res.ofOption e o ≠ .panic := by
  cases o <;> simp

theorem baseFile_fromStr_ne_panic (n : Str) : BaseFile.fromStr n ≠ .panic := by
  unfold BaseFile.fromStr BaseFile.parseFileName
  refine bind_ne_panic ?_ (fun _ => by simp)
  split
  · simp
  · split <;> simp

theorem logFile_parse_ne_panic (n : Str) : LogFile.parseFileName n ≠ .panic := by
  unfold LogFile.parseFileName
  split
  · split
    · simp
    · split
      · simp
      · split
        · split <;> simp
        · simp
  · simp

theorem logFile_fromStr_ne_panic (n : Str) : LogFile.fromStr n ≠ .panic :=
  bind_ne_panic (logFile_parse_ne_panic n) (fun _ => by simp)

theorem addBaseFile_ne_panic (g : FileGroup) (b : BaseFile) : g.addBaseFile b ≠ .panic := by
  unfold FileGroup.addBaseFile; split <;> simp

theorem addLogFile_ne_panic (g : FileGroup) (l : LogFile) : g.addLogFile l ≠ .panic := by
  unfold FileGroup.addLogFile; split <;> simp

theorem fileGroupOfStat_ne_panic (p : Str) (stat : Json) : fileGroupOfStat p stat ≠ .panic := by
  unfold fileGroupOfStat
  refine bind_ne_panic ofOption_ne_panic (fun fid => ?_)
  cases stat.field c!"baseFile" with
  | some b =>
    refine bind_ne_panic ofOption_ne_panic (fun n => ?_)
    refine bind_ne_panic (bind_ne_panic (baseFile_fromStr_ne_panic n)
      (fun b => addBaseFile_ne_panic _ b)) (fun g => ?_)
    cases stat.field c!"logFiles" with
    | some ls =>
      refine bind_ne_panic ofOption_ne_panic (fun ls => ?_)
      refine foldL_ne_panic (fun g l => ?_) _ _
      exact bind_ne_panic ofOption_ne_panic (fun n => bind_ne_panic (logFile_fromStr_ne_panic n)
        (fun l => addLogFile_ne_panic _ l))
    | none => simp
  | none =>
    refine bind_ne_panic ofOption_ne_panic (fun path => ?_)
    refine bind_ne_panic ofOption_ne_panic (fun n => ?_)
    exact bind_ne_panic (baseFile_fromStr_ne_panic n) (fun b => addBaseFile_ne_panic _ b)

/-- The loop over `logFiles` succeeds exactly when every entry is the name of a log file written
against the one slice of the group. -/
theorem foldLogs_ok_iff {fid p ts : Str} {s : FileSlice} (xs : List Json) :
    (∃ g, Res.foldL (fun g (l : Json) => do
      let n ← Res.ofOption .commitMetadata l.asStr
      FileGroup.addLogFileFromName g n) ⟨fid, p, [(ts, s)]⟩ xs = .ok g) ↔
    ∀ x ∈ xs, ∃ n l, x = .str n ∧ LogFile.fromStr n = .ok l ∧ l.baseCommitTimestamp = ts := by
  induction xs generalizing s with
  | nil => simp
  | cons x xs ih =>
    rw [Res.foldL_cons]
    have hget : ∀ k, mapGet k [(ts, s)] = if k = ts then some s else none := by
      intro k; rw [mapGet_cons]; simp only [strCmp]; rfl
    have hstep : ∀ n l, x = .str n → LogFile.fromStr n = .ok l → l.baseCommitTimestamp = ts →
        (do let n ← Res.ofOption .commitMetadata x.asStr
            FileGroup.addLogFileFromName ⟨fid, p, [(ts, s)]⟩ n) = .ok ⟨fid, p,
              [(ts, { s with logFiles := setInsert LogFile.cmp l s.logFiles })]⟩ := by
      intro n l hx hl ht
      subst hx ht
      simp only [Json.asStr_str, Res.ofOption_some, Res.ok_bind, FileGroup.addLogFileFromName, hl,
        FileGroup.addLogFile, hget, if_true]
      simp [mapInsert, Std.ReflCmp.compare_self (cmp := (compare : Str → Str → Ordering))]
    constructor
    · rintro ⟨g, hg⟩
      obtain ⟨g1, h1, h2⟩ := Res.bind_eq_ok.1 hg
      have hx : ∃ n l, x = .str n ∧ LogFile.fromStr n = .ok l ∧ l.baseCommitTimestamp = ts := by
        obtain ⟨n, hn, k1⟩ := Res.bind_eq_ok.1 h1
        obtain ⟨l, hl, k2⟩ := Res.bind_eq_ok.1 k1
        cases x with
        | str n' =>
          simp only [Json.asStr_str, Res.ofOption_some, Res.ok.injEq] at hn
          subst hn
          refine ⟨n', l, rfl, hl, ?_⟩
          unfold FileGroup.addLogFile at k2
          rw [hget] at k2
          by_cases ht : l.baseCommitTimestamp = ts
          · exact ht
          · rw [if_neg ht] at k2; cases k2
        | _ => simp [Json.asStr] at hn
      obtain ⟨n, l, hx1, hx2, hx3⟩ := hx
      rw [hstep n l hx1 hx2 hx3] at h1
      cases h1
      intro y hy
      rcases List.mem_cons.1 hy with rfl | hy
      · exact ⟨n, l, hx1, hx2, hx3⟩
      · exact ih.1 ⟨g, h2⟩ y hy
    · intro h
      obtain ⟨n, l, hx1, hx2, hx3⟩ := h x (by simp)
      obtain ⟨g, hg⟩ := (ih (s := { s with logFiles := setInsert LogFile.cmp l s.logFiles })).2
        (fun y hy => h y (by simp [hy]))
      exact ⟨g, by rw [hstep n l hx1 hx2 hx3]; exact hg⟩

theorem ofOption_ok {α : Type} {e : ErrKind} {o : Option α} {a : α} :
    Res.ofOption e o = .ok a ↔ o = some a := by
  cases o <;> simp

theorem asStr_some {j : Json} {s : Str} : j.asStr = some s ↔ j = .str s := by
  cases j <;> simp [Json.asStr]

theorem asArr_some {j : Json} {l : List Json} : j.asArr = some l ↔ j = .arr l := by
  cases j <;> simp [Json.asArr]

theorem asObj_some {j : Json} {l : List (Str × Json)} : j.asObj = some l ↔ j = .obj l := by
  cases j <;> simp [Json.asObj]

theorem fileGroupOfStat_ok_iff (p : Str) (stat : Json) :
    (∃ g, fileGroupOfStat p stat = .ok g) ↔ ReadableStat stat := by
  unfold fileGroupOfStat ReadableStat
  cases stat with
  | obj o =>
    simp only [Json.field, Json.asObj_obj, Option.bind_some, Json.obj.injEq]
    constructor
    · rintro ⟨g, hg⟩
      obtain ⟨fid, hf, hg⟩ := Res.bind_eq_ok.1 hg
      obtain ⟨jf, hf1, hf2⟩ := Option.bind_eq_some_iff.1 (ofOption_ok.1 hf)
      rw [asStr_some] at hf2
      subst hf2
      refine ⟨o, fid, rfl, hf1, ?_⟩
      cases hb : jGet c!"baseFile" o with
      | some b =>
        simp only [hb] at hg
        obtain ⟨name, hn, hg⟩ := Res.bind_eq_ok.1 hg
        obtain ⟨g1, h1, hg⟩ := Res.bind_eq_ok.1 hg
        obtain ⟨base, hbase, h1⟩ := Res.bind_eq_ok.1 h1
        rw [addBase_new] at h1
        cases h1
        cases hl : jGet c!"logFiles" o with
        | none => simp only [hl] at hg; cases hg
        | some ls =>
          simp only [hl] at hg
          obtain ⟨ls', hls, hg⟩ := Res.bind_eq_ok.1 hg
          rw [ofOption_ok, asArr_some] at hls
          subst hls
          exact ⟨name, base, ls', asStr_some.1 (ofOption_ok.1 hn), hbase, rfl, (foldLogs_ok_iff ls').1 ⟨g, hg⟩⟩
      | none =>
        simp only [hb] at hg
        obtain ⟨path, hp, hg⟩ := Res.bind_eq_ok.1 hg
        obtain ⟨name, hn, hg⟩ := Res.bind_eq_ok.1 hg
        obtain ⟨base, hbase, hg⟩ := Res.bind_eq_ok.1 hg
        obtain ⟨jp, hp1, hp2⟩ := Option.bind_eq_some_iff.1 (ofOption_ok.1 hp)
        rw [asStr_some] at hp2
        subst hp2
        exact ⟨path, name, base, hp1, pathFileName_iff.1 (ofOption_ok.1 hn), hbase⟩
    · rintro ⟨o', fid, rfl, hf, hcase⟩
      simp only [hf, Option.bind_some, Json.asStr_str, Res.ofOption_some, Res.ok_bind]
      cases hb : jGet c!"baseFile" o with
      | some b =>
        rw [hb] at hcase
        obtain ⟨name, base, ls, rfl, hbase, hl, hls⟩ := hcase
        simp only [Json.asStr_str, Res.ofOption_some, Res.ok_bind, FileGroup.addBaseFileFromName, hbase,
          addBase_new, hl, Json.asArr_arr]
        exact (foldLogs_ok_iff ls).2 hls
      | none =>
        rw [hb] at hcase
        obtain ⟨path, name, base, hp, hn, hbase⟩ := hcase
        replace hn := pathFileName_iff.2 hn
        simp only [hp, Json.asStr_str, Option.bind_some, Res.ofOption_some, Res.ok_bind, hn,
          FileGroup.addBaseFileFromName, hbase, addBase_new]
        exact ⟨_, rfl⟩
  | _ =>
    simp [Json.field, Json.asObj]

theorem foldL_ok_iff_all {α β : Type} {f : β → α → Res β} {P : α → Prop}
    (hf : ∀ b a, (∃ b', f b a = .ok b') ↔ P a) (b : β) (xs : List α) :
    (∃ b', Res.foldL f b xs = .ok b') ↔ ∀ x ∈ xs, P x := by
  induction xs generalizing b with
  | nil => simp
  | cons x xs ih =>
    rw [Res.foldL_cons]
    constructor
    · rintro ⟨b', h⟩
      obtain ⟨b1, h1, h2⟩ := Res.bind_eq_ok.1 h
      intro y hy
      rcases List.mem_cons.1 hy with rfl | hy
      · exact (hf b y).1 ⟨b1, h1⟩
      · exact (ih b1).1 ⟨b', h2⟩ y hy
    · intro h
      obtain ⟨b1, h1⟩ := (hf b x).2 (h x (by simp))
      obtain ⟨b', h2⟩ := (ih b1).2 (fun y hy => h y (by simp [hy]))
      exact ⟨b', by rw [h1]; exact h2⟩

theorem buildFileGroups_ne_panic (md : List (Str × Json)) : buildFileGroups md ≠ .panic := by
  unfold buildFileGroups
  refine bind_ne_panic ofOption_ne_panic (fun parts => foldL_ne_panic (fun s e => ?_) _ _)
  refine bind_ne_panic ofOption_ne_panic (fun stats => foldL_ne_panic (fun s stat => ?_) _ _)
  exact bind_ne_panic (fileGroupOfStat_ne_panic _ _) (fun _ => by simp)

theorem buildFileGroups_ok_iff (md : List (Str × Json)) :
    (∃ gs, buildFileGroups md = .ok gs) ↔ ReadableDoc md := by
  unfold buildFileGroups ReadableDoc
  have inner : ∀ (p : Str) (s : List FileGroup) (stats : List Json),
      (∃ s', addStats p s stats = .ok s') ↔ ∀ stat ∈ stats, ReadableStat stat := by
    intro p s stats
    refine foldL_ok_iff_all (fun s stat => ?_) s stats
    rw [← fileGroupOfStat_ok_iff p stat]
    constructor
    · rintro ⟨s', h⟩
      obtain ⟨g, h1, _⟩ := Res.bind_eq_ok.1 h
      exact ⟨g, h1⟩
    · rintro ⟨g, h⟩; exact ⟨fgInsert g s, by rw [h]; rfl⟩
  have outer : ∀ (parts : List (Str × Json)) (s : List FileGroup),
      (∃ s', Res.foldL (fun s (e : Str × Json) => do
        let stats ← Res.ofOption .commitMetadata e.2.asArr
        addStats e.1 s stats) s parts = .ok s') ↔
      ∀ e ∈ parts, ∃ stats, e.2 = .arr stats ∧ ∀ stat ∈ stats, ReadableStat stat := by
    intro parts s
    refine foldL_ok_iff_all (fun s e => ?_) s parts
    constructor
    · rintro ⟨s', h⟩
      obtain ⟨stats, h1, h2⟩ := Res.bind_eq_ok.1 h
      exact ⟨stats, asArr_some.1 (ofOption_ok.1 h1), (inner e.1 s stats).1 ⟨s', h2⟩⟩
    · rintro ⟨stats, h1, h2⟩
      obtain ⟨s', h3⟩ := (inner e.1 s stats).2 h2
      exact ⟨s', by rw [h1]; exact h3⟩
  constructor
  · rintro ⟨gs, h⟩
    obtain ⟨parts, h1, h2⟩ := Res.bind_eq_ok.1 h
    obtain ⟨j, h3, h4⟩ := Option.bind_eq_some_iff.1 (ofOption_ok.1 h1)
    rw [asObj_some] at h4
    subst h4
    exact ⟨parts, h3, (outer parts []).1 ⟨gs, h2⟩⟩
  · rintro ⟨parts, h1, h2⟩
    obtain ⟨gs, h3⟩ := (outer parts []).2 h2
    exact ⟨gs, by rw [h1]; exact h3⟩

/-! ### Contents -/

theorem same_iff_id {a b : FileGroup} : a.same b = true ↔ groupId a = groupId b := by
  rw [same_iff]
  simp only [groupId, Prod.mk.injEq]
  exact And.comm

theorem fgInsert_new {g : FileGroup} {acc : List FileGroup} (h : ∀ x ∈ acc, groupId x ≠ groupId g) :
    fgInsert g acc = acc ++ [g] := by
  unfold fgInsert
  have : acc.any (fun x => x.same g) = false := by
    rw [List.any_eq_false]
    intro x hx hs
    exact h x hx (same_iff_id.1 hs)
  simp [this]

theorem fgInsert_old {g : FileGroup} {acc : List FileGroup} (h : groupId g ∈ acc.map groupId) :
    fgInsert g acc = acc := by
  unfold fgInsert
  obtain ⟨x, hx, he⟩ := List.mem_map.1 h
  have : acc.any (fun x => x.same g) = true := List.any_eq_true.2 ⟨x, hx, same_iff_id.2 he⟩
  simp [this]

/-- The first write to each file group that is not among those seen. -/
def firstWrites (seen : List (Str × Str)) : List Write → List Write
  | [] => []
  | w :: ws => if w.id ∈ seen then firstWrites seen ws else w :: firstWrites (seen ++ [w.id]) ws

theorem firstWrites_append (seen : List (Str × Str)) (ws vs : List Write) :
    firstWrites seen (ws ++ vs) =
      firstWrites seen ws ++ firstWrites (seen ++ (firstWrites seen ws).map Write.id) vs := by
  induction ws generalizing seen with
  | nil => simp [firstWrites]
  | cons w ws ih =>
    rw [List.cons_append, firstWrites, firstWrites]
    split
    · exact ih seen
    · rw [ih]; simp

theorem firstWrites_nodup {seen : List (Str × Str)} {ws : List Write} (h : (seen ++ ws.map Write.id).Nodup) :
    firstWrites seen ws = ws := by
  induction ws generalizing seen with
  | nil => rfl
  | cons w ws ih =>
    have hw : w.id ∉ seen := by
      rw [List.nodup_append] at h
      exact fun hs => h.2.2 _ hs w.id (by simp) rfl
    rw [firstWrites, if_neg hw, ih (by simpa using h)]

theorem firstWrites_ids (seen : List (Str × Str)) (ws : List Write) :
    ((firstWrites seen ws).map Write.id).Nodup ∧ ∀ w ∈ firstWrites seen ws, w.id ∉ seen := by
  induction ws generalizing seen with
  | nil => simp [firstWrites]
  | cons w ws ih =>
    rw [firstWrites]
    split
    · exact ih seen
    · rename_i hn
      obtain ⟨h1, h2⟩ := ih (seen ++ [w.id])
      refine ⟨?_, ?_⟩
      · rw [List.map_cons, List.nodup_cons]
        refine ⟨fun h => ?_, h1⟩
        obtain ⟨v, hv, he⟩ := List.mem_map.1 h
        exact h2 v hv (by simp [he])
      · intro v hv
        rcases List.mem_cons.1 hv with rfl | hv
        · exact hn
        · exact fun hs => h2 v hv (by simp [hs])

theorem mem_firstWrites {seen : List (Str × Str)} {ws : List Write} {w : Write} :
    w ∈ firstWrites seen ws ↔ w.id ∉ seen ∧ FirstOf ws w := by
  induction ws generalizing seen with
  | nil => simp [firstWrites, FirstOf]
  | cons v ws ih =>
    have key : FirstOf (v :: ws) w ↔ v = w ∨ (v.id ≠ w.id ∧ FirstOf ws w) := by
      constructor
      · rintro ⟨l, r, e, h⟩
        cases l with
        | nil => cases e; exact .inl rfl
        | cons x l =>
          cases e
          exact .inr ⟨h v (by simp), l, r, rfl, fun y hy => h y (by simp [hy])⟩
      · rintro (rfl | ⟨hn, l, r, rfl, h⟩)
        · exact ⟨[], ws, rfl, by simp⟩
        · refine ⟨v :: l, r, rfl, fun y hy => ?_⟩
          rcases List.mem_cons.1 hy with rfl | hy
          · exact hn
          · exact h y hy
    rw [firstWrites, key]
    split
    · rename_i hs
      rw [ih]
      constructor
      · rintro ⟨h1, h2⟩
        exact ⟨h1, .inr ⟨fun e => h1 (e ▸ hs), h2⟩⟩
      · rintro ⟨h1, rfl | ⟨_, h2⟩⟩
        · exact absurd hs h1
        · exact ⟨h1, h2⟩
    · rename_i hs
      rw [List.mem_cons, ih]
      constructor
      · rintro (rfl | ⟨h1, h2⟩)
        · exact ⟨hs, .inl rfl⟩
        · rw [List.mem_append, not_or, List.mem_singleton] at h1
          exact ⟨h1.1, .inr ⟨fun e => h1.2 e.symm, h2⟩⟩
      · rintro ⟨h1, rfl | ⟨h2, h3⟩⟩
        · exact .inl rfl
        · refine .inr ⟨?_, h3⟩
          rw [List.mem_append, not_or, List.mem_singleton]
          exact ⟨h1, fun e => h2 e.symm⟩

theorem forall₂_ids {gs : List FileGroup} {ws : List Write}
    (h : List.Forall₂ (fun g w => Holds g w ∧ GroupWF g) gs ws) : gs.map groupId = ws.map Write.id := by
  induction h with
  | nil => rfl
  | cons h _ ih => simp [ih, h.1.1]

theorem addStats_ok {p : Str} {xs : List (Write × Json)} {acc : List FileGroup}
    (hwf : ∀ x ∈ xs, x.1.WF) (henc : ∀ x ∈ xs, x.1.partition = p ∧ Encodes x.1 x.2) :
    ∃ gs, addStats p acc (xs.map Prod.snd) = .ok (acc ++ gs) ∧
      List.Forall₂ (fun g w => Holds g w ∧ GroupWF g) gs (firstWrites (acc.map groupId) (xs.map Prod.fst)) := by
  induction xs generalizing acc with
  | nil => exact ⟨[], by simp [addStats], .nil⟩
  | cons x xs ih =>
    obtain ⟨hp, he⟩ := henc x (by simp)
    obtain ⟨g, h1, h2, h3⟩ := fileGroupOfStat_wf (hwf x (by simp)) he
    rw [hp] at h1
    have hid : groupId g = x.1.id := h2.1
    rw [List.map_cons, List.map_cons, firstWrites]
    by_cases hs : x.1.id ∈ acc.map groupId
    · obtain ⟨gs, h4, h5⟩ := ih (acc := acc) (fun y hy => hwf y (by simp [hy]))
        (fun y hy => henc y (by simp [hy]))
      rw [if_pos hs]
      refine ⟨gs, ?_, h5⟩
      unfold addStats at h4 ⊢
      rw [Res.foldL_cons, h1]
      simp only [Res.ok_bind, Res.pure_eq, fgInsert_old (hid ▸ hs)] at h4 ⊢
      exact h4
    · have hnew : ∀ y ∈ acc, groupId y ≠ groupId g := fun y hy heq =>
        hs (hid ▸ heq ▸ List.mem_map_of_mem hy)
      obtain ⟨gs, h4, h5⟩ := ih (acc := acc ++ [g]) (fun y hy => hwf y (by simp [hy]))
        (fun y hy => henc y (by simp [hy]))
      rw [if_neg hs]
      rw [List.map_append, List.map_cons, List.map_nil, hid] at h5
      refine ⟨g :: gs, ?_, .cons ⟨h2, h3⟩ h5⟩
      unfold addStats at h4 ⊢
      rw [Res.foldL_cons, h1]
      simp only [Res.ok_bind, Res.pure_eq, fgInsert_new hnew] at h4 ⊢
      rw [h4]; simp

/-- Of the writes of a commit, the first to each file group is kept. -/
theorem buildFileGroups_first {md : List (Str × Json)} {ws : List Write}
    (hr : RecordsWrites md ws) (hwf : ∀ w ∈ ws, w.WF) :
    ∃ gs, buildFileGroups md = .ok gs ∧
      List.Forall₂ (fun g w => Holds g w ∧ GroupWF g) gs (firstWrites [] ws) := by
  obtain ⟨parts, h1, rfl, h3⟩ := hr
  unfold buildFileGroups
  simp only [h1, Option.bind_some, Json.asObj_obj, Res.ofOption_some, Res.ok_bind]
  have main : ∀ (parts : List (Str × List (Write × Json))) (acc : List FileGroup),
      (∀ e ∈ parts, ∀ x ∈ e.2, x.1.partition = e.1 ∧ Encodes x.1 x.2) →
      (∀ e ∈ parts, ∀ x ∈ e.2, x.1.WF) →
      ∃ gs, Res.foldL (fun s (e : Str × Json) => do
        let stats ← Res.ofOption .commitMetadata e.2.asArr
        addStats e.1 s stats) acc (parts.map (fun e => (e.1, Json.arr (e.2.map Prod.snd))))
          = .ok (acc ++ gs) ∧
        List.Forall₂ (fun g w => Holds g w ∧ GroupWF g) gs
          (firstWrites (acc.map groupId) (parts.flatMap (fun e => e.2.map Prod.fst))) := by
    intro parts
    induction parts with
    | nil => intro acc _ _; exact ⟨[], by simp, .nil⟩
    | cons e parts ih =>
      intro acc he hw
      obtain ⟨gs1, h4, h5⟩ := addStats_ok (p := e.1) (xs := e.2) (acc := acc)
        (fun x hx => hw e (by simp) x hx) (fun x hx => he e (by simp) x hx)
      obtain ⟨gs2, h6, h7⟩ := ih (acc ++ gs1) (fun x hx => he x (by simp [hx]))
        (fun x hx => hw x (by simp [hx]))
      refine ⟨gs1 ++ gs2, ?_, ?_⟩
      · rw [List.map_cons, Res.foldL_cons]
        simp only [Json.asArr_arr, Res.ofOption_some, Res.ok_bind, h4]
        rw [h6, List.append_assoc]
      · rw [List.flatMap_cons, firstWrites_append]
        rw [List.map_append, forall₂_ids h5] at h7
        exact List.rel_append h5 h7
  obtain ⟨gs, h4, h5⟩ := main parts [] h3 (by
    intro e he x hx
    exact hwf x.1 (List.mem_flatMap.2 ⟨e, he, List.mem_map_of_mem hx⟩))
  exact ⟨gs, by simpa using h4, h5⟩

theorem buildFileGroups_holds {md : List (Str × Json)} {ws : List Write}
    (hr : RecordsWrites md ws) (hwf : ∀ w ∈ ws, w.WF) (hnd : (ws.map Write.id).Nodup) :
    ∃ gs, buildFileGroups md = .ok gs ∧
      List.Forall₂ (fun g w => Holds g w ∧ GroupWF g) gs ws := by
  obtain ⟨gs, h1, h2⟩ := buildFileGroups_first hr hwf
  rw [firstWrites_nodup (by simpa using hnd)] at h2
  exact ⟨gs, h1, h2⟩

/-! ### Merging file groups of several commits -/

theorem base_eq_of_name {w w' : Write} (h : w.WF) (h' : w'.WF)
    (he : w.base.fileName = w'.base.fileName) : w.base = w'.base := by
  have h1 := base_fromStr h
  have h2 := base_fromStr h'
  rw [he, h2] at h1
  injection h1 with h1
  exact h1.symm

theorem Spec.Holds.slicesOf {g : FileGroup} {w : Write} (h : Holds g w) {P : Write → Prop} (hw : P w)
    (honly : ∀ w', P w' → w'.id = groupId g → w' = w) : SlicesOf P g := by
  obtain ⟨hid, s, hs, hb, hp, hl, hn⟩ := h
  have hP : ∀ w', P w' → w'.id = groupId g → w' = w := honly
  have hcase : ∀ ts s', sliceAt g ts = some s' → ts = w.base.commitTimestamp ∧ s' = s := by
    intro ts s' h
    by_cases ht : ts = w.base.commitTimestamp
    · subst ht; rw [hs] at h; cases h; exact ⟨rfl, rfl⟩
    · rw [hn ts ht] at h; cases h
  refine ⟨fun ts => ⟨fun h w' hw' hi he => ?_, fun h => ?_⟩, ?_, ?_, ?_⟩
  · have := hP w' hw' hi
    subst this
    rw [← he, hs] at h; cases h
  · exact hn ts (fun he => h w hw hid.symm he.symm)
  · intro ts s' h w' hw' hi _
    obtain ⟨_, rfl⟩ := hcase ts s' h
    rw [hP w' hw' hi, hb]
  · intro ts s' h
    obtain ⟨_, rfl⟩ := hcase ts s' h
    rw [hp]
    have : g.partitionPath = w.partition := congrArg Prod.fst hid
    exact this.symm
  · intro ts s' h l
    obtain ⟨rfl, rfl⟩ := hcase ts s' h
    rw [hl]
    constructor
    · intro h; exact ⟨w, hw, hid.symm, rfl, h⟩
    · rintro ⟨w', hw', hi, _, h⟩
      rw [hP w' hw' hi] at h; exact h

theorem Spec.SlicesOf.congr {P Q : Write → Prop} {g : FileGroup} (h : SlicesOf P g)
    (hpq : ∀ w, w.id = groupId g → (P w ↔ Q w)) : SlicesOf Q g := by
  obtain ⟨h1, h2, h3, h4⟩ := h
  refine ⟨fun ts => ?_, ?_, h3, ?_⟩
  · rw [h1]
    constructor
    · intro h w hw hi; exact h w ((hpq w hi).2 hw) hi
    · intro h w hw hi; exact h w ((hpq w hi).1 hw) hi
  · intro ts s hs w hw hi; exact h2 ts s hs w ((hpq w hi).2 hw) hi
  · intro ts s hs l
    rw [h4 ts s hs l]
    constructor
    · rintro ⟨w, hw, hi, r⟩; exact ⟨w, (hpq w hi).1 hw, hi, r⟩
    · rintro ⟨w, hw, hi, r⟩; exact ⟨w, (hpq w hi).2 hw, hi, r⟩

theorem log_eq_of_cmp {w w' : Write} (h : w.WF) (h' : w'.WF) (hid : w.id = w'.id) {a b : LogFile}
    (ha : a ∈ w.logs) (hb : b ∈ w'.logs) (he : LogFile.cmp a b = .eq) : a = b := by
  obtain ⟨h1, h2, h3⟩ := LogFile.cmp_eq_iff.1 he
  have la := h.log_group a ha
  have lb := h'.log_group b hb
  obtain ⟨_, _, _, _, _, _, _, _, ma⟩ := h.log_parts a ha
  obtain ⟨_, _, _, _, _, _, _, _, mb⟩ := h'.log_parts b hb
  have hf : w.fileId = w'.fileId := congrArg Prod.snd hid
  have e1 : a.fileId = b.fileId := by rw [la.1, lb.1, hf]
  have e2 := la.2.1.trans lb.2.1.symm
  have e3 := ma.trans mb.symm
  cases a; cases b; simp_all

theorem Spec.SlicesOf.merge {P : Write → Prop} {g h r : FileGroup} {w : Write}
    (hP : ∀ w, P w → w.WF) (hww : w.WF) (hg : SlicesOf P g) (hgw : GroupWF g)
    (hh : Holds h w) (hhw : GroupWF h) (hid : groupId g = groupId h)
    (hc : ∀ w', P w' → w'.id = w.id → w'.base.commitTimestamp = w.base.commitTimestamp →
      w'.base = w.base)
    (hr : g.merge h = .ok r) : SlicesOf (fun x => P x ∨ x = w) r := by
  obtain ⟨hidw, sh, hsh, hb, hp, hl, hn⟩ := hh
  obtain ⟨⟨_, _, _⟩, r1, r2, r3, r4⟩ := (merge_ok_iff hgw.sorted hhw.sorted).1 hr
  simp only [← sliceAt_eq] at r4
  have hidr : groupId r = w.id := by
    rw [← hidw, ← hid]; simp [groupId, r1, r2]
  have hidg : groupId g = w.id := hid.trans hidw
  have hother : ∀ ts, ts ≠ w.base.commitTimestamp → sliceAt r ts = sliceAt g ts := by
    intro ts hts
    rw [r4, hn ts hts]; cases sliceAt g ts <;> rfl
  have hexists : ∀ ts s, sliceAt g ts = some s → ∃ w', P w' ∧ w'.id = groupId g ∧
      w'.base.commitTimestamp = ts := by
    intro ts s hs
    refine Classical.byContradiction fun hno => ?_
    have : sliceAt g ts = none := (hg.no_slice ts).2 (fun w' a b c => hno ⟨w', a, b, c⟩)
    rw [hs] at this; cases this
  have hat : ∃ s, sliceAt r w.base.commitTimestamp = some s ∧ s.baseFile = w.base ∧
      s.partitionPath = r.partitionPath ∧ ∀ l, l ∈ s.logFiles ↔
        (∃ w', P w' ∧ w'.id = w.id ∧ w'.base.commitTimestamp = w.base.commitTimestamp ∧ l ∈ w'.logs) ∨
        l ∈ w.logs := by
    cases hgs : sliceAt g w.base.commitTimestamp with
    | none =>
      refine ⟨sh, by rw [r4, hgs, hsh]; rfl, hb, ?_, fun l => ?_⟩
      · have : r.partitionPath = w.partition := congrArg Prod.fst hidr
        rw [hp, this]
      · rw [hl]
        constructor
        · exact .inr
        · rintro (⟨w', a, b, c, _⟩ | h)
          · exact absurd c ((hg.no_slice _).1 hgs w' a (b.trans hidg.symm))
          · exact h
    | some s =>
      refine ⟨{ s with logFiles := setExtend LogFile.cmp s.logFiles sh.logFiles },
        by rw [r4, hgs, hsh]; rfl, ?_, ?_, fun l => ?_⟩
      · obtain ⟨w', a, b, c⟩ := hexists _ _ hgs
        show s.baseFile = _
        rw [hg.base _ _ hgs w' a b c]
        exact hc w' a (b.trans hidg) c
      · show s.partitionPath = _
        rw [hg.partition _ _ hgs, r2]
      · have hsl := hg.logs _ _ hgs
        have hsub : ∀ l, l ∈ s.logFiles ∨ l ∈ sh.logFiles ↔
            (∃ w', P w' ∧ w'.id = w.id ∧ w'.base.commitTimestamp = w.base.commitTimestamp ∧
              l ∈ w'.logs) ∨ l ∈ w.logs := by
          intro l; rw [hsl, hl, hidg]
        rw [← hsub]
        constructor
        · exact setExtend_sub _ _ l
        · intro hor
          obtain ⟨z, hz, he⟩ := setExtend_covers (cmp := LogFile.cmp) _ _ l hor
          have hzor := setExtend_sub _ _ z hz
          have hlw : ∀ l, l ∈ s.logFiles ∨ l ∈ sh.logFiles → ∃ w' : Write, w'.WF ∧ w'.id = w.id ∧ l ∈ w'.logs := by
            intro l hl'
            rcases (hsub l).1 hl' with ⟨w', a, b, _, d⟩ | d
            · exact ⟨w', hP w' a, b, d⟩
            · exact ⟨w, hww, rfl, d⟩
          obtain ⟨w1, a1, b1, c1⟩ := hlw l hor
          obtain ⟨w2, a2, b2, c2⟩ := hlw z hzor
          rw [log_eq_of_cmp a1 a2 (b1.trans b2.symm) c1 c2 he]; exact hz
  obtain ⟨sr, hsr, hrb, hrp, hrl⟩ := hat
  refine ⟨fun ts => ?_, ?_, ?_, ?_⟩
  · by_cases ht : ts = w.base.commitTimestamp
    · subst ht
      rw [hsr]
      constructor
      · intro h; cases h
      · intro h; exact absurd rfl (h w (.inr rfl) hidr.symm)
    · rw [hother ts ht, hg.no_slice]
      constructor
      · rintro h w' (a | rfl) b
        · exact h w' a (by rw [hidg, ← hidr]; exact b)
        · exact fun h => ht h.symm
      · intro h w' a b
        exact h w' (.inl a) (by rw [hidr, ← hidg]; exact b)
  · intro ts s hs w' hw' hi ht
    by_cases hts : ts = w.base.commitTimestamp
    · subst hts
      rw [hsr] at hs; cases hs
      rw [hrb]
      rcases hw' with a | rfl
      · exact (hc w' a (hi.trans hidr) ht).symm
      · rfl
    · rw [hother ts hts] at hs
      rcases hw' with a | rfl
      · exact hg.base ts s hs w' a (by rw [hidg, ← hidr]; exact hi) ht
      · exact absurd ht.symm hts
  · intro ts s hs
    by_cases hts : ts = w.base.commitTimestamp
    · subst hts; rw [hsr] at hs; cases hs; exact hrp
    · rw [hother ts hts] at hs; rw [hg.partition ts s hs, r2]
  · intro ts s hs l
    by_cases hts : ts = w.base.commitTimestamp
    · subst hts
      rw [hsr] at hs; cases hs
      rw [hrl, hidr]
      constructor
      · rintro (⟨w', a, b, c, d⟩ | d)
        · exact ⟨w', .inl a, b, c, d⟩
        · exact ⟨w, .inr rfl, rfl, rfl, d⟩
      · rintro ⟨w', a | rfl, b, c, d⟩
        · exact .inl ⟨w', a, b, c, d⟩
        · exact .inr d
    · rw [hother ts hts] at hs
      rw [hg.logs ts s hs l, hidg, hidr]
      constructor
      · rintro ⟨w', a, b⟩; exact ⟨w', .inl a, b⟩
      · rintro ⟨w', a | rfl, b, c, d⟩
        · exact ⟨w', a, b, c, d⟩
        · exact absurd c.symm hts

/-- The state of the merge: the writes seen so far, all held. -/
structure Merged (P : Write → Prop) (acc : List FileGroup) : Prop where
  holds : HoldsAll acc P
  wf : ∀ g ∈ acc, GroupWF g

theorem fgMergeOne_ok {P : Write → Prop} {acc : List FileGroup} {g : FileGroup} {w : Write}
    (hP : ∀ w, P w → w.WF) (hww : w.WF) (hm : Merged P acc) (hg : Holds g w) (hgw : GroupWF g)
    (hc : ∀ w', P w' → w'.id = w.id → w'.base.commitTimestamp = w.base.commitTimestamp →
      w'.base = w.base) :
    ∃ acc', fgMergeOne acc g = .ok acc' ∧ Merged (fun x => P x ∨ x = w) acc' := by
  have hidw : groupId g = w.id := hg.1
  have hirr : ∀ x ∈ acc, groupId x ≠ groupId g → SlicesOf (fun x => P x ∨ x = w) x := by
    intro x hx hne
    refine (hm.holds.slices x hx).congr (fun w' hw' => ⟨.inl, ?_⟩)
    rintro (h | rfl)
    · exact h
    · exact absurd (hw'.symm.trans hidw.symm) hne
  unfold fgMergeOne
  cases hf : acc.find? (fun x => x.same g) with
  | none =>
    have hne : ∀ x ∈ acc, groupId x ≠ groupId g := by
      intro x hx heq
      have := List.find?_eq_none.1 hf x hx
      exact this (same_iff_id.2 heq)
    have hno : ∀ w', P w' → w'.id ≠ w.id := by
      intro w' hw' heq
      obtain ⟨x, hx, hxi⟩ := (hm.holds.groups w.id).2 ⟨w', hw', heq⟩
      exact hne x hx (hxi.trans hidw.symm)
    refine ⟨acc ++ [g], rfl, ⟨?_, fun id => ?_, fun x hx => ?_⟩, fun x hx => ?_⟩
    · rw [List.pairwise_append]
      refine ⟨hm.holds.distinct, by simp, fun a ha b hb => ?_⟩
      rw [List.mem_singleton] at hb
      subst hb
      exact hne a ha
    · constructor
      · rintro ⟨x, hx, rfl⟩
        rcases List.mem_append.1 hx with hx | hx
        · obtain ⟨w', a, b⟩ := (hm.holds.groups _).1 ⟨x, hx, rfl⟩
          exact ⟨w', .inl a, b⟩
        · rw [List.mem_singleton] at hx; subst hx
          exact ⟨w, .inr rfl, hidw.symm⟩
      · rintro ⟨w', a | rfl, rfl⟩
        · obtain ⟨x, hx, hi⟩ := (hm.holds.groups _).2 ⟨w', a, rfl⟩
          exact ⟨x, by simp [hx], hi⟩
        · exact ⟨g, by simp, hidw⟩
    · rcases List.mem_append.1 hx with hx | hx
      · exact hirr x hx (hne x hx)
      · rw [List.mem_singleton] at hx; subst hx
        refine Holds.slicesOf hg (.inr rfl) (fun w' hw' hi => ?_)
        rcases hw' with h | h
        · exact absurd (hi.trans hidw) (hno w' h)
        · exact h
    · rcases List.mem_append.1 hx with hx | hx
      · exact hm.wf x hx
      · rw [List.mem_singleton] at hx; subst hx; exact hgw
  | some ex =>
    have hex : ex ∈ acc := List.mem_of_find?_eq_some hf
    have hexid : groupId ex = groupId g := by
      have := List.find?_some hf
      exact same_iff_id.1 this
    have hexs := hm.holds.slices ex hex
    have hexw := hm.wf ex hex
    have hsame : ∀ ts s t, mapGet ts ex.slices = some s → mapGet ts g.slices = some t →
        s.same t = true := by
      intro ts s t hs ht
      rw [← sliceAt_eq] at hs ht
      obtain ⟨_, sh, hsh, hb, hp, hl, hn⟩ := hg
      have hts : ts = w.base.commitTimestamp := by
        refine Classical.byContradiction fun hne => ?_
        rw [hn ts hne] at ht; cases ht
      subst hts
      rw [hsh] at ht; cases ht
      have : ∃ w', P w' ∧ w'.id = groupId ex ∧ w'.base.commitTimestamp = w.base.commitTimestamp := by
        refine Classical.byContradiction fun hno => ?_
        have := (hexs.no_slice _).2 (fun w' a b c => hno ⟨w', a, b, c⟩)
        rw [hs] at this; cases this
      obtain ⟨w', a, b, c⟩ := this
      have hsb : s.baseFile = w.base :=
        (hexs.base _ _ hs w' a b c).trans (hc w' a (by rw [b, hexid, hidw]) c)
      have hsp := hexs.partition _ _ hs
      have : ex.partitionPath = w.partition := congrArg Prod.fst (hexid.trans hidw)
      simp [FileSlice.same, hsb, hb, hsp, hp, this]
    have hids := Prod.mk.injEq .. ▸ hexid
    have hi1 : ex.partitionPath = g.partitionPath := congrArg Prod.fst hexid
    have hi2 : ex.fileId = g.fileId := congrArg Prod.snd hexid
    obtain ⟨m, f1, f2, f3⟩ := foldMerge_ok hexw.sorted hgw.sorted hsame
    have hr : ex.merge g = .ok { ex with slices := m } :=
      (merge_ok_iff hexw.sorted hgw.sorted).2 ⟨⟨hi2, hi1, hsame⟩, rfl, rfl, f2, f3⟩
    have hrid : groupId { ex with slices := m } = groupId g := hexid
    have hrw := merge_wf hexw hgw hr
    have hrs := SlicesOf.merge hP hww hexs hexw hg hgw hexid hc hr
    have hfilter : ∀ x ∈ acc.filter (fun x => !x.same g), x ∈ acc ∧ groupId x ≠ groupId g := by
      intro x hx
      obtain ⟨h1, h2⟩ := List.mem_filter.1 hx
      refine ⟨h1, fun heq => ?_⟩
      rw [same_iff_id.2 heq] at h2; cases h2
    refine ⟨acc.filter (fun x => !x.same g) ++ [{ ex with slices := m }], ?_,
      ⟨?_, fun id => ?_, fun x hx => ?_⟩, fun x hx => ?_⟩
    · simp only [hr, Res.ok_bind, Res.pure_eq]
      rw [fgInsert_new (fun x hx => by rw [hrid]; exact (hfilter x hx).2)]
    · rw [List.pairwise_append]
      refine ⟨hm.holds.distinct.filter _, by simp, fun a ha b hb => ?_⟩
      rw [List.mem_singleton] at hb
      subst hb
      rw [hrid]; exact (hfilter a ha).2
    · constructor
      · rintro ⟨x, hx, rfl⟩
        rcases List.mem_append.1 hx with hx | hx
        · obtain ⟨w', a, b⟩ := (hm.holds.groups _).1 ⟨x, (hfilter x hx).1, rfl⟩
          exact ⟨w', .inl a, b⟩
        · rw [List.mem_singleton] at hx; subst hx
          exact ⟨w, .inr rfl, hidw.symm.trans hrid.symm⟩
      · rintro ⟨w', a | rfl, rfl⟩
        · obtain ⟨x, hx, hi⟩ := (hm.holds.groups _).2 ⟨w', a, rfl⟩
          by_cases hxg : groupId x = groupId g
          · exact ⟨_, by simp, hrid.trans (hxg.symm.trans hi)⟩
          · refine ⟨x, List.mem_append.2 (.inl (List.mem_filter.2 ⟨hx, ?_⟩)), hi⟩
            cases hs : x.same g with
            | false => rfl
            | true => exact absurd (same_iff_id.1 hs) hxg
        · exact ⟨_, by simp, hrid.trans hidw⟩
    · rcases List.mem_append.1 hx with hx | hx
      · exact hirr x (hfilter x hx).1 (hfilter x hx).2
      · rw [List.mem_singleton] at hx; subst hx; exact hrs
    · rcases List.mem_append.1 hx with hx | hx
      · exact hm.wf x (hfilter x hx).1
      · rw [List.mem_singleton] at hx; subst hx; exact hrw

theorem fgMergeOne_err {P : Write → Prop} {acc : List FileGroup} {g : FileGroup} {w : Write}
    (hP : ∀ w, P w → w.WF) (hww : w.WF) (hm : Merged P acc) (hg : Holds g w) (hgw : GroupWF g)
    (hc : ∃ w', P w' ∧ w'.id = w.id ∧ w'.base.commitTimestamp = w.base.commitTimestamp ∧
      w'.base ≠ w.base) : fgMergeOne acc g = .err .fileGroup := by
  have hidw : groupId g = w.id := hg.1
  obtain ⟨w', a, b, c, d⟩ := hc
  obtain ⟨x, hx, hxi⟩ := (hm.holds.groups w.id).2 ⟨w', a, b⟩
  unfold fgMergeOne
  cases hf : acc.find? (fun x => x.same g) with
  | none => exact absurd (same_iff_id.2 (hxi.trans hidw.symm)) (List.find?_eq_none.1 hf x hx)
  | some ex =>
    have hex : ex ∈ acc := List.mem_of_find?_eq_some hf
    have hexid : groupId ex = groupId g := by
      have := List.find?_some hf
      exact same_iff_id.1 this
    have hexs := hm.holds.slices ex hex
    have hexw := hm.wf ex hex
    obtain ⟨_, sh, hsh, hb, hp, hl, hn⟩ := hg
    have : ∃ s, sliceAt ex w.base.commitTimestamp = some s := by
      cases h : sliceAt ex w.base.commitTimestamp with
      | some s => exact ⟨s, rfl⟩
      | none => exact absurd c ((hexs.no_slice _).1 h w' a (b.trans (hidw.symm.trans hexid.symm)))
    obtain ⟨s, hs⟩ := this
    have hsb : s.baseFile = w'.base := hexs.base _ _ hs w' a (b.trans (hidw.symm.trans hexid.symm)) c
    have hne : s.same sh = false := by
      cases h : s.same sh with
      | false => rfl
      | true =>
        simp only [FileSlice.same, Bool.and_eq_true, decide_eq_true_eq, hsb, hb] at h
        exact absurd (base_eq_of_name (hP w' a) hww h.1) d
    rw [sliceAt_eq] at hs hsh
    have herr : ex.merge g = .err .fileGroup := merge_err_of_not hexw.sorted hgw.sorted (fun h => by
      have := h.2.2 _ _ _ hs hsh
      rw [hne] at this; cases this)
    simp [herr]

/-- Merging the file groups of one commit into the state. -/
theorem fgMerge_spec {P : Write → Prop} {acc gs : List FileGroup} {ws : List Write}
    (hP : ∀ w, P w → w.WF) (hws : ∀ w ∈ ws, w.WF) (hm : Merged P acc)
    (hgs : List.Forall₂ (fun g w => Holds g w ∧ GroupWF g) gs ws) :
    (NoConflict (fun x => P x ∨ x ∈ ws) →
      ∃ acc', fgMerge acc gs = .ok acc' ∧ Merged (fun x => P x ∨ x ∈ ws) acc') ∧
    (NoConflict P → ¬ NoConflict (fun x => P x ∨ x ∈ ws) → fgMerge acc gs = .err .fileGroup) := by
  induction hgs generalizing P acc with
  | nil =>
    have e : (fun x => P x ∨ x ∈ ([] : List Write)) = P := by funext x; simp
    rw [e]
    exact ⟨fun _ => ⟨acc, rfl, hm⟩, fun h h' => absurd h h'⟩
  | @cons g w gs ws hgw hrest ih =>
    have hww := hws w (by simp)
    have e : (fun x => P x ∨ x ∈ w :: ws) = (fun x => (P x ∨ x = w) ∨ x ∈ ws) := by
      funext x; simp [or_assoc]
    rw [e]
    have hP' : ∀ x, P x ∨ x = w → x.WF := by
      rintro x (h | rfl)
      · exact hP x h
      · exact hww
    unfold fgMerge
    rw [Res.foldL_cons]
    by_cases hc : ∀ w', P w' → w'.id = w.id → w'.base.commitTimestamp = w.base.commitTimestamp →
      w'.base = w.base
    · obtain ⟨acc1, h1, h2⟩ := fgMergeOne_ok hP hww hm hgw.1 hgw.2 hc
      rw [h1]
      obtain ⟨i1, i2⟩ := ih hP' (fun x hx => hws x (by simp [hx])) h2
      refine ⟨i1, fun hnc hnot => i2 ?_ hnot⟩
      rintro x y (hx | rfl) (hy | rfl) hi ht
      · exact hnc x y hx hy hi ht
      · exact hc x hx hi ht
      · exact (hc y hy hi.symm ht.symm).symm
      · rfl
    · have hc' : ∃ w', P w' ∧ w'.id = w.id ∧ w'.base.commitTimestamp = w.base.commitTimestamp ∧
          w'.base ≠ w.base := by
        refine Classical.byContradiction fun hno => hc fun w' a b c => ?_
        exact Classical.byContradiction fun d => hno ⟨w', a, b, c, d⟩
      rw [fgMergeOne_err hP hww hm hgw.1 hgw.2 hc']
      obtain ⟨w', a, b, c, d⟩ := hc'
      refine ⟨fun hnc => ?_, fun _ _ => rfl⟩
      exact absurd (hnc w' w (.inl (.inl a)) (.inl (.inr rfl)) b c) d

end Hudi
