import Verif.Lemmas.Url
import Verif.Props.Opening
import Verif.Props.Predicates
import Verif.Props.Snapshot
import Verif.Props.FileNames
import Verif.Props.TableReads

/-! # C47, C53, C54: what the query engine is told to read -/

namespace Hudi
open Spec

/-- **C54.**  Whatever characters the names contain apart from control characters, a file is looked up under
its own name below the base directory.  Missing: names with control characters (`C54_false`). -/
theorem C54_files_are_looked_up_under_their_names_partial (base : Str) (ds ns : List Str)
    (hb : BaseDir base ds) (hne : ns ≠ []) (h : ∀ n ∈ ns, NormalName n) :
    storageKey base (joinWith '/' ns) = .ok (joinWith '/' (ds ++ ns)) := by
  have hds : ∀ n ∈ ds ++ ns, NormalName n := by
    intro n hn
    rcases List.mem_append.1 hn with hn | hn
    · rcases hb with ⟨rfl, _⟩ | ⟨_, h2, _⟩
      · cases hn
      · exact h2 n hn
    · exact h n hn
  have hnn : ds ++ ns ≠ [] := by simp [hne]
  have key : ∀ s d, (if base.getLast? = some '/' then base.dropLast else base) = s →
      percentDecode (utf8Encode s) = utf8Encode d → d = ds.flatMap (fun s => '/' :: s) →
      storageKey base (joinWith '/' ns) = .ok (joinWith '/' (ds ++ ns)) := by
    intro s d h1 h2 h3
    unfold storageKey objPathFromUrl
    rw [urlJoin_normal hne h, h1, utf8Encode_append, percentDecode_flat, h2, ← utf8Encode_append,
      utf8Decode_encode, h3, ← List.flatMap_append, ← slash_join hnn]
    exact objPathParse_normal hnn hds
  rcases hb with ⟨rfl, rfl | rfl⟩ | ⟨h1, h2, h3, h4⟩
  · exact key [] [] rfl (by simp [utf8Encode, percentDecode]) rfl
  · exact key [] [] rfl (by simp [utf8Encode, percentDecode]) rfl
  · refine key base _ (by rw [if_neg h3]) (utf8Encode_decode h4).symm ?_
    exact slash_join h1

/-- A name with a space, a percent sign and a letter outside ASCII. -/
example : storageKey c!"/lake/my%20table" c!"city=são%2F paulo/f.parquet" =
    .ok c!"lake/my table/city=são%2F paulo/f.parquet" := by
  have h := C54_files_are_looked_up_under_their_names_partial c!"/lake/my%20table" [c!"lake", c!"my table"]
    [c!"city=são%2F paulo", c!"f.parquet"]
    (.inr ⟨by decide, by decide, by decide, by decide⟩) (by decide) (by decide)
  exact h

/-- **C54 fails for control characters.**  A file with a tab in its name is looked up under the name without
the tab, which is another file's; reading it returns what that file contains.  With other control characters
the lookup is an error. -/
theorem C54_false :
    storageKey c!"/lake" c!"city/a\tb.parquet" = .ok c!"lake/city/ab.parquet" ∧
    (∀ content : Content, ∀ size : Nat,
      getFile (.dir c!"city" (.file c!"ab.parquet" size content .nil) .nil) c!"city/a\tb.parquet" =
        .ok (size, content)) ∧
    storageKey c!"/lake" [Char.ofNat 1] = .err .storage :=
  ⟨by decide +kernel, fun _ _ => rfl, by decide +kernel⟩

theorem pctEncode_plain {enc : Char → Bool} {s : Str} (h : ∀ c ∈ s, enc c = false) :
    pctEncode enc s = s := by
  induction s with
  | nil => rfl
  | cons c s ih =>
    have h1 := h c (by simp)
    have h2 := ih (fun x hx => h x (by simp [hx]))
    unfold pctEncode at h2 ⊢
    rw [List.flatMap_cons, h2, if_neg (by simp [h1])]
    rfl

theorem flatMap_congr' {α β : Type} {l : List α} {f g : α → List β} (h : ∀ a ∈ l, f a = g a) :
    l.flatMap f = l.flatMap g := by
  induction l with
  | nil => rfl
  | cons a l ih =>
    rw [List.flatMap_cons, List.flatMap_cons, h a (by simp), ih (fun x hx => h x (by simp [hx]))]

theorem plainName_encodes {s : Str} (h : PlainName s) {c : Char} (hc : c ∈ s) :
    urlEncodes c = false ∧ objEncodes c = false := by
  obtain ⟨h1, h2, h3⟩ := h.2 c hc
  simp only [List.mem_cons, List.not_mem_nil, or_false, not_or] at h3
  unfold urlEncodes objEncodes
  simp only [Bool.or_eq_false_iff, decide_eq_false_iff_not, List.contains_eq_mem, List.mem_cons, List.not_mem_nil,
    or_false]
  refine ⟨⟨⟨by omega, by omega⟩, ?_⟩, ⟨by omega, by omega⟩, ?_⟩ <;> tauto

/-- The object path handed to the engine for plain names. -/
theorem objPathFrom_plain {base : Str} {ds ns : List Str} (hb : PlainBase base ds) (hne : ns ≠ [])
    (h : ∀ n ∈ ns, PlainName n) :
    objPathFrom (urlJoin base (joinWith '/' ns)) = joinWith '/' (ds ++ ns) := by
  have hnn : ds ++ ns ≠ [] := by simp [hne]
  have hall : ∀ n ∈ ds ++ ns, PlainName n := fun n hn => by
    rcases List.mem_append.1 hn with hn | hn
    · exact hb.1 n hn
    · exact h n hn
  have hstrip : (if base.getLast? = some '/' then base.dropLast else base) =
      ds.flatMap (fun s => '/' :: s) := by
    rcases hb.2 with ⟨rfl, rfl | rfl⟩ | ⟨h1, rfl⟩
    · rfl
    · rfl
    · rw [if_neg, slash_join h1]
      intro hc
      rw [List.getLast?_cons] at hc
      have hl := joinWith_getLast h1 (fun n hn => (hb.1 n hn).1)
      cases hx : (joinWith '/' ds).getLast? with
      | none =>
        have := List.getLast?_eq_none_iff.1 hx
        cases ds with
        | nil => exact h1 rfl
        | cons a as =>
          have := ((hb.1 a (by simp)).1).1
          cases as <;> simp_all [joinWith]
      | some y => rw [hx] at hc hl; exact hl (by simpa using hc)
  rw [urlJoin_normal hne (fun n hn => (h n hn).1), hstrip]
  rw [flatMap_congr' (l := ns) (f := fun s => '/' :: pctEncode urlEncodes s) (g := fun s => '/' :: s)
    (fun n hn => by rw [pctEncode_plain (fun c hc => (plainName_encodes (h n hn) hc).1)])]
  rw [← List.flatMap_append, ← slash_join hnn]
  unfold objPathFrom
  have hsplit : splitAll '/' ('/' :: joinWith '/' (ds ++ ns)) = [] :: (ds ++ ns) := by
    rw [splitAll, if_pos rfl, splitAll_joinWith hnn (fun p hp => (hall p hp).1.2.1)]
  rw [hsplit, List.map_cons]
  have hpart : (ds ++ ns).map objPart = ds ++ ns := by
    conv_rhs => rw [← List.map_id (ds ++ ns)]
    apply List.map_congr_left
    intro n hn
    have := hall n hn
    unfold objPart
    rw [if_neg this.1.2.2.1, if_neg this.1.2.2.2.1, pctEncode_plain (fun c hc => (plainName_encodes this hc).2)]
    rfl
  rw [hpart]
  have h0 : objPart [] = [] := rfl
  rw [List.filter_cons_of_neg (by simp [h0]), List.filter_eq_self.2]
  intro n hn
  simp [(hall n hn).1.1]

theorem plainBase_baseDir {base : Str} {ds : List Str} (h : PlainBase base ds) : BaseDir base ds := by
  rcases h.2 with h1 | ⟨h1, rfl⟩
  · exact .inl h1
  · refine .inr ⟨h1, fun d hd => (h.1 d hd).1, ?_, ?_⟩
    · intro hc
      rw [List.getLast?_cons] at hc
      have hl := joinWith_getLast h1 (fun n hn => (h.1 n hn).1)
      cases hx : (joinWith '/' ds).getLast? with
      | none =>
        have := List.getLast?_eq_none_iff.1 hx
        cases ds with
        | nil => exact h1 rfl
        | cons a as =>
          have := ((h.1 a (by simp)).1).1
          cases as <;> simp_all [joinWith]
      | some y => rw [hx] at hc hl; exact hl (by simpa using hc)
    · have hp : '%' ∉ '/' :: joinWith '/' ds := by
        intro hm
        rw [slash_join h1, List.mem_flatMap] at hm
        obtain ⟨d, hd, hm⟩ := hm
        rcases List.mem_cons.1 hm with hm | hm
        · cases hm
        · have := ((h.1 d hd).2 _ hm).2.2
          revert this; decide
      have := percentDecode_plain hp []
      rw [List.append_nil] at this
      rw [this]
      simp [percentDecode, utf8Decode_encode]

/-- The relative path of the base file of a slice of a snapshot. -/
theorem slice_path {o : Opts} {t : Tree} (hwf : TreeWF t) {x : Str} (hx : PartitionOf o t x)
    {b : BaseFile} (hb : BaseIn (filesOf t x) b) :
    ∃ ns, x = joinWith '/' ns ∧ ns = pathSegs x ∧ (∀ n ∈ ns, NormalName n) ∧ NormalName b.fileName ∧
      pathPush x b.fileName = joinWith '/' (ns ++ [b.fileName]) ∧
      ∃ f ∈ filesOf t x, ∀ c ∈ b.fileName, c ∈ f.1 := by
  obtain ⟨name, size, hm, hig, hpq, hfm⟩ := hb
  have hst : BaseFile.fromStr name = .ok { b with fileMeta := none } := by
    unfold BaseFile.fromMeta at hfm
    unfold BaseFile.fromStr
    obtain ⟨⟨a1, a2, a3, a4⟩, h1, h2⟩ := Res.bind_eq_ok.1 hfm
    cases h2
    have h1 : BaseFile.parseFileName name = _ := h1
    rw [h1]; rfl
  obtain ⟨more, hname, _, _, _⟩ := baseFile_fromStr_ok hst
  have hsub : ∀ c ∈ b.fileName, c ∈ name := by
    intro c hc
    rw [hname]
    simp only [BaseFile.fileName, List.mem_append] at hc
    cases more <;> simp only [joinWith, List.mem_append, List.mem_cons] <;> simp at hc <;> tauto
  have hnn := (hwf.at (pathSegs x)).files_normal _ hm
  have hfn : NormalName b.fileName := by
    have hu : '_' ∈ b.fileName := by simp [BaseFile.fileName]
    refine ⟨fun h0 => (by rw [h0] at hu; cases hu), fun hs => hnn.2.1 (hsub _ hs), ?_, ?_,
      fun d hd => hnn.2.2.2.2 d (hsub d hd)⟩
    · intro h0; rw [h0] at hu; revert hu; decide
    · intro h0; rw [h0] at hu; revert hu; decide
  have hfile : ∃ f ∈ filesOf t x, ∀ c ∈ b.fileName, c ∈ f.1 := ⟨_, hm, hsub⟩
  rcases hx with ⟨_, rfl⟩ | ⟨_, n, ns, hl, _, rfl⟩
  · refine ⟨[], rfl, rfl, by simp, hfn, ?_, hfile⟩
    unfold pathPush
    cases hfe : b.fileName with
    | nil => exact absurd hfe hfn.1
    | cons c cs =>
      have hc : c ≠ '/' := fun hc => hfn.2.1 (by rw [hfe, hc]; simp)
      split
      · rename_i heq; exact absurd (List.cons.inj heq).1 hc
      · rfl
  · have hns : ∀ m ∈ n :: ns, NormalName m := by
      have : ∀ (ps : List Str) (u : Tree), TreeWF u → IsDir ps u → ∀ m ∈ ps, NormalName m := by
        intro ps
        induction ps with
        | nil => intro _ _ _ m hm; cases hm
        | cons p ps ih =>
          intro u hu hd m hm
          rcases List.mem_cons.1 hm with rfl | hm
          · exact hu.dirs_normal _ hd.1
          · exact ih _ (hu.sub p) hd.2 m hm
      exact this _ t hwf hl.1
    exact ⟨n :: ns, rfl, (pathSegs_joinWith hns).symm, hns, hfn, pathPush_join (by simp) hns hfn, hfile⟩

theorem baseFile_id_of_name {files files' : List (Str × Nat)} {b b' : BaseFile} (h : BaseIn files b)
    (h' : BaseIn files' b') (he : b.fileName = b'.fileName) : b.fileId = b'.fileId := by
  have parts : ∀ {fs : List (Str × Nat)} {b : BaseFile}, BaseIn fs b → '_' ∉ b.fileId ∧
      '_' ∉ b.writeToken ∧ '_' ∉ b.commitTimestamp ∧ '.' ∉ b.extension := by
    rintro fs b ⟨name, size, hm, _, _, hfm⟩
    have hst : BaseFile.fromStr name = .ok { b with fileMeta := none } := by
      unfold BaseFile.fromMeta at hfm
      unfold BaseFile.fromStr
      obtain ⟨⟨a1, a2, a3, a4⟩, h1, h2⟩ := Res.bind_eq_ok.1 hfm
      cases h2
      have h1 : BaseFile.parseFileName name = _ := h1
      rw [h1]; rfl
    obtain ⟨more, _, h1, _, h2⟩ := baseFile_fromStr_ok hst
    exact ⟨h2 _ (by simp), h2 _ (by simp), h2 _ (by simp), h1⟩
  obtain ⟨a1, a2, a3, a4⟩ := parts h
  obtain ⟨b1, b2, b3, b4⟩ := parts h'
  have e1 := (C12_base_file_recovered_partial b.fileId b.writeToken b.commitTimestamp b.extension
    (FileMeta.new [] 0) a1 a2 a3 a4).1
  have e2 := (C12_base_file_recovered_partial b'.fileId b'.writeToken b'.commitTimestamp b'.extension
    (FileMeta.new [] 0) b1 b2 b3 b4).1
  have he' : BaseFile.fileName ⟨b.fileId, b.writeToken, b.commitTimestamp, b.extension, none⟩ =
      BaseFile.fileName ⟨b'.fileId, b'.writeToken, b'.commitTimestamp, b'.extension, none⟩ := he
  rw [he', e2] at e1
  injection e1 with e1
  injection e1 with e1
  exact e1.symm

theorem pairwise_of_map_nodup {α β γ : Type} {l : List α} {f : α → β} {g : α → γ}
    (h : (l.map f).Nodup) (hi : ∀ a ∈ l, ∀ b ∈ l, g a = g b → f a = f b) : (l.map g).Nodup := by
  unfold List.Nodup at h ⊢
  rw [List.pairwise_map] at h ⊢
  exact h.imp_of_mem (fun {a b} ha hb hne he => hne (hi a ha b hb he))

/-- The relative paths of the base files of a snapshot are distinct. -/
theorem snapshot_paths_nodup {o : Opts} {t : Tree} (hwf : TreeWF t) {q : Str → Prop}
    {r : Str → Str → Prop} {ts : Str} {ss : List FileSlice}
    (h : SnapshotOf t (fun x => PartitionOf o t x ∧ q x) r ts ss) :
    (ss.map FileSlice.basePath).Nodup := by
  refine pairwise_of_map_nodup h.distinct ?_
  intro a ha b hb he
  obtain ⟨⟨hpa, _⟩, _, fa, ma, hia, hea⟩ := h.sound a ha
  obtain ⟨⟨hpb, _⟩, _, fb, mb, hib, heb⟩ := h.sound b hb
  obtain ⟨ns, hx, _, hns, hfn, hpush, _⟩ := slice_path hwf hpa hia
  obtain ⟨ns', hx', _, hns', hfn', hpush', _⟩ := slice_path hwf hpb hib
  have e1 : a.basePath = pathPush a.partitionPath fa.fileName := by
    unfold FileSlice.basePath FileSlice.relativePathFor; rw [hea]; rfl
  have e2 : b.basePath = pathPush b.partitionPath fb.fileName := by
    unfold FileSlice.basePath FileSlice.relativePathFor; rw [heb]; rfl
  rw [e1, e2, hpush, hpush'] at he
  have hs := congrArg (splitAll '/') he
  rw [splitAll_joinWith (by simp) (fun p hp => by
      rcases List.mem_append.1 hp with hp | hp
      · exact (hns p hp).2.1
      · rw [List.mem_singleton.1 hp]; exact hfn.2.1),
    splitAll_joinWith (by simp) (fun p hp => by
      rcases List.mem_append.1 hp with hp | hp
      · exact (hns' p hp).2.1
      · rw [List.mem_singleton.1 hp]; exact hfn'.2.1)] at hs
  have hs' := List.append_inj' hs rfl
  have hname : fa.fileName = fb.fileName := by simpa using hs'.2
  have hid := baseFile_id_of_name hia hib hname
  have hida : a.baseFile.fileId = fa.fileId := by rw [hea]
  have hidb : b.baseFile.fileId = fb.fileId := by rw [heb]
  rw [hida, hidb, hid, hx, hx', hs'.1]

theorem inputPartitions_eq (tb : Table) : ∃ n, tb.inputPartitions = .ok n ∧ AskedPartitions tb.opts n := by
  unfold Table.inputPartitions AskedPartitions
  rcases given_or_not .inputPartitions tb.opts with ⟨x, hx⟩ | hn
  · rw [(C44_given _ _ _ hx).2.1]
    have hx' := hx
    obtain ⟨v, _, hd⟩ := hx
    obtain ⟨n, rfl⟩ : ∃ n, x = .uinteger n := by
      unfold Denotes kindOf at hd
      obtain ⟨n, _, h⟩ := hd
      exact ⟨_, h.2.2.2⟩
    exact ⟨n, rfl, .inl ⟨_, hx', rfl⟩⟩
  · rw [((C44_default _ _ hn).2.1 _ rfl).1]
    exact ⟨0, rfl, .inr ⟨hn, rfl⟩⟩

/-- The outcome of a scan, through any table handle: the files of the file slices for the translated
filters, divided into at most as many groups as asked for. -/
theorem scan_ok {E : Env} {A : Arrow} {U : Str → Option Str} {D : Str → Str} {tb : Table} {t : Tree}
    {es : List Expr} {c : Cache} {gs : List (List ScanFile)}
    (h : (tb.scan E A U D t es c).2 = .ok gs) :
    ∃ ss base n, (tb.fileSlices E A t (exprsToFilters D es) c).2 = .ok ss ∧
      tb.baseUrlPath U = .ok base ∧ AskedPartitions tb.opts n ∧
      Division n (ss.map (partitionedFile base)) gs := by
  unfold Table.scan at h
  obtain ⟨n, h1, h⟩ := Query.bind_lift_snd.1 h
  obtain ⟨n', h1', hn⟩ := inputPartitions_eq tb
  rw [h1] at h1'; cases h1'
  cases hq : tb.fileSlices E A t (exprsToFilters D es) c with
  | mk c' r =>
    have hsp := C32_splits E A tb t n (exprsToFilters D es) c c' r hq
    cases r with
    | err e =>
      have := hsp.2.1 e rfl
      obtain ⟨sp, hs1, _⟩ := Query.bind_snd.1 h
      rw [this] at hs1; cases hs1
    | panic =>
      have := hsp.2.2 rfl
      obtain ⟨sp, hs1, _⟩ := Query.bind_snd.1 h
      rw [this] at hs1; cases hs1
    | ok ss =>
      obtain ⟨sp, hs1, hdiv, _⟩ := hsp.1 ss rfl
      obtain ⟨sp', hs1', h⟩ := Query.bind_snd.1 h
      rw [hs1] at hs1' h
      cases hs1'
      obtain ⟨base, hb, h⟩ := Query.bind_lift_snd.1 h
      cases h
      refine ⟨ss, base, n, rfl, hb, hn, ?_, by simpa using hdiv.count, ?_, ?_⟩
      · rw [← List.map_flatten, hdiv.whole]
      · intro s hs
        obtain ⟨s', hs', rfl⟩ := List.mem_map.1 hs
        have := hdiv.nonempty s' hs'
        simpa using this
      · obtain ⟨k, hk1, hk2⟩ := hdiv.balanced
        refine ⟨k, ?_, ?_⟩
        · intro s hs
          rw [← List.map_dropLast] at hs
          obtain ⟨s', hs', rfl⟩ := List.mem_map.1 hs
          simpa using hk1 s' hs'
        · intro s hs
          obtain ⟨s', hs', rfl⟩ := List.mem_map.1 hs
          simpa using hk2 s' hs'

/-- **C47 (partial).**  A scan through a fresh handle hands the engine the base file of each file slice
of the latest snapshot, exactly once, under the name by which the storage knows it, in at most as many
groups as asked for, none of them empty.  What is missing: names with characters that are
percent-encoded (`C47_false`); rows in log files (`C53_false`). -/
theorem C47_each_base_file_once_partial (E : Env) (A : Arrow) (U : Str → Option Str) (D : Str → Str)
    (tb : Table) (t : Tree) (hwf : TreeWF t)
    (hone : ∀ x, PartitionOf tb.opts t x → OneExtension (filesOf t x))
    (hplain : PlainTable tb.opts t) (base : Str) (ds : List Str)
    (hbase : tb.baseUrlPath U = .ok base) (hpb : PlainBase base ds) (es : List Expr)
    (gs : List (List ScanFile)) (h : (tb.scan E A U D t es []).2 = .ok gs) :
    ∃ ss n, (tb.fileSlices E A t (exprsToFilters D es) []).2 = .ok ss ∧
      gs.flatten.map (fun f => Res.ok f.path) = ss.map (fun s => storageKey base s.basePath) ∧
      (gs.flatten.map ScanFile.path).Nodup ∧
      AskedPartitions tb.opts n ∧ gs.length ≤ max 1 n ∧ (∀ g ∈ gs, g ≠ []) := by
  obtain ⟨ss, base', n, h1, h2, h3, h4⟩ := scan_ok h
  rw [hbase] at h2; cases h2
  have hsnap : ss = [] ∨ ∃ ts, ∃ (q : Str → Prop) (r : Str → Str → Prop),
      SnapshotOf t (fun x => PartitionOf tb.opts t x ∧ q x) r ts ss := by
    unfold Table.fileSlices at h1
    cases hl : tb.timeline.latestTimestamp with
    | some ts =>
      rw [hl] at h1
      obtain ⟨fs, _, h1⟩ := Query.bind_lift_snd.1 h1
      obtain ⟨excl, schema, p, _, _, _, hv⟩ := fileSlicesInternal_ok.1 h1
      exact .inr ⟨_, _, _, view_snapshot hwf hone hv⟩
    | none => rw [hl] at h1; cases h1; exact .inl rfl
  have hkey : ∀ s ∈ ss, storageKey base s.basePath = .ok (partitionedFile base s).path ∧
      ∃ ns, ns ≠ [] ∧ (∀ n ∈ ns, NormalName n) ∧ s.basePath = joinWith '/' ns ∧
        (partitionedFile base s).path = joinWith '/' (ds ++ ns) := by
    intro s hs
    rcases hsnap with rfl | ⟨ts, q, r, hsn⟩
    · cases hs
    obtain ⟨⟨hp, _⟩, _, b, m, hb, he⟩ := hsn.sound s hs
    obtain ⟨ns, hx, hseg, hns, hfn, hpush, f, hf, hsub⟩ := slice_path hwf hp hb
    have e1 : s.basePath = joinWith '/' (ns ++ [b.fileName]) := by
      unfold FileSlice.basePath FileSlice.relativePathFor
      rw [he]; exact hpush
    have hpl : ∀ n ∈ ns ++ [b.fileName], PlainName n := by
      intro n hn
      obtain ⟨p1, p2⟩ := hplain _ hp
      rcases List.mem_append.1 hn with hn | hn
      · exact p1 n (hseg ▸ hn)
      · rw [List.mem_singleton.1 hn]
        exact ⟨hfn, fun c hc => (p2 f hf).2 c (hsub c hc)⟩
    have e2 : (partitionedFile base s).path = joinWith '/' (ds ++ (ns ++ [b.fileName])) := by
      unfold partitionedFile
      rw [e1]
      exact objPathFrom_plain hpb (by simp) hpl
    refine ⟨?_, _, by simp, fun n hn => (hpl n hn).1, e1, e2⟩
    rw [e2, e1]
    exact C54_files_are_looked_up_under_their_names_partial base ds _ (plainBase_baseDir hpb) (by simp)
      (fun n hn => (hpl n hn).1)
  refine ⟨ss, n, h1, ?_, ?_, h3, h4.count, h4.nonempty⟩
  · rw [h4.whole, List.map_map]
    exact List.map_congr_left (fun s hs => ((hkey s hs).1).symm)
  · rw [h4.whole, List.map_map]
    have hnd : (ss.map FileSlice.basePath).Nodup := by
      rcases hsnap with rfl | ⟨ts, q, r, hsn⟩
      · exact List.nodup_nil
      · exact snapshot_paths_nodup hwf hsn
    refine pairwise_of_map_nodup hnd ?_
    intro a ha b hb he
    obtain ⟨_, ns, n1, n2, n3, n4⟩ := hkey a ha
    obtain ⟨_, ns', m1, m2, m3, m4⟩ := hkey b hb
    have he : (partitionedFile base a).path = (partitionedFile base b).path := he
    rw [n4, m4] at he
    have hs := congrArg (splitAll '/') he
    rw [splitAll_joinWith (by simp [n1]) (fun p hp => by
        rcases List.mem_append.1 hp with hp | hp
        · exact (hpb.1 p hp).1.2.1
        · exact (n2 p hp).2.1),
      splitAll_joinWith (by simp [m1]) (fun p hp => by
        rcases List.mem_append.1 hp with hp | hp
        · exact (hpb.1 p hp).1.2.1
        · exact (m2 p hp).2.1)] at hs
    rw [n3, m3, List.append_cancel_left hs]

/-- A read whose slices are all read from their base files alone. -/
theorem readSnapshot_bases {E : Env} {A : Arrow} {C : Codec} {M : MergeEnv A} {tb : Table} {t : Tree}
    (hp : PlainStorage tb) (hstart : startOf tb.opts = none) {filters : List (Str × Str × Str)}
    {ss : List FileSlice} (hss : (tb.fileSlices E A t filters []).2 = .ok ss)
    {content : FileSlice → Batch}
    (hfiles : ∀ s ∈ ss, (s.logFiles = [] ∨ ReadOptimized tb.opts) ∧ ParquetAt t s.basePath (content s)) :
    (tb.readSnapshot E A C M t filters []).2 = .ok (ss.map content) := by
  unfold Table.fileSlices at hss
  unfold Table.readSnapshot
  cases hl : tb.timeline.latestTimestamp with
  | none => rw [hl] at hss; cases hss; rfl
  | some ts =>
    rw [hl] at hss
    obtain ⟨fs, hf, hss⟩ := Query.bind_lift_snd.1 hss
    refine Query.bind_lift_snd.2 ⟨fs, hf, ?_⟩
    unfold Table.readSnapshotInternal
    rw [Query.bind_snd]
    refine ⟨ss, hss, ?_⟩
    have hget := hmGet_readerOpts hp [(Cfg.fileGroupEndTimestamp.key, ts)]
      (by intro e he; rw [List.mem_singleton.1 he]; rfl)
    show Res.mapL _ ss = _
    have hs' : startOf (tb.readerOpts [(Cfg.fileGroupEndTimestamp.key, ts)]) = none := by
      unfold startOf at hstart ⊢
      rw [hget]
      simp only [List.reverse_singleton, hmGet]
      rw [if_neg (by decide)]
      exact hstart
    rw [Res.mapL_ok_iff, List.map_map]
    refine List.map_congr_left fun s hs => ?_
    obtain ⟨hlog, hat⟩ := hfiles s hs
    refine C40_base_file_only C A M E.ltz _ t s _ hat hs' (hlog.imp_right fun hro => ?_)
    unfold ReadOptimized at hro ⊢
    rw [hget]
    simp only [List.reverse_singleton, hmGet]
    rw [if_neg (by decide)]
    exact hro

/-- **C53 (partial).**  When the file slices of the latest snapshot have no log files, or the table is read
in read-optimized mode, the files handed to the engine are, in order, those whose rows the table's own
reader returns for the same filters.  What is missing: slices with log files in the other mode
(`C53_false`) and, as for C47, names that are percent-encoded. -/
theorem C53_engine_reads_what_the_reader_returns_partial (E : Env) (A : Arrow) (C : Codec)
    (M : MergeEnv A) (U : Str → Option Str) (D : Str → Str)
    (tb : Table) (t : Tree) (hwf : TreeWF t)
    (hone : ∀ x, PartitionOf tb.opts t x → OneExtension (filesOf t x))
    (hplain : PlainTable tb.opts t) (base : Str) (ds : List Str)
    (hbase : tb.baseUrlPath U = .ok base) (hpb : PlainBase base ds)
    (hp : PlainStorage tb) (hstart : startOf tb.opts = none) (es : List Expr)
    (gs : List (List ScanFile)) (h : (tb.scan E A U D t es []).2 = .ok gs)
    (ss : List FileSlice) (hss : (tb.fileSlices E A t (exprsToFilters D es) []).2 = .ok ss)
    (content : FileSlice → Batch)
    (hfiles : ∀ s ∈ ss, (s.logFiles = [] ∨ ReadOptimized tb.opts) ∧ ParquetAt t s.basePath (content s)) :
    ∃ outs, (tb.readSnapshot E A C M t (exprsToFilters D es) []).2 = .ok outs ∧
      List.Forall₂ (fun f b => ∃ rel, storageKey base rel = .ok f.path ∧ ParquetAt t rel b)
        gs.flatten outs := by
  obtain ⟨ss', n, h1, h2, _⟩ := C47_each_base_file_once_partial E A U D tb t hwf hone hplain base ds
    hbase hpb es gs h
  rw [hss] at h1; cases h1
  have hread := readSnapshot_bases (C := C) (M := M) hp hstart hss hfiles
  refine ⟨_, hread, ?_⟩
  have hlen : gs.flatten.length = ss.length := by
    have := congrArg List.length h2
    rwa [List.length_map, List.length_map] at this
  refine List.forall₂_iff_get.2 ⟨by simp [hlen], fun i hi hj => ?_⟩
  have hi' : i < ss.length := by simpa using hj
  have := congrArg (fun l => l[i]?) h2
  simp only [List.getElem?_map, List.getElem?_eq_getElem hi, List.getElem?_eq_getElem hi',
    Option.map_some, Option.some.injEq] at this
  exact ⟨ss[i].basePath, this.symm, by simpa using (hfiles ss[i] (List.getElem_mem hi')).2⟩

/-- **C55.**  In a `CREATE EXTERNAL TABLE` command the options of the command win over those of the
session; an option of the session counts unless it is empty. -/
theorem C55_command_options_win (session : List (Str × Option Str)) (cmd : Opts) (hc : HmNodup cmd)
    (hs : (session.map Prod.fst).Nodup) (k : Str) :
    (∀ v, hmGet k cmd = some v → hmGet k (factoryOptions session cmd) = some v) ∧
    (hmGet k cmd = none → ∀ v, hmGet k (factoryOptions session cmd) = some v ↔
      (k, some v) ∈ session ∧ v ≠ []) := by
  have hget : hmGet k (factoryOptions session cmd) = (hmGet k cmd).or (hmGet k (hmOfList
      (session.filterMap (fun e => (e.2.filter (fun v => !v.isEmpty)).map (fun v => (e.1, v)))))) := by
    unfold factoryOptions
    rw [hmGet_hmExtend, hmGet_reverse_of_nodup hc]
  refine ⟨fun v hv => by rw [hget, hv]; rfl, fun hn v => ?_⟩
  have hnd : HmNodup (session.filterMap
      (fun e => (e.2.filter (fun v => !v.isEmpty)).map (fun v => (e.1, v)))) := by
    unfold HmNodup
    refine List.Sublist.nodup ?_ hs
    clear hget hn hs
    induction session with
    | nil => exact .slnil
    | cons e es ih =>
      rw [List.filterMap_cons, List.map_cons]
      rcases e with ⟨k', _ | v'⟩
      · exact ih.cons _
      · by_cases hv : v'.isEmpty
        · simp only [Option.filter, hv]; exact ih.cons _
        · simp only [Option.filter, hv]; exact ih.cons₂ _
  rw [hget, hn, Option.none_or, hmGet_hmOfList_of_nodup hnd, List.mem_filterMap]
  constructor
  · rintro ⟨⟨k', o⟩, hm, he⟩
    obtain ⟨v', hv', he⟩ := Option.map_eq_some_iff.1 he
    obtain ⟨h1, h2⟩ := Option.filter_eq_some_iff.1 hv'
    cases he
    simp only at h1
    subst h1
    exact ⟨hm, by simpa using h2⟩
  · rintro ⟨hm, hv⟩
    exact ⟨(k, some v), hm, by cases v <;> simp_all [Option.filter]⟩

/-- The command's region wins over the session's; the session's endpoint is kept, its empty key is
not. -/
example : let o := factoryOptions [(c!"aws_region", some c!"us"), (c!"aws_endpoint", some c!"e"),
      (c!"aws_key", some []), (c!"x", none)] [(c!"aws_region", c!"eu")]
    hmGet c!"aws_region" o = some c!"eu" ∧ hmGet c!"aws_endpoint" o = some c!"e" ∧
    hmGet c!"aws_key" o = none ∧ hmGet c!"x" o = none := by decide

end Hudi
