import Verif.Spec.Racing
import Verif.Lemmas.Answers
import Verif.Lemmas.Schema
import Verif.Props.TimeTravel

/-! # Lemmas: reading while the table is written -/

namespace Hudi
open Spec

/-! ## A race in which nothing happens -/

theorem leafDirsR_still (n : Nat) (t : Tree) (x : Str) : leafDirsR n (Race.still t) x = leafDirs n t x := by
  induction n generalizing x with
  | zero => rfl
  | succ n ih =>
    unfold leafDirsR leafDirs
    simp only [Race.still] at ih ⊢
    split
    · rename_i h; rw [h]
    · rename_i h
      split
      · rename_i h'; exact absurd h' h
      · simp only [ih]

theorem relevantPartitionsR_still (A : Arrow) (o : Opts) (t : Tree) (p : Pruner) :
    relevantPartitionsR A o (t.height + 1) (Race.still t) p = relevantPartitions A o t p := by
  unfold relevantPartitionsR relevantPartitions
  have : leafDirsR (t.height + 1) (Race.still t) = leafDirs (t.height + 1) t := by
    funext x; exact leafDirsR_still _ t x
  rw [this]
  rfl

theorem listRelevantR_still (A : Arrow) (o : Opts) (t : Tree) (p : Pruner) :
    listRelevantR A o (t.height + 1) (Race.still t) p = listRelevant A o t p := by
  unfold listRelevantR listRelevant
  rw [relevantPartitionsR_still]
  rfl

theorem pickGroupR_still (t : Tree) (ts : Str) (excl : List FileGroup) (g : FileGroup) :
    pickGroupR (Race.still t) ts excl g = pickGroup t ts excl g := by
  unfold pickGroupR pickGroup collectGroup
  split
  · rfl
  · cases mapLastLe ts g.slices with
    | none => rfl
    | some e =>
      simp only [Race.still]
      cases e.2.loadMetadata t <;> rfl

theorem viewSlicesAsOfR_still (A : Arrow) (o : Opts) (t : Tree) (ts : Str) (p : Pruner)
    (excl : List FileGroup) : viewSlicesAsOfR A o (t.height + 1) (Race.still t) ts p excl =
      (viewSlicesAsOf A o t ts p excl []).2 := by
  unfold viewSlicesAsOfR viewSlicesAsOf loadFileGroups
  rw [listRelevantR_still]
  have : pickGroupR (Race.still t) ts excl = pickGroup t ts excl := by
    funext g; exact pickGroupR_still t ts excl g
  rw [this]
  cases listRelevant A o t p with
  | ok m => simp only [Res.ok_bind, Res.pure_eq, collectSlices_eq]
  | err e => rfl
  | panic => rfl

theorem Query.bind_lift_snd_eq {α β : Type} (r : Res α) (f : α → Query β) (c : Cache) :
    ((Query.lift r >>= f) c).2 = (do let a ← r; (f a c).2) := by
  cases r <;> rfl

theorem partitionSchemaR_eq (tb : Table) (R : Race) : tb.partitionSchemaR R = (do
    let fields ← partitionFieldsOf tb.opts
    let schema ← (do schemaOfCommit R.schema (← tb.timeline.latestMetadata R.latest) : Res Schema)
    return schema.filter (fun f => fields.contains f.name)) := by
  unfold Table.partitionSchemaR
  cases partitionFieldsOf tb.opts <;> cases tb.timeline.latestMetadata R.latest <;> rfl

theorem fileSlicesInternalR_still (E : Env) (A : Arrow) (tb : Table) (t : Tree) (ts : Str)
    (fs : List Filter) : tb.fileSlicesInternalR E A (t.height + 1) (Race.still t) ts fs =
      (tb.fileSlicesInternal E A t ts fs []).2 := by
  unfold Table.fileSlicesInternalR Table.fileSlicesInternal
  simp only [Query.bind_lift_snd_eq, viewSlicesAsOfR_still, partitionSchemaR_eq]
  rfl

/-- If the store does not change, the read is the one of the other modules. -/
theorem readSnapshotAsOfR_still (E : Env) (A : Arrow) (C : Codec) (M : MergeEnv A) (tb : Table) (t : Tree)
    (ts : Str) (filters : List (Str × Str × Str)) :
    tb.readSnapshotAsOfR E A C M (t.height + 1) (Race.still t) ts filters =
      (tb.readSnapshotAsOf E A C M t ts filters []).2 := by
  have hslice : ∀ o, readFileSliceR C A M E.ltz o (Race.still t) = readFileSlice C A M E.ltz o t := fun o => rfl
  unfold Table.readSnapshotAsOfR Table.readSnapshotAsOf
  rw [Query.bind_lift_snd_eq]
  congr 1
  funext fs
  unfold Table.readSnapshotInternalR Table.readSnapshotInternal
  rw [fileSlicesInternalR_still]
  simp only [hslice]
  show _ = (Query.bind _ _ []).2
  unfold Query.bind
  rcases h : tb.fileSlicesInternal E A t ts fs [] with ⟨c, r⟩
  cases r <;> rfl

/-! ## Partition discovery -/

theorem flatten_nodup {α κ β : Type} {f : κ → Res (List α)} {key : α → β} {kd : κ → β} {ds : List κ}
    {ls : List (List α)} (h : Res.mapL f ds = .ok ls) (hd : (ds.map kd).Nodup)
    (hone : ∀ d ∈ ds, ∀ l, f d = .ok l → l.Nodup ∧ ∀ x ∈ l, key x = kd d) : ls.flatten.Nodup := by
  induction ds generalizing ls with
  | nil => cases h; exact List.nodup_nil
  | cons d ds ih =>
    obtain ⟨l, ls', h1, h2, rfl⟩ := Res.mapL_cons_ok.1 h
    rw [List.map_cons, List.nodup_cons] at hd
    have hd' := hone d (by simp) l h1
    have hone' := fun d' (hd' : d' ∈ ds) => hone d' (by simp [hd'])
    rw [List.flatten_cons]
    refine List.nodup_append.2 ⟨hd'.1, ih h2 hd.2 hone', ?_⟩
    intro a ha b hb hab
    subst hab
    obtain ⟨l', hl', hb⟩ := List.mem_flatten.1 hb
    obtain ⟨d', hdm, hf⟩ := (Res.mapL_mem h2 l').1 hl'
    have e := (hone' d' hdm l' hf).2 a hb
    rw [hd'.2 a ha] at e
    exact hd.1 (e ▸ List.mem_map.2 ⟨d', hdm, rfl⟩)

theorem isDir_append {p q : List Str} {t : Tree} (h : IsDir (p ++ q) t) : IsDir q (t.at p) := by
  induction p generalizing t with
  | nil => exact h
  | cons n p ih => exact ih h.2

theorem dirs_nodup {t : Tree} (h : TreeWF t) : t.dirs.Nodup := by
  induction t with
  | nil => exact List.nodup_nil
  | file n s c rest ih => exact ih h.2.2
  | dir n sub rest _ ih =>
    exact List.nodup_cons.2 ⟨fun hc => h.2.1 (dirs_sub_names n hc), ih h.2.2.2⟩

theorem leafDirsR_spec {R : Race} (hwf : ∀ x, TreeWF (R.dirs x)) (n : Nat) (ns : List Str) (hn : ns ≠ [])
    (hns : ∀ m ∈ ns, NormalName m) {l : List Str} (h : leafDirsR n R (joinWith '/' ns) = .ok l) :
    l.Nodup ∧ (∀ x ∈ l, ∃ q, (∀ m ∈ q, NormalName m) ∧ x = joinWith '/' (ns ++ q)) ∧
    ∀ q, (∀ y, LeafDir (ns ++ q) (R.dirs y)) → joinWith '/' (ns ++ q) ∈ l := by
  induction n generalizing ns l with
  | zero => cases h
  | succ n ih =>
    unfold leafDirsR at h
    generalize hu : R.dirs (joinWith '/' ns) = u at h
    have hwu : TreeWF u := hu ▸ hwf _
    have hseg : listDirs u (joinWith '/' ns) = (u.at ns).dirs := by
      unfold listDirs; rw [pathSegs_joinWith hns]
    rw [hseg] at h
    have hdn : ∀ d ∈ (u.at ns).dirs, NormalName d := (hwu.at ns).dirs_normal
    split at h
    · rename_i hnil
      cases h
      refine ⟨List.nodup_singleton _, ?_, ?_⟩
      · intro x hx
        exact ⟨[], by simp, by rw [List.mem_singleton.1 hx, List.append_nil]⟩
      · intro q hq
        have := isDir_append (hu ▸ (hq (joinWith '/' ns)).1)
        cases q with
        | nil => simp
        | cons d q => exact absurd this.1 (by rw [hnil]; simp)
    · rename_i hne
      obtain ⟨ls, h1, h2⟩ := Res.bind_eq_ok.1 h
      cases h2
      have hsub : ∀ d ∈ (u.at ns).dirs, ∀ l, leafDirsR n R (pathPush (joinWith '/' ns) d) = .ok l →
          l.Nodup ∧ (∀ x ∈ l, ∃ q, (∀ m ∈ q, NormalName m) ∧ x = joinWith '/' (ns ++ [d] ++ q)) ∧
          ∀ q, (∀ y, LeafDir (ns ++ [d] ++ q) (R.dirs y)) → joinWith '/' (ns ++ [d] ++ q) ∈ l := by
        intro d hd l hl
        rw [pathPush_join hn hns (hdn d hd)] at hl
        refine ih (ns ++ [d]) (by simp) ?_ hl
        intro m hm
        rcases List.mem_append.1 hm with hm | hm
        · exact hns m hm
        · rw [List.mem_singleton.1 hm]; exact hdn d hd
      refine ⟨?_, ?_, ?_⟩
      · refine flatten_nodup (key := fun x => (pathSegs x)[ns.length]?) (kd := some) h1
          ((dirs_nodup (hwu.at ns)).map (fun a b e => Option.some.inj e)) ?_
        intro d hd l hl
        obtain ⟨a1, a2, _⟩ := hsub d hd l hl
        refine ⟨a1, fun x hx => ?_⟩
        obtain ⟨q, hq, rfl⟩ := a2 x hx
        rw [pathSegs_joinWith (by
          intro m hm
          rcases List.mem_append.1 hm with hm | hm
          · rcases List.mem_append.1 hm with hm | hm
            · exact hns m hm
            · rw [List.mem_singleton.1 hm]; exact hdn d hd
          · exact hq m hm)]
        simp
      · intro x hx
        obtain ⟨l, hl, hx⟩ := List.mem_flatten.1 hx
        obtain ⟨d, hd, hf⟩ := (Res.mapL_mem h1 l).1 hl
        obtain ⟨q, hq, rfl⟩ := (hsub d hd l hf).2.1 x hx
        refine ⟨d :: q, ?_, by simp⟩
        intro m hm
        rcases List.mem_cons.1 hm with rfl | hm
        · exact hdn _ hd
        · exact hq m hm
      · intro q hq
        have hl := hu ▸ hq (joinWith '/' ns)
        have hdir := isDir_append hl.1
        cases q with
        | nil =>
          exfalso
          apply hne
          have := hl.2
          rwa [List.append_nil] at this
        | cons d q =>
          obtain ⟨l, hf, hl⟩ := Res.mapL_ok_mem h1 d hdir.1
          have := (hsub d hdir.1 l hf).2.2 q (fun y => by simpa using hq y)
          exact List.mem_flatten.2 ⟨l, hl, by simpa using this⟩

theorem listWithPathR_keys {o : Opts} {R : Race} {paths : List Str} {es : Cache}
    (h : Res.mapL (listWithPathR o R) paths = .ok es) : es.map Prod.fst = paths := by
  induction paths generalizing es with
  | nil => cases h; rfl
  | cons x xs ih =>
    obtain ⟨y, ys, a1, a2, rfl⟩ := Res.mapL_cons_ok.1 h
    obtain ⟨gs, _, rfl⟩ := listWithPath_ok.1 a1
    rw [List.map_cons, ih a2]

/-- The partitions a read discovers while directories come and go: each path once; only paths at which a
partition can be; and every partition that was there all the time. -/
theorem listRelevantR_found {A : Arrow} {o : Opts} {depth : Nat} {R : Race} {p : Pruner} {m : Cache} {P : Str → Prop}
    (hwf : ∀ x, TreeWF (R.dirs x)) (hpart : ∀ x, P x → ∀ y, PartitionOf o (R.dirs y) x)
    (hm : listRelevantR A o depth R p = .ok m) : HmNodup m ∧ ∃ Found : Str → Prop,
      (∀ x, P x → Found x) ∧ (∀ x, Found x → PartitionPath o x) ∧
      (∀ x gs, hmGet x m = some gs ↔ Found x ∧
        (Partitioned o → p.shouldInclude A x = true) ∧ listFileGroups o (R.files x) x = .ok gs) ∧
      ∀ x, Found x → (Partitioned o → p.shouldInclude A x = true) →
        ∃ gs, listFileGroups o (R.files x) x = .ok gs := by
  unfold listRelevantR at hm
  rw [isTablePartitioned_eq] at hm
  simp only [Res.ok_bind] at hm
  by_cases hp : Partitioned o
  · simp only [hp, decide_true, Bool.true_eq_false, if_false] at hm
    obtain ⟨paths, h1, hm⟩ := Res.bind_eq_ok.1 hm
    obtain ⟨par, _, hm⟩ := Res.bind_eq_ok.1 hm
    split at hm
    · cases hm
    obtain ⟨es, h4, h5⟩ := Res.bind_eq_ok.1 hm
    cases h5
    unfold relevantPartitionsR at h1
    rw [isTablePartitioned_eq] at h1
    simp only [Res.ok_bind, hp, decide_true, Bool.true_eq_false, if_false] at h1
    obtain ⟨ls, h2, h3⟩ := Res.bind_eq_ok.1 h1
    have hdn : ∀ d ∈ listDirs (R.dirs []) [], NormalName d := (hwf []).dirs_normal
    have htop : ∀ d ∈ (listDirs (R.dirs []) []).filter (fun d => !lakeFormatMetadataDirs.contains d), ∀ l,
        leafDirsR depth R d = .ok l → l.Nodup ∧
        (∀ x ∈ l, ∃ q, (∀ m ∈ q, NormalName m) ∧ x = joinWith '/' (d :: q)) ∧
        ∀ q, (∀ y, LeafDir (d :: q) (R.dirs y)) → joinWith '/' (d :: q) ∈ l := by
      intro d hd l hl
      exact leafDirsR_spec hwf depth [d] (by simp) (by simpa using hdn d (List.mem_filter.1 hd).1) hl
    have hnd : ls.flatten.Nodup := by
      refine flatten_nodup (key := fun x => (pathSegs x)[0]?) (kd := some) h2
        (((dirs_nodup (hwf [])).filter _).map (fun a b e => Option.some.inj e)) ?_
      intro d hd l hl
      obtain ⟨a1, a2, _⟩ := htop d hd l hl
      refine ⟨a1, fun x hx => ?_⟩
      obtain ⟨q, hq, rfl⟩ := a2 x hx
      rw [pathSegs_joinWith (by
        intro m hm
        rcases List.mem_cons.1 hm with rfl | hm
        · exact hdn _ (List.mem_filter.1 hd).1
        · exact hq m hm)]
      simp
    have hmeta : ∀ d : Str, (!lakeFormatMetadataDirs.contains d) = true ↔ d ∉ metadataDirs := by
      intro d; simp [lakeFormatMetadataDirs, metadataDirs]
    have hpaths : paths.Nodup ∧ ∀ x, x ∈ paths ↔ x ∈ ls.flatten ∧ p.shouldInclude A x = true := by
      split at h3
      · rename_i hc
        cases h3
        refine ⟨hnd, fun x => ⟨fun hx => ⟨hx, ?_⟩, fun hx => hx.1⟩⟩
        rcases Bool.or_eq_true_iff.1 hc with hc | hc
        · have : ls.flatten = [] := by simpa using hc
          rw [this] at hx; cases hx
        · exact include_of_isEmpty hc x
      · cases h3
        exact ⟨hnd.filter _, fun x => List.mem_filter⟩
    have hkeys := listWithPathR_keys h4
    have hn : HmNodup es := by unfold HmNodup; rw [hkeys]; exact hpaths.1
    rw [hmOfList_eq hn]
    refine ⟨hn, fun x => x ∈ ls.flatten, ?_, ?_, ?_, ?_⟩
    · intro x hx
      rcases hpart x hx [] with hc | ⟨_, n, ns, hl, hmd, rfl⟩
      · exact absurd hp hc.1
      have hd : n ∈ (listDirs (R.dirs []) []).filter (fun d => !lakeFormatMetadataDirs.contains d) :=
        List.mem_filter.2 ⟨hl.1.1, (hmeta n).2 hmd⟩
      obtain ⟨l, hf, hl'⟩ := Res.mapL_ok_mem h2 n hd
      refine List.mem_flatten.2 ⟨l, hl', (htop n hd l hf).2.2 ns (fun y => ?_)⟩
      rcases hpart _ hx y with hc | ⟨_, n', ns', hl2, _, he⟩
      · exact absurd hp hc.1
      have := congrArg pathSegs he
      rw [pathSegs_joinWith (isDir_normal (hwf _) hl.1), pathSegs_joinWith (isDir_normal (hwf _) hl2.1)] at this
      rw [this]; exact hl2
    · intro x hx
      obtain ⟨l, hl, hx⟩ := List.mem_flatten.1 hx
      obtain ⟨d, hd, hf⟩ := (Res.mapL_mem h2 l).1 hl
      obtain ⟨q, hq, rfl⟩ := (htop d hd l hf).2.1 x hx
      refine .inr ⟨hp, d, q, ?_, (hmeta d).1 (List.mem_filter.1 hd).2, rfl⟩
      intro m hm
      rcases List.mem_cons.1 hm with rfl | hm
      · exact hdn _ (List.mem_filter.1 hd).1
      · exact hq m hm
    · intro x gs
      rw [hmGet_eq_some hn, Res.mapL_mem h4]
      constructor
      · rintro ⟨y, hy, hl⟩
        obtain ⟨gs', e1, e2⟩ := listWithPath_ok.1 hl
        cases e2
        exact ⟨((hpaths.2 x).1 hy).1, fun _ => ((hpaths.2 x).1 hy).2, e1⟩
      · rintro ⟨a1, a2, a3⟩
        exact ⟨x, (hpaths.2 x).2 ⟨a1, a2 hp⟩, listWithPath_ok.2 ⟨gs, a3, rfl⟩⟩
    · intro x hx hi
      obtain ⟨e, he, _⟩ := Res.mapL_ok_mem h4 x ((hpaths.2 x).2 ⟨hx, hi hp⟩)
      obtain ⟨gs, hg, _⟩ := listWithPath_ok.1 he
      exact ⟨gs, hg⟩
  · simp only [hp, decide_false, if_true] at hm
    obtain ⟨gs, h1, h2⟩ := Res.bind_eq_ok.1 hm
    cases h2
    refine ⟨by simp [HmNodup], fun x => x = [], ?_, ?_, ?_, ?_⟩
    · intro x hx
      rcases hpart x hx [] with hx | hx
      · exact hx.2
      · exact absurd hx.1 hp
    · rintro x rfl
      exact .inl ⟨hp, rfl⟩
    · intro x gs'
      simp only [hmGet, hp, false_implies, true_and]
      by_cases hx : x = []
      · subst hx; simp [h1]
      · simp [hx]
    · rintro x rfl _
      exact ⟨gs, h1⟩

theorem listRelevantR_ok {A : Arrow} {o : Opts} {depth : Nat} {R : Race} {p : Pruner} {m : Cache} {t : Tree}
    (hwf : ∀ x, TreeWF (R.dirs x)) (hpart : ∀ x, PartitionOf o t x → ∀ y, PartitionOf o (R.dirs y) x)
    (hm : listRelevantR A o depth R p = .ok m) : HmNodup m ∧ ∃ Found : Str → Prop,
      (∀ x, PartitionOf o t x → Found x) ∧ (∀ x, Found x → PartitionPath o x) ∧
      (∀ x gs, hmGet x m = some gs ↔ Found x ∧
        (Partitioned o → p.shouldInclude A x = true) ∧ listFileGroups o (R.files x) x = .ok gs) ∧
      ∀ x, Found x → (Partitioned o → p.shouldInclude A x = true) →
        ∃ gs, listFileGroups o (R.files x) x = .ok gs :=
  listRelevantR_found hwf hpart hm

/-! ## The slices -/

theorem mem_includedR {A : Arrow} {o : Opts} {R : Race} {p : Pruner} {m : Cache} {Found : Str → Prop}
    (hn : HmNodup m) (h1 : ∀ x gs, hmGet x m = some gs ↔ Found x ∧
      (Partitioned o → p.shouldInclude A x = true) ∧ listFileGroups o (R.files x) x = .ok gs)
    (g : FileGroup) :
    g ∈ included A p m ↔ ∃ x gs, Found x ∧ p.shouldInclude A x = true ∧
      listFileGroups o (R.files x) x = .ok gs ∧ g ∈ gs := by
  unfold included
  simp only [List.mem_flatMap, List.mem_filter, Prod.exists]
  constructor
  · rintro ⟨x, gs, ⟨hx, hi⟩, hg⟩
    obtain ⟨a1, a2, a3⟩ := (h1 x gs).1 ((hmGet_eq_some hn).2 hx)
    exact ⟨x, gs, a1, hi, a3, hg⟩
  · rintro ⟨x, gs, a1, hi, a3, hg⟩
    exact ⟨x, gs, ⟨(hmGet_eq_some hn).1 ((h1 x gs).2 ⟨a1, fun _ => hi, a3⟩), hi⟩, hg⟩

theorem includedR_nodup {A : Arrow} {o : Opts} {R : Race} {p : Pruner} {m : Cache} {Found : Str → Prop}
    (hwf : ∀ x, Found x → TreeWF (R.files x)) (hn : HmNodup m) (h1 : ∀ x gs, hmGet x m = some gs ↔ Found x ∧
      (Partitioned o → p.shouldInclude A x = true) ∧ listFileGroups o (R.files x) x = .ok gs) :
    ((included A p m).map (fun g => (g.partitionPath, g.fileId))).Nodup := by
  unfold included
  rw [List.map_flatMap, List.nodup_flatMap]
  have hentry : ∀ e ∈ m.filter (fun e => p.shouldInclude A e.1),
      (e.2.map FileGroup.fileId).Nodup ∧ ∀ g ∈ e.2, g.partitionPath = e.1 := by
    rintro ⟨x, gs⟩ he
    obtain ⟨a1, a2, a3⟩ := (h1 x gs).1 ((hmGet_eq_some hn).2 (List.mem_filter.1 he).1)
    obtain ⟨b1, b2, _⟩ := listFileGroups_spec ((hwf x a1).at (pathSegs x)).files_nodup a3
    exact ⟨b1, fun g hg => (b2 g hg).1⟩
  constructor
  · intro e he
    have := (hentry e he).1
    refine List.Nodup.of_map Prod.snd ?_
    rw [List.map_map]
    exact this
  · have hsub : ((m.filter (fun e => p.shouldInclude A e.1)).map Prod.fst).Nodup :=
      List.Nodup.sublist (List.Sublist.map _ List.filter_sublist) hn
    rw [List.Nodup, List.pairwise_map] at hsub
    refine List.Pairwise.imp_of_mem ?_ hsub
    intro a b ha hb hab
    simp only [Function.onFun]
    rw [List.disjoint_left]
    intro y hy hy'
    obtain ⟨g, hg, rfl⟩ := List.mem_map.1 hy
    obtain ⟨g', hg', he⟩ := List.mem_map.1 hy'
    have e1 := (hentry a ha).2 g hg
    have e2 := (hentry b hb).2 g' hg'
    have := (Prod.mk.inj he).1
    exact hab (e1.symm.trans (this.symm.trans e2))

theorem mem_pickGroupR {R : Race} {ts : Str} {excl : List FileGroup} {g : FileGroup}
    {l : List FileSlice} (h : pickGroupR R ts excl g = .ok l) (s : FileSlice) :
    s ∈ l ↔ fgContains excl g = false ∧ ∃ k s0, mapLastLe ts g.slices = some (k, s0) ∧
      s0.loadMetadata (R.sizes s0.basePath) = .ok s := by
  unfold pickGroupR at h
  cases hx : fgContains excl g with
  | true => rw [hx] at h; cases h; simp
  | false =>
    rw [hx] at h
    simp only [Bool.false_eq_true, if_false] at h
    cases hm : mapLastLe ts g.slices with
    | none => rw [hm] at h; cases h; simp
    | some e =>
      obtain ⟨k, s0⟩ := e
      rw [hm] at h
      simp only at h
      cases hl : s0.loadMetadata (R.sizes s0.basePath) with
      | ok s' =>
        rw [hl] at h; cases h
        simp only [List.mem_singleton, true_and, Option.some.injEq, Prod.mk.injEq]
        constructor
        · rintro rfl; exact ⟨k, s0, ⟨rfl, rfl⟩, hl⟩
        · rintro ⟨k', s0', ⟨rfl, rfl⟩, h'⟩
          rw [hl] at h'; cases h'; rfl
      | err e => rw [hl] at h; cases h
      | panic => rw [hl] at h; cases h

theorem pickGroupR_length {R : Race} {ts : Str} {excl : List FileGroup} {g : FileGroup}
    {l : List FileSlice} (h : pickGroupR R ts excl g = .ok l) : l.length ≤ 1 := by
  unfold pickGroupR at h
  split at h
  · cases h; simp
  · split at h
    · cases h; simp
    · obtain ⟨r, _, h⟩ := Res.bind_eq_ok.1 h
      cases h; simp

theorem viewSlicesAsOfR_ok {A : Arrow} {o : Opts} {depth : Nat} {R : Race} {ts : Str} {p : Pruner}
    {excl : List FileGroup} {ss : List FileSlice} (h : viewSlicesAsOfR A o depth R ts p excl = .ok ss) :
    ∃ m r, listRelevantR A o depth R p = .ok m ∧
      Res.mapL (pickGroupR R ts excl) (included A p (hmExtend [] m)) = .ok r ∧ ss = r.flatten := by
  unfold viewSlicesAsOfR at h
  obtain ⟨m, h1, h⟩ := Res.bind_eq_ok.1 h
  obtain ⟨r, h2, h⟩ := Res.bind_eq_ok.1 h
  cases h
  exact ⟨m, r, h1, h2, rfl⟩

/-- The slices a read collects while the table is written: the snapshot of what was listed. -/
theorem viewR_snapshot {A : Arrow} {o : Opts} {R : Race} {ts : Str} {p : Pruner}
    {excl : List FileGroup} {m : Cache} {r : List (List FileSlice)} {Found : Str → Prop}
    (hwf : ∀ x, Found x → TreeWF (R.files x))
    (hone : ∀ x, Found x → OneExtension (filesOf (R.files x) x)) (hn : HmNodup m)
    (h1 : ∀ x gs, hmGet x m = some gs ↔ Found x ∧
      (Partitioned o → p.shouldInclude A x = true) ∧ listFileGroups o (R.files x) x = .ok gs)
    (h2 : ∀ x, Found x → (Partitioned o → p.shouldInclude A x = true) →
        ∃ gs, listFileGroups o (R.files x) x = .ok gs)
    (hr : Res.mapL (pickGroupR R ts excl) (included A p m) = .ok r) :
    SnapshotFrom (fun x => filesOf (R.files x) x) (fun x => Found x ∧ p.shouldInclude A x = true)
      (fun x f => ∃ g ∈ excl, groupId g = (x, f)) ts r.flatten ∧
    ∀ s ∈ r.flatten, SetSorted LogFile.cmp s.logFiles := by
  have hexcl : ∀ g : FileGroup, fgContains excl g = false ↔
      ¬ ∃ g' ∈ excl, groupId g' = (g.partitionPath, g.fileId) := by
    intro g
    unfold fgContains
    rw [List.any_eq_false]
    constructor
    · rintro hx ⟨g', hg', he⟩
      apply hx g' hg'
      rw [same_iff]
      exact ⟨(Prod.mk.inj he).2, (Prod.mk.inj he).1⟩
    · intro hx g' hg' hs
      rw [same_iff] at hs
      exact hx ⟨g', hg', by unfold groupId; rw [hs.1, hs.2]⟩
  -- one group and its slice
  have hslice : ∀ g ∈ included A p m, ∀ s, (fgContains excl g = false ∧ ∃ k s0,
      mapLastLe ts g.slices = some (k, s0) ∧ s0.loadMetadata (R.sizes s0.basePath) = .ok s) →
      s.partitionPath = g.partitionPath ∧ s.baseFile.fileId = g.fileId ∧
      (Found g.partitionPath ∧ p.shouldInclude A g.partitionPath = true) ∧
      (¬ ∃ g' ∈ excl, groupId g' = (g.partitionPath, g.fileId)) ∧
      (∃ b mm, BaseIn (filesOf (R.files g.partitionPath) g.partitionPath) b ∧ s.baseFile = { b with fileMeta := some mm }) ∧
      (compare s.baseFile.commitTimestamp ts).isLE ∧
      (∀ b, BaseIn (filesOf (R.files g.partitionPath) g.partitionPath) b → b.fileId = g.fileId →
        (compare b.commitTimestamp ts).isLE →
        (compare b.commitTimestamp s.baseFile.commitTimestamp).isLE) ∧
      ∀ l, l ∈ s.logFiles ↔ LogIn (filesOf (R.files g.partitionPath) g.partitionPath) l ∧ l.fileId = g.fileId ∧
        l.baseCommitTimestamp = s.baseFile.commitTimestamp := by
    rintro g hg s ⟨hx, k, s0, hl, hload⟩
    obtain ⟨x, gs, hpart, hi, hgs, hgm⟩ := (mem_includedR hn h1 g).1 hg
    have hnd := ((hwf x hpart).at (pathSegs x)).files_nodup
    have hlist := listFileGroups_listing hnd (hone x hpart) hgs
    have hw := listFileGroups_wf hnd hgs g hgm
    have hpp : g.partitionPath = x := hlist.inPartition g hgm
    obtain ⟨e1, e2, e3⟩ := (mapLastLe_eq_some hw.sorted).1 hl
    have hsl : sliceAt g k = some s0 := by rw [sliceAt_eq]; exact (mapGet_eq_some hw.sorted).2 e1
    obtain ⟨b1, b2, b3, b4, b5⟩ := hlist.slices g hgm k s0 hsl
    obtain ⟨l1, l2, mm, l3, _⟩ := loadMetadata_ok hload
    subst hpp
    have hts : s.baseFile.commitTimestamp = k := by rw [l3]; exact b3
    refine ⟨l1.trans b4, by rw [l3]; exact b2, ⟨hpart, hi⟩, (hexcl g).1 hx,
      ⟨s0.baseFile, mm, b1, l3⟩, by rw [hts]; exact e2, ?_, ?_⟩
    · intro b hb hbf hble
      obtain ⟨s', c1, c2⟩ := hlist.bases g hgm b hb hbf
      rw [hts]
      refine e3 (b.commitTimestamp, s') ?_ hble
      exact (mapGet_eq_some hw.sorted).1 (by rw [← sliceAt_eq]; exact c1)
    · intro l
      rw [l2, b5, hts]; rfl
  have hmem : ∀ s, s ∈ r.flatten ↔ ∃ g ∈ included A p m, fgContains excl g = false ∧ ∃ k s0,
      mapLastLe ts g.slices = some (k, s0) ∧ s0.loadMetadata (R.sizes s0.basePath) = .ok s := by
    intro s
    rw [List.mem_flatten]
    constructor
    · rintro ⟨l, hl, hs⟩
      obtain ⟨g, hg, hgl⟩ := (Res.mapL_mem hr l).1 hl
      exact ⟨g, hg, (mem_pickGroupR hgl s).1 hs⟩
    · rintro ⟨g, hg, hs⟩
      obtain ⟨l, hgl, hl⟩ := Res.mapL_ok_mem hr g hg
      exact ⟨l, hl, (mem_pickGroupR hgl s).2 hs⟩
  refine ⟨⟨?_, ?_, ?_, ?_, ?_, ?_⟩, ?_⟩
  · refine List.Nodup.sublist (mapL_flatten_sublist (key := fun g => (g.partitionPath, g.fileId))
      (key' := fun s => (s.partitionPath, s.baseFile.fileId)) hr ?_) (includedR_nodup hwf hn h1)
    intro g hg l hl
    refine ⟨pickGroupR_length hl, fun s hs => ?_⟩
    obtain ⟨a1, a2, _⟩ := hslice g hg s ((mem_pickGroupR hl s).1 hs)
    rw [a1, a2]
  · intro s hs
    obtain ⟨g, hg, hgs⟩ := (hmem s).1 hs
    obtain ⟨a1, a2, a3, a4, a5, _⟩ := hslice g hg s hgs
    rw [a1, a2]
    exact ⟨a3, a4, a5⟩
  · intro s hs
    obtain ⟨g, hg, hgs⟩ := (hmem s).1 hs
    exact (hslice g hg s hgs).2.2.2.2.2.1
  · intro s hs
    obtain ⟨g, hg, hgs⟩ := (hmem s).1 hs
    obtain ⟨a1, a2, _, _, _, _, a7, _⟩ := hslice g hg s hgs
    rw [a1, a2]
    exact a7
  · intro s hs
    obtain ⟨g, hg, hgs⟩ := (hmem s).1 hs
    obtain ⟨a1, a2, _, _, _, _, _, a8⟩ := hslice g hg s hgs
    rw [a1, a2]
    exact a8
  · rintro x ⟨hpart, hi⟩ b hb hble hnr
    obtain ⟨gs, hgs⟩ := h2 x hpart (fun _ => hi)
    have hnd := ((hwf x hpart).at (pathSegs x)).files_nodup
    have hlist := listFileGroups_listing hnd (hone x hpart) hgs
    obtain ⟨g, hgm, hgf⟩ := (hlist.groups b.fileId).2 ⟨b, hb, rfl⟩
    have hw := listFileGroups_wf hnd hgs g hgm
    have hpp : g.partitionPath = x := hlist.inPartition g hgm
    have hg : g ∈ included A p m := (mem_includedR hn h1 g).2 ⟨x, gs, hpart, hi, hgs, hgm⟩
    have hx : fgContains excl g = false := (hexcl g).2 (by rw [hpp, hgf]; exact hnr)
    obtain ⟨sb, c1, c2⟩ := hlist.bases g hgm b hb hgf.symm
    obtain ⟨l, hgl, hl⟩ := Res.mapL_ok_mem hr g hg
    cases hlast : mapLastLe ts g.slices with
    | none =>
      have := mapLastLe_eq_none.1 hlast (b.commitTimestamp, sb)
        ((mapGet_eq_some hw.sorted).1 (by rw [← sliceAt_eq]; exact c1))
      rw [this] at hble; cases hble
    | some e =>
      obtain ⟨k, s0⟩ := e
      have hs : ∃ s, s0.loadMetadata (R.sizes s0.basePath) = .ok s := by
        unfold pickGroupR at hgl
        rw [hx, hlast] at hgl
        simp only [Bool.false_eq_true, if_false] at hgl
        cases hld : s0.loadMetadata (R.sizes s0.basePath) with
        | ok s => exact ⟨s, rfl⟩
        | err e => rw [hld] at hgl; cases hgl
        | panic => rw [hld] at hgl; cases hgl
      obtain ⟨s, hs⟩ := hs
      have hin : s ∈ r.flatten := (hmem s).2 ⟨g, hg, hx, k, s0, hlast, hs⟩
      obtain ⟨a1, a2, _⟩ := hslice g hg s ⟨hx, k, s0, hlast, hs⟩
      exact ⟨s, hin, a1.trans hpp, a2.trans hgf⟩
  · intro s hs
    obtain ⟨g, hg, _, k, s0, hk, hload⟩ := (hmem s).1 hs
    obtain ⟨x, gs, hpart, _, hgs, hgm⟩ := (mem_includedR hn h1 g).1 hg
    have hw := listFileGroups_wf ((hwf x hpart).at (pathSegs x)).files_nodup hgs g hgm
    obtain ⟨e1, _, _⟩ := (mapLastLe_eq_some hw.sorted).1 hk
    rw [(loadMetadata_ok hload).2.1]
    exact (hw.slice k s0 ((mapGet_eq_some hw.sorted).2 e1)).2

/-! ## Timeline metadata -/

theorem select_sub (s : Selector) (is : List Instant) : ∀ i ∈ s.select is, i ∈ is := by
  intro i hi
  unfold Selector.select at hi
  have hi := (List.mem_filter.1 hi).1
  split at hi
  · split at hi
    · exact List.mem_of_mem_drop (List.mem_of_mem_take hi)
    · exact List.mem_of_mem_drop hi
  · split at hi
    · exact List.mem_of_mem_take hi
    · exact hi

theorem instantMetadata_same {E : Env} {o : Opts} {t0 t u : Tree} {tl : Timeline}
    (hload : Timeline.load E o t0 = .ok tl) (hwf : ∀ n ∈ timelineNames t0, Spec.NormalName n)
    {i : Instant} (hi : i ∈ tl.completed) (hd : docOf u i = docOf t i) {md : List (Str × Json)}
    (h : instantMetadata t i = .ok md) : instantMetadata u i = .ok md := by
  obtain ⟨a1, a2⟩ := instantMetadata_doc (t := t) hload hwf hi
  obtain ⟨b1, b2⟩ := instantMetadata_doc (t := u) hload hwf hi
  cases hx : docOf t i with
  | none => obtain ⟨e, he⟩ := a2 hx; rw [h] at he; cases he
  | some md' =>
    rw [a1 md' hx] at h; cases h
    exact b1 _ (hd.trans hx)

theorem replacedAsOfR_same {E : Env} {o : Opts} {t0 t : Tree} {tl : Timeline} {R : Race}
    (hload : Timeline.load E o t0 = .ok tl) (hwf : ∀ n ∈ timelineNames t0, Spec.NormalName n)
    (hd : ∀ i ∈ tl.completed, docOf (R.replaced i) i = docOf t i) {ts : Str} {excl : List FileGroup}
    (h : tl.replacedAsOf E t ts = .ok excl) : tl.replacedAsOfR E R ts = .ok excl := by
  unfold Timeline.replacedAsOf at h
  unfold Timeline.replacedAsOfR
  obtain ⟨s, h1, h2⟩ := Res.bind_eq_ok.1 h
  rw [h1]
  simp only [Res.ok_bind]
  have hsub := select_sub s tl.completed
  revert h2
  generalize s.select tl.completed = is at hsub
  generalize ([] : List FileGroup) = acc
  intro h2
  induction is generalizing acc with
  | nil => exact h2
  | cons i is ih =>
    rw [Res.foldL_cons] at h2 ⊢
    obtain ⟨acc', h3, h4⟩ := Res.bind_eq_ok.1 h2
    obtain ⟨md, h5, h6⟩ := Res.bind_eq_ok.1 h3
    have hi := hsub i (by simp)
    rw [instantMetadata_same hload hwf hi (hd i hi) h5]
    simp only [Res.ok_bind]
    rw [h6]
    exact ih (fun i hi => hsub i (by simp [hi])) _ h4

theorem schemaOfCommit_first {u : Tree} {md : List (Str × Json)} {path : Str} {sc : Schema} (h : FirstFile md path)
    (hs : ColumnsAt u path sc) : schemaOfCommit u md = .ok sc := by
  obtain ⟨partition, stat, stats, parts, written, h1, h2, h3⟩ := h
  unfold schemaOfCommit
  rw [h1]
  simp only [Option.bind_some, Json.asObj, List.head?_cons, Res.ofOption_some, Res.ok_bind, Json.asArr,
    Json.field, h2, Json.asStr]
  rcases h3 with ⟨h6, rfl⟩ | ⟨h6, base, h7, rfl⟩
  · rw [if_pos ((endsWith_iff _ _).2 h6)]
    exact parquetSchema_ok.2 hs
  · rw [if_neg (fun hc => h6 ((endsWith_iff _ _).1 hc)), h7]
    simp only [Option.bind_some, Res.ofOption_some, Res.ok_bind]
    exact parquetSchema_ok.2 hs

theorem partitionSchemaR_same {E : Env} {o : Opts} {t0 t : Tree} {tb : Table} {R : Race}
    (hload : Timeline.load E o t0 = .ok tb.timeline) (hwf : ∀ n ∈ timelineNames t0, Spec.NormalName n)
    (hd : ∀ i ∈ tb.timeline.completed, docOf R.latest i = docOf t i)
    (hp : ∀ i md path s, tb.timeline.completed.getLast? = some i → docOf t i = some md → FirstFile md path →
      ColumnsAt t path s → ColumnsAt R.schema path s) {sc : Schema}
    (h : tb.partitionSchema t = .ok sc) : tb.partitionSchemaR R = .ok sc := by
  rw [partitionSchemaR_eq]
  unfold Table.partitionSchema Table.schema at h
  obtain ⟨fields, h1, h⟩ := Res.bind_eq_ok.1 h
  obtain ⟨schema, h2, h⟩ := Res.bind_eq_ok.1 h
  obtain ⟨i, md, path, h3, h4, h5, h6⟩ := (latestSchema_ok hload hwf).1 h2
  rw [h1]
  have hi := List.mem_of_getLast? h3
  have : tb.timeline.latestMetadata R.latest = .ok md := by
    unfold Timeline.latestMetadata
    rw [h3]
    exact (instantMetadata_doc hload hwf hi).1 md ((hd i hi).trans h4)
  rw [this]
  simp only [Res.ok_bind]
  rw [schemaOfCommit_first h5 (hp i md path schema h3 h4 h5 h6)]
  exact h

/-! ## The file groups of the snapshot -/

/-- The same file group in the table and as the read saw it. -/
structure SeenGroup (ltz : LocalTz) (ts : Str) (tl : Timeline) (t : Tree) (R : Race) (o : Opts) (s s' : FileSlice) :
    Prop where
  path : s'.partitionPath = s.partitionPath
  base : ∃ b m m', Wanted ltz o ts tl t s.partitionPath b ∧
    s.baseFile = { b with fileMeta := some m } ∧ s'.baseFile = { b with fileMeta := some m' }
  logs : ∀ l, l ∈ s.logFiles ↔ LogIn (filesOf t s.partitionPath) l ∧
    l.fileId = s.baseFile.fileId ∧ l.baseCommitTimestamp = s.baseFile.commitTimestamp
  logs' : ∀ l, l ∈ s'.logFiles ↔ LogIn (filesOf (R.files s.partitionPath) s.partitionPath) l ∧
    l.fileId = s.baseFile.fileId ∧ l.baseCommitTimestamp = s.baseFile.commitTimestamp

/-- The slices of a snapshot are of base files that it shows. -/
theorem snapshot_wanted {E : Env} {o o' : Opts} {t0 t : Tree} {tl : Timeline} {ts : Str} {kept : Str → Prop}
    {excl : List FileGroup} {ss : List FileSlice} (hload : Timeline.load E o t0 = .ok tl)
    (hwf0 : ∀ n ∈ timelineNames t0, Spec.NormalName n) (h3 : tl.replacedAsOf E t ts = .ok excl)
    (hS : SnapshotOf t (fun x => PartitionOf o' t x ∧ kept x) (fun x f => ∃ g ∈ excl, groupId g = (x, f)) ts ss)
    {s : FileSlice} (hs : s ∈ ss) :
    ∃ b m, Wanted E.ltz o' ts tl t s.partitionPath b ∧ s.baseFile = { b with fileMeta := some m } := by
  obtain ⟨⟨hp, _⟩, hnr, b, m, hb, heq⟩ := hS.sound s hs
  have hle := hS.notLater s hs
  have hlat := hS.latest s hs
  have e1 : s.baseFile.commitTimestamp = b.commitTimestamp := by rw [heq]
  have e2 : s.baseFile.fileId = b.fileId := by rw [heq]
  rw [e1] at hle
  rw [e1, e2] at hlat
  rw [e2] at hnr
  exact ⟨b, m, ⟨hp, hb, hle, hlat, fun tz T htz hT hr => hnr ((replaced_iff hload hwf0 htz ⟨T, hT, rfl⟩ h3 _ _).2 hr)⟩, heq⟩

theorem racing_pairs {E : Env} {A : Arrow} {C : Codec} {o : Opts} {t0 t : Tree} {tb : Table}
    {held : Str → List WBlock} {depth : Nat} {R : Race}
    (hload : Timeline.load E o t0 = .ok tb.timeline) (hwf0 : ∀ n ∈ timelineNames t0, Spec.NormalName n)
    (hwf : TreeWF t) (hone : ∀ x, PartitionOf tb.opts t x → OneExtension (filesOf t x))
    {ts tzr : Str} (hR : AllSeen (Meanwhile C E.ltz tzr tb.opts ts tb.timeline t held) R)
    {fs : List Filter} {ss ss' : List FileSlice}
    (hq : (tb.fileSlicesInternal E A t ts fs []).2 = .ok ss)
    (hq' : tb.fileSlicesInternalR E A depth R ts fs = .ok ss') :
    (∀ s ∈ ss, ∃ s' ∈ ss', SeenGroup E.ltz ts tb.timeline t R tb.opts s s') ∧
    (∀ s' ∈ ss', ∃ s ∈ ss, SeenGroup E.ltz ts tb.timeline t R tb.opts s s') ∧
    (ss.map (fun s => (s.partitionPath, s.baseFile.fileId))).Nodup ∧
    (ss'.map (fun s => (s.partitionPath, s.baseFile.fileId))).Nodup ∧
    (∀ s ∈ ss, SetSorted LogFile.cmp s.logFiles) ∧ (∀ s ∈ ss', SetSorted LogFile.cmp s.logFiles) := by
  obtain ⟨excl, sc, p, h3, h4, h5, h6⟩ := fileSlicesInternal_ok.1 hq
  unfold Table.fileSlicesInternalR at hq'
  rw [replacedAsOfR_same hload hwf0 (fun i hi => (hR.replaced i).docs i hi) h3] at hq'
  simp only [Res.ok_bind] at hq'
  rw [partitionSchemaR_same hload hwf0 hR.latest.docs hR.schema.columns h4] at hq'
  simp only [Res.ok_bind] at hq'
  rw [h5] at hq'
  simp only [Res.ok_bind] at hq'
  obtain ⟨m, r, hm, hr, rfl⟩ := viewSlicesAsOfR_ok hq'
  obtain ⟨hn, Found, f1, f2, f3, f4⟩ := listRelevantR_found
    (P := fun x => ∃ b, Wanted E.ltz tb.opts ts tb.timeline t x b) (fun x => (hR.dirs x).wf)
    (fun x ⟨b, hb⟩ y => (hR.dirs y).partitions x b hb) hm
  rw [show hmExtend [] m = m from hmOfList_eq hn] at hr
  have hS := view_snapshot hwf hone h6
  have hwant : ∀ s ∈ ss, ∃ b m, Wanted E.ltz tb.opts ts tb.timeline t s.partitionPath b ∧
      s.baseFile = { b with fileMeta := some m } := fun s hs => snapshot_wanted hload hwf0 h3 hS hs
  obtain ⟨hS', hsorted⟩ := viewR_snapshot (fun x _ => (hR.files x).wf)
    (fun x hx => (hR.files x).one x (f2 x hx)) hn f3 f4 hr
  have key : ∀ s ∈ ss, ∀ s' ∈ r.flatten, s.partitionPath = s'.partitionPath →
      s.baseFile.fileId = s'.baseFile.fileId → SeenGroup E.ltz ts tb.timeline t R tb.opts s s' := by
    intro s hs s' hs' hpath hfid
    obtain ⟨⟨hp, hi⟩, _⟩ := hS.sound s hs
    obtain ⟨b, m, hw, heq⟩ := hwant s hs
    have hb := hw.base
    obtain ⟨⟨hp', hi'⟩, _, b', m', hb', heq'⟩ := hS'.sound s' hs'
    simp only [← hpath] at hp' hb'
    have hbin : BaseIn (filesOf (R.files s.partitionPath) s.partitionPath) b := (hR.files _).bases _ b hw
    have eb : s.baseFile.commitTimestamp = b.commitTimestamp := by rw [heq]
    have eb' : s'.baseFile.commitTimestamp = b'.commitTimestamp := by rw [heq']
    have ef : s.baseFile.fileId = b.fileId := by rw [heq]
    have ef' : s'.baseFile.fileId = b'.fileId := by rw [heq']
    have hle := hS.notLater s hs
    have hle' := hS'.notLater s' hs'
    have hlat := hS.latest s hs
    have hlat' := hS'.latest s' hs'
    simp only [← hpath] at hlat'
    rw [eb] at hle hlat
    rw [eb'] at hle' hlat'
    obtain ⟨_, hbt⟩ := (hR.files _).newBases _ b' (f2 _ hp') hb' hle'
    have hts : b.commitTimestamp = b'.commitTimestamp :=
      str_le_antisymm (hlat' b hbin (by rw [← ef, hfid]) hle)
        (hlat b' hbt (by rw [← ef', hfid]) hle')
    have hlist := view_listable hwf h6 s.partitionPath hp hi
    have : b = b' := hlist.unique b b' hb hbt (by rw [← ef, hfid, ef']) hts
    subst this
    refine ⟨hpath.symm, ⟨b, m, m', hw, heq, heq'⟩, hS.logs s hs, ?_⟩
    intro l
    have := hS'.logs s' hs' l
    simp only [← hpath] at this
    rw [this, ← hfid, eb', ← eb]
  refine ⟨?_, ?_, hS.distinct, hS'.distinct, view_sorted hwf h6, hsorted⟩
  · intro s hs
    obtain ⟨⟨hp, hi⟩, hnr, _⟩ := hS.sound s hs
    obtain ⟨b, m, hw, heq⟩ := hwant s hs
    have ef : s.baseFile.fileId = b.fileId := by rw [heq]
    obtain ⟨s', hs', e1, e2⟩ := hS'.complete s.partitionPath ⟨f1 _ ⟨b, hw⟩, hi⟩ b
      ((hR.files _).bases _ b hw) hw.upTo (by rw [← ef]; exact hnr)
    exact ⟨s', hs', key s hs s' hs' e1.symm (by rw [e2, ef])⟩
  · intro s' hs'
    obtain ⟨⟨hp', hi⟩, hnr, b, m, hb, heq⟩ := hS'.sound s' hs'
    have ef : s'.baseFile.fileId = b.fileId := by rw [heq]
    have hle := hS'.notLater s' hs'
    rw [show s'.baseFile.commitTimestamp = b.commitTimestamp by rw [heq]] at hle
    obtain ⟨hp, hbt⟩ := (hR.files _).newBases _ b (f2 _ hp') hb hle
    obtain ⟨s, hs, e1, e2⟩ := hS.complete s'.partitionPath ⟨hp, hi⟩ b hbt hle
      (by rw [← ef]; exact hnr)
    exact ⟨s, hs, key s hs s' hs' e1 (by rw [e2, ef])⟩

theorem SeenGroup.key {ltz : LocalTz} {ts : Str} {tl : Timeline} {t : Tree} {R : Race} {o : Opts} {s s' : FileSlice}
    (h : SeenGroup ltz ts tl t R o s s') :
    (s'.partitionPath, s'.baseFile.fileId) = (s.partitionPath, s.baseFile.fileId) := by
  obtain ⟨b, m, m', _, h1, h2⟩ := h.base
  rw [h.path, h1, h2]

/-- The blocks of the log files that are in the range. -/
theorem SeenGroup.surviving {ltz ltz' : LocalTz} {tz ts ts' : Str} {tl : Timeline} {o : Opts} {t : Tree} {R : Race}
    {held held' : Str → List WBlock} {s s' : FileSlice} (h : SeenGroup ltz' ts' tl t R o s s')
    (hs : SetSorted LogFile.cmp s.logFiles) (hs' : SetSorted LogFile.cmp s'.logFiles)
    (happ : ∀ l ∈ s'.logFiles, ∃ more, held' (s'.logPath l) = held (s'.logPath l) ++ more ∧
      ∀ w ∈ more, WrittenAfter ltz tz ts w)
    (hlogs : ∀ l, LogIn (filesOf t s.partitionPath) l → Against s.baseFile l →
      ∃ l', LogIn (filesOf (R.files s.partitionPath) s.partitionPath) l' ∧ l'.fileName = l.fileName)
    (hheld : HeldOnly o t held) 
    (hnorm : ∀ l, LogIn (filesOf (R.files s.partitionPath) s.partitionPath) l → NormalName l.fileName) :
    surviving ltz tz ⟨tz, none, some ts, false, true⟩
        (s'.logFiles.map (fun l => held' (s'.logPath l))).flatten =
      Spec.surviving ltz tz ⟨tz, none, some ts, false, true⟩
        (s.logFiles.map (fun l => held (s.logPath l))).flatten := by
  generalize hr : (⟨tz, none, some ts, false, true⟩ : InstantRange) = r
  refine surviving_congr ?_
  intro _
  have hp : ∀ l, s'.logPath l = pathPush s.partitionPath l.fileName := by
    intro l; unfold FileSlice.logPath FileSlice.relativePathFor; rw [h.path]
  have hf : ∀ (L : List LogFile) (f : LogFile → List WBlock) (p : WBlock → Bool),
      ((L.map f).flatten).filter p = L.flatMap (fun l => (f l).filter p) := by
    intro L f p
    induction L with
    | nil => rfl
    | cons x L ih => simp [List.filter_append, ih]
  rw [hf, hf]
  have e1 : s'.logFiles.flatMap (fun l => (held' (s'.logPath l)).filter
        (fun w => decide (BlockIn ltz tz r w))) =
      s'.logFiles.flatMap (fun l => (fun n => (held (pathPush s.partitionPath n)).filter
        (fun w => decide (BlockIn ltz tz r w))) l.fileName) := by
    refine List.flatMap_congr ?_
    intro l hl
    obtain ⟨more, m1, m2⟩ := happ l hl
    show (held' (s'.logPath l)).filter _ = (held (pathPush s.partitionPath l.fileName)).filter _
    rw [m1, hp, List.filter_append, List.append_right_eq_self, List.filter_eq_nil_iff]
    intro w hw
    rw [decide_eq_true_eq, ← hr]
    exact not_blockIn (m2 w hw)
  rw [e1, logs_flatMap (fun n => (held (pathPush s.partitionPath n)).filter
    (fun w => decide (BlockIn ltz tz r w))) hs hs']
  · rfl
  · intro l hl
    obtain ⟨k1, k2, k3⟩ := (h.logs l).1 hl
    obtain ⟨l', m1, m2⟩ := hlogs l k1 ⟨k2, k3⟩
    have he := logIn_erase m1 k1 m2
    refine ⟨l', (h.logs' l').2 ⟨m1, ?_, ?_⟩, he⟩
    · rw [← k2]; exact (erase_fields he).1
    · rw [← k3]; exact (erase_fields he).2
  · intro l' hl' hno
    obtain ⟨k1, k2, k3⟩ := (h.logs' l').1 hl'
    have : held (pathPush s.partitionPath l'.fileName) = [] := by
      obtain ⟨b, m, m', hw, _⟩ := h.base
      refine hheld _ hw.part _ (hnorm l' k1) ?_
      intro l0 h0 hn
      have he := logIn_erase h0 k1 hn
      refine hno l0 ((h.logs l0).2 ⟨h0, ?_, ?_⟩) he
      · rw [← k2]; exact (erase_fields he).1
      · rw [← k3]; exact (erase_fields he).2
    simp only [this, List.filter_nil]

/-! ## Files read at different moments -/

/-- Put a file into a tree. -/
def place : List Str → Nat × Content → Tree → Tree
  | [], _, t => t
  | [n], e, t => .file n e.1 e.2 t
  | n :: m :: ms, e, t => .dir n (place (m :: ms) e (t.sub n)) t

theorem fileAt_place_same {p : List Str} (hp : p ≠ []) (e : Nat × Content) (t : Tree) :
    (place p e t).fileAt p = some e := by
  induction p generalizing t with
  | nil => exact absurd rfl hp
  | cons n p ih =>
    cases p with
    | nil => simp [place, Tree.fileAt, Tree.file?]
    | cons m ms =>
      simp only [place, Tree.fileAt, Tree.sub, if_true]
      exact ih (by simp) _

theorem fileAt_place_other {p q : List Str} (h : q ≠ p) (e : Nat × Content) (t : Tree) :
    (place p e t).fileAt q = t.fileAt q := by
  induction p generalizing q t with
  | nil => rfl
  | cons n p ih =>
    cases p with
    | nil =>
      match q, h with
      | [], _ => rfl
      | [k], h =>
        have : ¬ n = k := fun hc => h (by rw [hc])
        simp [place, Tree.fileAt, Tree.file?, this]
      | k :: k' :: ks, _ => simp [place, Tree.fileAt, Tree.sub]
    | cons m ms =>
      match q, h with
      | [], _ => rfl
      | [k], _ => simp [place, Tree.fileAt, Tree.file?]
      | k :: k' :: ks, h =>
        simp only [place, Tree.fileAt, Tree.sub]
        split
        · rename_i hk
          subst hk
          exact ih (fun hc => h (by rw [hc])) _
        · rfl

/-- One store with the files that were read at different moments. -/
theorem gather {f : Str → Tree} {paths : List Str}
    (hex : ∀ p ∈ paths, ∃ e, (f p).fileAt (pathSegs p) = some e)
    (hinj : ∀ p ∈ paths, ∀ q ∈ paths, pathSegs p = pathSegs q → p = q) :
    ∃ t : Tree, ∀ p ∈ paths, t.fileAt (pathSegs p) = (f p).fileAt (pathSegs p) := by
  induction paths with
  | nil => exact ⟨.nil, fun p hp => absurd hp (by simp)⟩
  | cons p ps ih =>
    obtain ⟨t, ht⟩ := ih (fun q hq => hex q (by simp [hq]))
      (fun q hq q' hq' => hinj q (by simp [hq]) q' (by simp [hq']))
    obtain ⟨e, he⟩ := hex p (by simp)
    have hne : pathSegs p ≠ [] := by
      intro hc; rw [hc] at he; cases he
    refine ⟨place (pathSegs p) e t, fun q hq => ?_⟩
    by_cases hqp : pathSegs q = pathSegs p
    · have := hinj q hq p (by simp) hqp
      subst this
      rw [fileAt_place_same hne, he]
    · rw [fileAt_place_other hqp]
      rcases List.mem_cons.1 hq with rfl | hq
      · exact absurd rfl hqp
      · exact ht q hq

theorem getFile_congr {t u : Tree} {path : Str} (h : t.fileAt (pathSegs path) = u.fileAt (pathSegs path)) :
    getFile t path = getFile u path := by unfold getFile; rw [h]

theorem readBaseFile_congr {A : Arrow} {o : Opts} {t u : Tree} {path : Str}
    (h : t.fileAt (pathSegs path) = u.fileAt (pathSegs path)) : readBaseFile A o t path = readBaseFile A o u path := by
  unfold readBaseFile getParquetData; rw [getFile_congr h]

theorem scanFile_congr {C : Codec} {ltz : LocalTz} {o : Opts} {t u : Tree} {r : InstantRange} {path : Str}
    (h : t.fileAt (pathSegs path) = u.fileAt (pathSegs path)) :
    scanFile C ltz o t r path = scanFile C ltz o u r path := by
  unfold scanFile readLogFile; rw [getFile_congr h]

theorem Res.mapL_congr {α β : Type} {f g : α → Res β} {l : List α} (h : ∀ x ∈ l, f x = g x) :
    Res.mapL f l = Res.mapL g l := by
  induction l with
  | nil => rfl
  | cons x l ih =>
    unfold Res.mapL
    rw [h x (by simp), ih (fun y hy => h y (by simp [hy]))]

/-- Reading a slice at different moments is reading it from one store that holds what was read. -/
theorem readFileSliceR_eq {C : Codec} {A : Arrow} {M : MergeEnv A} {ltz : LocalTz} {o : Opts} {R : Race}
    {s : FileSlice} {t : Tree}
    (hb : t.fileAt (pathSegs s.basePath) = (R.data s.basePath).fileAt (pathSegs s.basePath))
    (hl : ∀ l ∈ s.logFiles, t.fileAt (pathSegs (s.logPath l)) =
      (R.data (s.logPath l)).fileAt (pathSegs (s.logPath l))) :
    readFileSliceR C A M ltz o R s = readFileSlice C A M ltz o t s := by
  have e1 : readBaseFileR A o R s.basePath = readBaseFile A o t s.basePath := (readBaseFile_congr hb).symm
  have e2 : ∀ r, scanLogsR C ltz o R r (s.logFiles.map s.logPath) =
      scanLogs C ltz o t r (s.logFiles.map s.logPath) := by
    intro r
    unfold scanLogsR scanLogs
    rw [Res.mapL_congr (g := scanFile C ltz o t r)]
    intro p hp
    obtain ⟨l, hlm, rfl⟩ := List.mem_map.1 hp
    exact (scanFile_congr (hl l hlm)).symm
  unfold readFileSliceR readFileSlice readMergedR readMerged
  rw [e1]
  simp only [e2]

/-- A read of a slice that returns found the slice's log files. -/
theorem readFileSliceR_found {C : Codec} {A : Arrow} {M : MergeEnv A} {ltz : LocalTz} {o : Opts} {R : Race}
    {s : FileSlice} {out : Batch} (hro : ¬ ReadOptimized o) (h : readFileSliceR C A M ltz o R s = .ok out) :
    ∀ l ∈ s.logFiles, ∃ e, (R.data (s.logPath l)).fileAt (pathSegs (s.logPath l)) = some e := by
  intro l hl
  unfold readFileSliceR FileSlice.hasLogFile at h
  rw [if_neg (by simpa using List.ne_nil_of_mem hl)] at h
  obtain ⟨v, hv1, hv2⟩ := Res.bind_eq_ok.1 (readOptimized_eq o)
  simp only [hv1, hv2, Res.ok_bind, hro, decide_false, Bool.false_eq_true, if_false] at h
  unfold readMergedR at h
  obtain ⟨_, _, h⟩ := Res.bind_eq_ok.1 h
  obtain ⟨r, _, h⟩ := Res.bind_eq_ok.1 h
  obtain ⟨logs, h1, _⟩ := Res.bind_eq_ok.1 h
  unfold scanLogsR at h1
  obtain ⟨files, h2, _⟩ := Res.bind_eq_ok.1 h1
  obtain ⟨y, hy, _⟩ := Res.mapL_ok_mem h2 (s.logPath l) (List.mem_map.2 ⟨l, hl, rfl⟩)
  unfold scanFileR scanFile readLogFile at hy
  obtain ⟨_, h3, _⟩ := Res.bind_eq_ok.1 hy
  obtain ⟨e, h4, _⟩ := Res.bind_eq_ok.1 h3
  unfold getFile at h4
  exact ⟨e, Res.ofOption_eq_ok.1 h4⟩

end Hudi
