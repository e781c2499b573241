import Verif.Spec.Snapshot
import Verif.Lemmas.LeafDirs
import Verif.Lemmas.Listing
import Verif.Props.Splits

/-! # Lemmas: partitions and the file system view -/

namespace Hudi
open Spec

theorem partitionFieldsOf_eq (o : Opts) : partitionFieldsOf o =
    .ok (((hmGet c!"hoodie.table.partition.fields" o).map (splitAll ',')).getD []) := by
  unfold partitionFieldsOf Cfg.getOrDefault Cfg.get
  simp only [Cfg.key]
  cases hmGet c!"hoodie.table.partition.fields" o <;> rfl

theorem usesNonPartitionedKeyGen_eq (o : Opts) : usesNonPartitionedKeyGen o =
    .ok (decide (hmGet c!"hoodie.table.keygenerator.class" o =
      some c!"org.apache.hudi.keygen.NonpartitionedKeyGenerator")) := by
  unfold usesNonPartitionedKeyGen Cfg.tryGet Cfg.get
  simp only [Cfg.key]
  generalize c!"org.apache.hudi.keygen.NonpartitionedKeyGenerator" = K
  cases hmGet c!"hoodie.table.keygenerator.class" o with
  | none => simp [Cfg.default]
  | some w => simp [Cfg.parseRaw, CfgVal.toStr]

theorem isTablePartitioned_eq (o : Opts) : isTablePartitioned o = .ok (decide (Partitioned o)) := by
  have he : (((hmGet c!"hoodie.table.partition.fields" o).map (splitAll ',')).getD []).isEmpty =
      decide (hmGet c!"hoodie.table.partition.fields" o = none) := by
    cases hmGet c!"hoodie.table.partition.fields" o with
    | none => rfl
    | some v =>
      have hne := splitAll_ne_nil ',' v
      cases hs : splitAll ',' v with
      | nil => exact absurd hs hne
      | cons a as => simp [hs]
  have : decide (Partitioned o) = (!decide (hmGet c!"hoodie.table.partition.fields" o = none) &&
      !decide (hmGet c!"hoodie.table.keygenerator.class" o =
        some c!"org.apache.hudi.keygen.NonpartitionedKeyGenerator")) := by
    rw [← decide_not, ← decide_not, ← Bool.decide_and]
    congr 1
  rw [this, ← he]
  unfold isTablePartitioned
  rw [partitionFieldsOf_eq, usesNonPartitionedKeyGen_eq]
  rfl

theorem include_of_isEmpty {A : Arrow} {p : Pruner} (h : p.isEmpty = true) (x : Str) :
    p.shouldInclude A x = true := by
  unfold Pruner.shouldInclude
  have : p.filters = [] := by simpa [Pruner.isEmpty] using h
  rw [this]
  split <;> simp

theorem top_flatten {t : Tree} (h : TreeWF t) (q : Str → Bool) (f : List Str → Str) :
    (((t.dirs.filter q).map (fun d => if (t.sub d).dirs = [] then [f [d]]
      else (walk (t.sub d)).map (fun r => f (d :: r)))).flatten) =
      ((walk t).filter (fun r => (r.head?.map q).getD false)).map f := by
  induction t with
  | nil => rfl
  | file m s c rest ih => exact ih h.2.2
  | dir m sub rest ih1 ih2 =>
    obtain ⟨h1, h2, h3, h4⟩ := h
    have hm : m ∉ rest.dirs := fun hc => h2 (dirs_sub_names m hc)
    have hrest : ((rest.dirs.filter q).map (fun d => if ((Tree.dir m sub rest).sub d).dirs = [] then
        [f [d]] else (walk ((Tree.dir m sub rest).sub d)).map (fun r => f (d :: r)))) =
        ((rest.dirs.filter q).map (fun d => if (rest.sub d).dirs = [] then [f [d]]
          else (walk (rest.sub d)).map (fun r => f (d :: r)))) := by
      refine List.map_congr_left (fun d hd => ?_)
      have hd := (List.mem_filter.1 hd).1
      have : ¬ m = d := fun hc => hm (hc ▸ hd)
      simp [Tree.sub, this]
    rw [walk_dir, List.filter_append, List.map_append, ← ih2 h4]
    simp only [Tree.dirs, List.filter_cons]
    cases hq : q m with
    | true =>
      simp only [if_true, List.map_cons, List.flatten_cons, hrest]
      congr 1
      rw [sub_dir_eq]
      split
      · simp [List.filter_cons, hq]
      · rw [List.filter_eq_self.2]
        · simp
        · intro a ha
          obtain ⟨r, _, rfl⟩ := List.mem_map.1 ha
          simp [hq]
    | false =>
      simp only [Bool.false_eq_true, if_false, hrest]
      have : (if sub.dirs = [] then [[m]] else (walk sub).map (m :: ·)).filter
          (fun r => (r.head?.map q).getD false) = [] := by
        rw [List.filter_eq_nil_iff]
        intro a ha
        split at ha
        · rw [List.mem_singleton.1 ha]; simp [hq]
        · obtain ⟨r, _, rfl⟩ := List.mem_map.1 ha
          simp [hq]
      rw [this]; rfl

theorem isDir_normal {t : Tree} (h : TreeWF t) {p : List Str} (hp : IsDir p t) :
    ∀ n ∈ p, NormalName n := by
  induction p generalizing t with
  | nil => intro n hn; cases hn
  | cons m p ih =>
    intro n hn
    rcases List.mem_cons.1 hn with rfl | hn
    · exact h.dirs_normal _ hp.1
    · exact ih (h.sub m) hp.2 n hn

/-- The partitions found on storage. -/
theorem relevantPartitions_spec (A : Arrow) (o : Opts) (t : Tree) (p : Pruner) (h : TreeWF t) :
    ∃ paths, relevantPartitions A o t p = .ok paths ∧ paths.Nodup ∧
      ∀ x, x ∈ paths ↔ PartitionOf o t x ∧ (Partitioned o → p.shouldInclude A x = true) := by
  unfold relevantPartitions
  rw [isTablePartitioned_eq]
  simp only [Res.ok_bind]
  by_cases hp : Partitioned o
  · simp only [hp, decide_true, Bool.true_eq_false, if_false]
    have htop : Res.mapL (leafDirs (t.height + 1) t)
        ((listDirs t []).filter (fun d => !lakeFormatMetadataDirs.contains d)) =
        .ok (((listDirs t []).filter (fun d => !lakeFormatMetadataDirs.contains d)).map
          (fun d => if (t.sub d).dirs = [] then [joinWith '/' [d]]
            else (walk (t.sub d)).map (fun r => joinWith '/' (d :: r)))) := by
      refine mapL_map_ok (fun d hd => ?_)
      have hd := (List.mem_filter.1 hd).1
      have hd : d ∈ t.dirs := hd
      have hn := h.dirs_normal d hd
      have := leafDirs_eq h (t.height + 1) [d] (by simp) (by simpa using hn) (by
        have := height_sub_lt hd
        show (t.sub d).height < _
        omega)
      exact this
    rw [htop]
    simp only [Res.ok_bind]
    rw [show listDirs t [] = t.dirs from rfl, top_flatten h]
    have hmem : ∀ x, x ∈ ((walk t).filter (fun r => (r.head?.map
        (fun d => !lakeFormatMetadataDirs.contains d)).getD false)).map (joinWith '/') ↔
        PartitionOf o t x := by
      intro x
      unfold PartitionOf
      simp only [hp, not_true_eq_false, false_and, true_and, false_or, List.mem_map, List.mem_filter]
      constructor
      · rintro ⟨r, ⟨h1, h2⟩, rfl⟩
        obtain ⟨hne, hl⟩ := (mem_walk h r).1 h1
        cases r with
        | nil => exact absurd rfl hne
        | cons n ns =>
          refine ⟨n, ns, hl, ?_, rfl⟩
          simpa [lakeFormatMetadataDirs, metadataDirs] using h2
      · rintro ⟨n, ns, hl, hn, rfl⟩
        refine ⟨n :: ns, ⟨(mem_walk h _).2 ⟨by simp, hl⟩, ?_⟩, rfl⟩
        simpa [lakeFormatMetadataDirs, metadataDirs] using hn
    have hnd : (((walk t).filter (fun r => (r.head?.map
        (fun d => !lakeFormatMetadataDirs.contains d)).getD false)).map (joinWith '/')).Nodup := by
      refine List.Nodup.map_on ?_ ((walk_nodup h).filter _)
      intro a ha b hb hab
      have ha := ((mem_walk h a).1 (List.mem_filter.1 ha).1).2.1
      have hb := ((mem_walk h b).1 (List.mem_filter.1 hb).1).2.1
      rw [← pathSegs_joinWith (isDir_normal h ha), hab, pathSegs_joinWith (isDir_normal h hb)]
    generalize hL : ((walk t).filter (fun r => (r.head?.map
        (fun d => !lakeFormatMetadataDirs.contains d)).getD false)).map (joinWith '/') = L at *
    split
    · rename_i hc
      refine ⟨L, rfl, hnd, fun x => ?_⟩
      rw [hmem]
      refine ⟨fun hx => ⟨hx, fun _ => ?_⟩, fun hx => hx.1⟩
      rcases Bool.or_eq_true_iff.1 hc with hc | hc
      · have : L = [] := by simpa using hc
        rw [← hmem, this] at hx; cases hx
      · exact include_of_isEmpty hc x
    · refine ⟨_, rfl, hnd.filter _, fun x => ?_⟩
      rw [List.mem_filter, hmem]
      exact ⟨fun hx => ⟨hx.1, fun _ => hx.2⟩, fun hx => ⟨hx.1, hx.2 trivial⟩⟩
  · simp only [hp, decide_false, if_true]
    refine ⟨[[]], rfl, by simp, fun x => ?_⟩
    simp [PartitionOf, hp]

theorem listWithPath_ok {o : Opts} {t : Tree} {x : Str} {e : Str × List FileGroup} :
    listWithPath o t x = .ok e ↔ ∃ gs, listFileGroups o t x = .ok gs ∧ e = (x, gs) := by
  unfold listWithPath
  rw [Res.bind_eq_ok]
  constructor
  · rintro ⟨gs, h1, h2⟩; cases h2; exact ⟨gs, h1, rfl⟩
  · rintro ⟨gs, h1, rfl⟩; exact ⟨gs, h1, rfl⟩

theorem listWithPath_keys {o : Opts} {t : Tree} {paths : List Str} {es : Cache}
    (h : Res.mapL (listWithPath o t) paths = .ok es) : es.map Prod.fst = paths := by
  induction paths generalizing es with
  | nil => cases h; rfl
  | cons x xs ih =>
    obtain ⟨y, ys, a1, a2, rfl⟩ := Res.mapL_cons_ok.1 h
    obtain ⟨gs, _, rfl⟩ := listWithPath_ok.1 a1
    rw [List.map_cons, ih a2]

/-- The file groups loaded from storage, by partition. -/
theorem listRelevant_ok {A : Arrow} {o : Opts} {t : Tree} {p : Pruner} {m : Cache} (h : TreeWF t)
    (hm : listRelevant A o t p = .ok m) : HmNodup m ∧
      (∀ x gs, hmGet x m = some gs ↔ PartitionOf o t x ∧
        (Partitioned o → p.shouldInclude A x = true) ∧ listFileGroups o t x = .ok gs) ∧
      ∀ x, PartitionOf o t x → (Partitioned o → p.shouldInclude A x = true) →
        ∃ gs, listFileGroups o t x = .ok gs := by
  unfold listRelevant at hm
  rw [isTablePartitioned_eq] at hm
  simp only [Res.ok_bind] at hm
  by_cases hp : Partitioned o
  · simp only [hp, decide_true, Bool.true_eq_false, if_false] at hm
    obtain ⟨paths, h1, hnd, h3⟩ := relevantPartitions_spec A o t p h
    rw [h1] at hm
    simp only [Res.ok_bind] at hm
    obtain ⟨par, _, hm⟩ := Res.bind_eq_ok.1 hm
    split at hm
    · cases hm
    · obtain ⟨es, h4, h5⟩ := Res.bind_eq_ok.1 hm
      cases h5
      have hkeys := listWithPath_keys h4
      have hn : HmNodup es := by unfold HmNodup; rw [hkeys]; exact hnd
      rw [hmOfList_eq hn]
      refine ⟨hn, fun x gs => ?_, fun x hx hi => ?_⟩
      · rw [hmGet_eq_some hn, Res.mapL_mem h4]
        constructor
        · rintro ⟨y, hy, hl⟩
          obtain ⟨gs', e1, e2⟩ := listWithPath_ok.1 hl
          cases e2
          exact ⟨((h3 x).1 hy).1, ((h3 x).1 hy).2, e1⟩
        · rintro ⟨a1, a2, a3⟩
          exact ⟨x, (h3 x).2 ⟨a1, a2⟩, listWithPath_ok.2 ⟨gs, a3, rfl⟩⟩
      · obtain ⟨e, he, _⟩ := Res.mapL_ok_mem h4 x ((h3 x).2 ⟨hx, hi⟩)
        obtain ⟨gs, hg, _⟩ := listWithPath_ok.1 he
        exact ⟨gs, hg⟩
  · simp only [hp, decide_false, if_true] at hm
    obtain ⟨gs, h1, h2⟩ := Res.bind_eq_ok.1 hm
    cases h2
    refine ⟨by simp [HmNodup], fun x gs' => ?_, fun x hx _ => ?_⟩
    · simp only [hmGet, PartitionOf, hp, not_false_eq_true, true_and, false_and, or_false,
        false_implies]
      by_cases hx : x = []
      · subst hx; simp [h1]
      · simp [hx]
    · rcases hx with hx | hx
      · rw [hx.2]; exact ⟨gs, h1⟩
      · exact absurd hx.1 hp

/-- The slice of one file group, if it has one. -/
def pickGroup (t : Tree) (ts : Str) (excl : List FileGroup) (g : FileGroup) :
    Res (List FileSlice) := do return (← collectGroup t ts excl g).2.toList

theorem collectGroups_eq (t : Tree) (ts : Str) (excl : List FileGroup) (gs : List FileGroup) :
    (collectGroups t ts excl gs).2 =
      (do return (← Res.mapL (pickGroup t ts excl) gs).flatten) := by
  induction gs with
  | nil => rfl
  | cons g gs ih =>
    unfold collectGroups Res.mapL pickGroup
    cases hg : collectGroup t ts excl g with
    | ok r =>
      simp only [Res.ok_bind, Res.pure_eq]
      rw [ih]
      show (do let y ← (do let y ← Res.mapL (pickGroup t ts excl) gs; pure y.flatten); _) =
        (do let y ← (do let ys ← Res.mapL (pickGroup t ts excl) gs; _); _)
      cases Res.mapL (pickGroup t ts excl) gs <;> rfl
    | err e => rfl
    | panic => rfl

/-- The outcome of collecting the slices, whatever the state of the cache. -/
theorem collectSlices_eq (A : Arrow) (t : Tree) (ts : Str) (p : Pruner) (excl : List FileGroup)
    (c : Cache) : (collectSlices A t ts p excl c).2 =
      (do return (← Res.mapL (pickGroup t ts excl)
        ((c.filter (fun e => p.shouldInclude A e.1)).flatMap Prod.snd)).flatten) := by
  have happ : ∀ (l l' : List FileGroup), (do
      let a ← (do return (← Res.mapL (pickGroup t ts excl) l).flatten : Res (List FileSlice))
      return a ++ (← (do return (← Res.mapL (pickGroup t ts excl) l').flatten : Res _))) =
      (do return (← Res.mapL (pickGroup t ts excl) (l ++ l')).flatten : Res (List FileSlice)) := by
    intro l l'
    induction l with
    | nil => cases h : Res.mapL (pickGroup t ts excl) l' <;> simp [Res.mapL, h]
    | cons g l ih =>
      simp only [List.cons_append, Res.mapL]
      cases pickGroup t ts excl g with
      | ok y =>
        simp only [Res.ok_bind]
        revert ih
        cases Res.mapL (pickGroup t ts excl) l with
        | ok a =>
          cases Res.mapL (pickGroup t ts excl) l' with
          | ok b =>
            cases Res.mapL (pickGroup t ts excl) (l ++ l') <;> intro ih <;> simp_all
          | err e =>
            cases Res.mapL (pickGroup t ts excl) (l ++ l') <;> intro ih <;> simp_all
          | panic =>
            cases Res.mapL (pickGroup t ts excl) (l ++ l') <;> intro ih <;> simp_all
        | err e =>
          cases Res.mapL (pickGroup t ts excl) (l ++ l') <;> intro ih <;> simp_all
        | panic =>
          cases Res.mapL (pickGroup t ts excl) (l ++ l') <;> intro ih <;> simp_all
      | err e => rfl
      | panic => rfl
  induction c with
  | nil => rfl
  | cons e c ih =>
    obtain ⟨path, gs⟩ := e
    unfold collectSlices
    by_cases hi : p.shouldInclude A path = false
    · rw [if_pos hi]
      simp only [List.filter_cons, hi, Bool.false_eq_true, if_false]
      exact ih
    · have hi' : p.shouldInclude A path = true := by simpa using hi
      rw [if_neg hi]
      simp only [List.filter_cons, hi', if_true, List.flatMap_cons]
      rw [← happ, ← ih, ← collectGroups_eq]
      cases hr : (collectGroups t ts excl gs).2 with
      | ok l => rfl
      | err e => rfl
      | panic => rfl

theorem collectSlices_keys (A : Arrow) (t : Tree) (ts : Str) (p : Pruner) (excl : List FileGroup)
    (c : Cache) : (collectSlices A t ts p excl c).1.map Prod.fst = c.map Prod.fst := by
  induction c with
  | nil => rfl
  | cons e c ih =>
    obtain ⟨path, gs⟩ := e
    unfold collectSlices
    split
    · simp only [List.map_cons]; rw [ih]
    · simp only
      split
      · simp only [List.map_cons]; rw [ih]
      · rfl
      · rfl

theorem mapL_perm {α β : Type} {f : α → Res β} {l l' : List α} (hp : l.Perm l') {r : List β}
    (h : Res.mapL f l = .ok r) : ∃ r', Res.mapL f l' = .ok r' ∧ r.Perm r' := by
  induction hp generalizing r with
  | nil => exact ⟨r, h, .refl _⟩
  | cons x _ ih =>
    obtain ⟨y, ys, h1, h2, rfl⟩ := Res.mapL_cons_ok.1 h
    obtain ⟨r', h3, h4⟩ := ih h2
    exact ⟨y :: r', Res.mapL_cons_ok.2 ⟨y, r', h1, h3, rfl⟩, h4.cons y⟩
  | swap x y l =>
    obtain ⟨a, as, h1, h2, rfl⟩ := Res.mapL_cons_ok.1 h
    obtain ⟨b, bs, h3, h4, rfl⟩ := Res.mapL_cons_ok.1 h2
    exact ⟨b :: a :: bs, Res.mapL_cons_ok.2 ⟨b, a :: bs, h3,
      Res.mapL_cons_ok.2 ⟨a, bs, h1, h4, rfl⟩, rfl⟩, .swap ..⟩
  | trans _ _ ih1 ih2 =>
    obtain ⟨r1, h1, p1⟩ := ih1 h
    obtain ⟨r2, h2, p2⟩ := ih2 h1
    exact ⟨r2, h2, p1.trans p2⟩

theorem mem_pickGroup {t : Tree} {ts : Str} {excl : List FileGroup} {g : FileGroup}
    {l : List FileSlice} (h : pickGroup t ts excl g = .ok l) (s : FileSlice) :
    s ∈ l ↔ fgContains excl g = false ∧ ∃ k s0, mapLastLe ts g.slices = some (k, s0) ∧
      s0.loadMetadata t = .ok s := by
  unfold pickGroup collectGroup at h
  cases hx : fgContains excl g with
  | true => rw [hx] at h; cases h; simp
  | false =>
    rw [hx] at h
    simp only [Bool.false_eq_true, if_false] at h
    cases hm : mapLastLe ts g.slices with
    | none => rw [hm] at h; cases h; simp
    | some e =>
      obtain ⟨k, s0⟩ := e
      rw [hm] at h
      simp only at h
      cases hl : s0.loadMetadata t with
      | ok s' =>
        rw [hl] at h; cases h
        simp only [Option.toList, List.mem_singleton, true_and, Option.some.injEq, Prod.mk.injEq]
        constructor
        · rintro rfl; exact ⟨k, s0, ⟨rfl, rfl⟩, hl⟩
        · rintro ⟨k', s0', ⟨rfl, rfl⟩, h'⟩
          rw [hl] at h'; cases h'; rfl
      | err e => rw [hl] at h; cases h
      | panic => rw [hl] at h; cases h

theorem pickGroup_length {t : Tree} {ts : Str} {excl : List FileGroup} {g : FileGroup}
    {l : List FileSlice} (h : pickGroup t ts excl g = .ok l) : l.length ≤ 1 := by
  unfold pickGroup at h
  obtain ⟨r, _, h⟩ := Res.bind_eq_ok.1 h
  cases h
  cases r.2 <;> simp

theorem loadMetadata_ok {t : Tree} {s0 s : FileSlice} (h : s0.loadMetadata t = .ok s) :
    s.partitionPath = s0.partitionPath ∧ s.logFiles = s0.logFiles ∧
      ∃ m, s.baseFile = { s0.baseFile with fileMeta := some m } ∧ m.full = true := by
  unfold FileSlice.loadMetadata at h
  split at h
  · rename_i hf
    injection h with h
    subst h
    obtain ⟨m, hm, hfull⟩ : ∃ m, s0.baseFile.fileMeta = some m ∧ m.full = true := by
      cases hmm : s0.baseFile.fileMeta with
      | none => rw [hmm] at hf; cases hf
      | some m => rw [hmm] at hf; exact ⟨m, rfl, hf⟩
    refine ⟨rfl, rfl, m, ?_, hfull⟩
    rw [← hm]
  · obtain ⟨m, h1, h2⟩ := Res.bind_eq_ok.1 h
    cases h2
    refine ⟨rfl, rfl, m, rfl, ?_⟩
    unfold getFileMetadata at h1
    obtain ⟨⟨sz, ct⟩, _, h1⟩ := Res.bind_eq_ok.1 h1
    cases ct with
    | parquet n b =>
      obtain ⟨_, _, h1⟩ := Res.bind_eq_ok.1 h1
      cases h1; rfl
    | _ => cases h1

end Hudi
