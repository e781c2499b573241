import Verif.Lemmas.FsView
import Verif.Props.Commits

/-! # Lemmas: snapshots -/

namespace Hudi
open Spec

/-- The file groups of the included partitions of a cache. -/
def included (A : Arrow) (p : Pruner) (c : Cache) : List FileGroup :=
  (c.filter (fun e => p.shouldInclude A e.1)).flatMap Prod.snd

theorem viewSlicesAsOf_ok {A : Arrow} {o : Opts} {t : Tree} {ts : Str} {p : Pruner}
    {excl : List FileGroup} {c : Cache} {ss : List FileSlice} :
    (viewSlicesAsOf A o t ts p excl c).2 = .ok ss ↔ ∃ m r, listRelevant A o t p = .ok m ∧
      Res.mapL (pickGroup t ts excl) (included A p (hmExtend c m)) = .ok r ∧ ss = r.flatten := by
  unfold viewSlicesAsOf loadFileGroups
  cases hm : listRelevant A o t p with
  | ok m =>
    simp only [Res.ok_bind, Res.pure_eq, collectSlices_eq, Res.bind_eq_ok, Res.ok.injEq, included]
    constructor
    · rintro ⟨r, h1, rfl⟩; exact ⟨m, r, rfl, h1, rfl⟩
    · rintro ⟨m', r, h1, h2, rfl⟩; cases h1; exact ⟨r, h2, rfl⟩
  | err e => simp
  | panic => simp

theorem viewSlicesAsOf_keys {A : Arrow} {o : Opts} {t : Tree} {ts : Str} {p : Pruner}
    {excl : List FileGroup} {c : Cache} (h : TreeWF t) :
    ∀ x ∈ (viewSlicesAsOf A o t ts p excl c).1.map Prod.fst,
      x ∈ c.map Prod.fst ∨ PartitionOf o t x := by
  unfold viewSlicesAsOf loadFileGroups
  cases hm : listRelevant A o t p with
  | ok m =>
    simp only [Res.ok_bind, Res.pure_eq, collectSlices_keys]
    intro x hx
    by_cases hc : x ∈ c.map Prod.fst
    · exact .inl hc
    · right
      obtain ⟨hn, h1, _⟩ := listRelevant_ok h hm
      have hget : hmGet x (hmExtend c m) ≠ none := by
        intro hnone
        exact hmGet_eq_none.1 hnone hx
      rw [hmGet_hmExtend, hmGet_eq_none.2 hc] at hget
      cases hg : hmGet x m.reverse with
      | none => rw [hg] at hget; exact absurd rfl hget
      | some gs =>
        have hmem : (x, gs) ∈ m := List.mem_reverse.1 (hmGet_mem hg)
        exact ((h1 x gs).1 ((hmGet_eq_some hn).2 hmem)).1
  | err e => exact fun x hx => .inl hx
  | panic => exact fun x hx => .inl hx

theorem viewSlicesAsOf_nodup {A : Arrow} {o : Opts} {t : Tree} {ts : Str} {p : Pruner}
    {excl : List FileGroup} {c : Cache} (h : HmNodup c) :
    HmNodup (viewSlicesAsOf A o t ts p excl c).1 := by
  unfold viewSlicesAsOf loadFileGroups
  cases hm : listRelevant A o t p with
  | ok m =>
    simp only [Res.ok_bind, Res.pure_eq]
    unfold HmNodup
    rw [collectSlices_keys]
    exact hmExtend_nodup h
  | err e => exact h
  | panic => exact h

theorem Query.bind_lift_snd {α β : Type} {r : Res α} {f : α → Query β} {c : Cache} {b : β} :
    ((Query.lift r >>= f) c).2 = .ok b ↔ ∃ a, r = .ok a ∧ (f a c).2 = .ok b := by
  cases r with
  | ok a =>
    show (f a c).2 = _ ↔ _
    constructor
    · exact fun h => ⟨a, rfl, h⟩
    · rintro ⟨a', h1, h2⟩; cases h1; exact h2
  | err e =>
    constructor
    · intro h; cases h
    · rintro ⟨a', h1, _⟩; cases h1
  | panic =>
    constructor
    · intro h; cases h
    · rintro ⟨a', h1, _⟩; cases h1

theorem Query.bind_lift_fst {α β : Type} (r : Res α) (f : α → Query β) (c : Cache) :
    ((Query.lift r >>= f) c).1 = c ∨ ∃ a, r = .ok a ∧ ((Query.lift r >>= f) c).1 = (f a c).1 := by
  cases r with
  | ok a => exact .inr ⟨a, rfl, rfl⟩
  | err e => exact .inl rfl
  | panic => exact .inl rfl

theorem fileSlicesInternal_ok {E : Env} {A : Arrow} {tb : Table} {t : Tree} {ts : Str}
    {fs : List Filter} {c : Cache} {ss : List FileSlice} :
    (tb.fileSlicesInternal E A t ts fs c).2 = .ok ss ↔ ∃ excl schema p,
      tb.timeline.replacedAsOf E t ts = .ok excl ∧ tb.partitionSchema t = .ok schema ∧
      Pruner.new A fs schema tb.opts = .ok p ∧
      (viewSlicesAsOf A tb.opts t ts p excl c).2 = .ok ss := by
  unfold Table.fileSlicesInternal
  simp only [Query.bind_lift_snd]
  constructor
  · rintro ⟨a, h1, b, h2, d, h3, h4⟩; exact ⟨a, b, d, h1, h2, h3, h4⟩
  · rintro ⟨a, b, d, h1, h2, h3, h4⟩; exact ⟨a, h1, b, h2, d, h3, h4⟩

theorem fileSlicesInternal_cache {E : Env} {A : Arrow} {tb : Table} {t : Tree} {ts : Str}
    {fs : List Filter} {c : Cache} (h : TreeWF t) (hc : HmNodup c) :
    HmNodup (tb.fileSlicesInternal E A t ts fs c).1 ∧
    ∀ x ∈ (tb.fileSlicesInternal E A t ts fs c).1.map Prod.fst,
      x ∈ c.map Prod.fst ∨ PartitionOf tb.opts t x := by
  unfold Table.fileSlicesInternal
  rcases Query.bind_lift_fst (tb.timeline.replacedAsOf E t ts) _ c with h1 | ⟨a, _, h1⟩
  · rw [h1]; exact ⟨hc, fun x hx => .inl hx⟩
  rw [h1]
  rcases Query.bind_lift_fst (tb.partitionSchema t) _ c with h2 | ⟨b, _, h2⟩
  · rw [h2]; exact ⟨hc, fun x hx => .inl hx⟩
  rw [h2]
  rcases Query.bind_lift_fst (Pruner.new A fs b tb.opts) _ c with h3 | ⟨d, _, h3⟩
  · rw [h3]; exact ⟨hc, fun x hx => .inl hx⟩
  rw [h3]
  exact ⟨viewSlicesAsOf_nodup hc, viewSlicesAsOf_keys h⟩

theorem bind_lift_cache {α β : Type} (x : Query α) (f : α → Res β) (c : Cache) :
    ((x >>= fun l => Query.lift (f l)) c).1 = (x c).1 := by
  show (Query.bind x _ c).1 = _
  unfold Query.bind
  split <;> simp_all [Query.lift]

theorem cacheAfter_step {E : Env} {A : Arrow} {tb : Table} {t : Tree} {c : Cache} (h : TreeWF t)
    (hc : HmNodup c) (q : SliceQuery) : HmNodup (q.cacheAfter E A tb t c) ∧
      ∀ x ∈ (q.cacheAfter E A tb t c).map Prod.fst, x ∈ c.map Prod.fst ∨ PartitionOf tb.opts t x := by
  have hid : HmNodup c ∧ ∀ x ∈ c.map Prod.fst, x ∈ c.map Prod.fst ∨ PartitionOf tb.opts t x :=
    ⟨hc, fun x hx => .inl hx⟩
  have hsplit : ∀ n ts fs, (tb.fileSlicesSplitsInternal E A t n ts fs c).1 =
      (tb.fileSlicesInternal E A t ts fs c).1 := by
    intro n ts fs
    exact bind_lift_cache (tb.fileSlicesInternal E A t ts fs) (fun l => splitSlices n l) c
  cases q with
  | latest fs =>
    unfold SliceQuery.cacheAfter
    simp only
    unfold Table.fileSlices
    cases tb.timeline.latestTimestamp with
    | none => exact hid
    | some ts =>
      simp only
      rcases Query.bind_lift_fst (fromStrTuples fs) _ c with h1 | ⟨a, _, h1⟩
      · rw [h1]; exact hid
      · rw [h1]; exact fileSlicesInternal_cache h hc
  | asOf ts fs =>
    unfold SliceQuery.cacheAfter
    simp only
    unfold Table.fileSlicesAsOf
    rcases Query.bind_lift_fst (fromStrTuples fs) _ c with h1 | ⟨a, _, h1⟩
    · rw [h1]; exact hid
    · rw [h1]; exact fileSlicesInternal_cache h hc
  | splits n fs =>
    unfold SliceQuery.cacheAfter
    simp only
    unfold Table.fileSlicesSplits
    cases tb.timeline.latestTimestamp with
    | none => exact hid
    | some ts =>
      simp only
      rcases Query.bind_lift_fst (fromStrTuples fs) _ c with h1 | ⟨a, _, h1⟩
      · rw [h1]; exact hid
      · rw [h1, hsplit]; exact fileSlicesInternal_cache h hc
  | splitsAsOf n ts fs =>
    unfold SliceQuery.cacheAfter
    simp only
    unfold Table.fileSlicesSplitsAsOf
    rcases Query.bind_lift_fst (fromStrTuples fs) _ c with h1 | ⟨a, _, h1⟩
    · rw [h1]; exact hid
    · rw [h1, hsplit]; exact fileSlicesInternal_cache h hc

theorem cacheAfter_keys {E : Env} {A : Arrow} {tb : Table} {hist : List Tree} {c : Cache}
    (h : CacheAfter E A tb hist c) (hwf : ∀ t ∈ hist, TreeWF t) :
    HmNodup c ∧ ∀ x ∈ c.map Prod.fst, ∃ t ∈ hist, PartitionOf tb.opts t x := by
  induction h with
  | opened => exact ⟨by simp [HmNodup], by simp⟩
  | query t q _ ih =>
    obtain ⟨h1, h2⟩ := ih (fun t ht => hwf t (by simp [ht]))
    obtain ⟨h3, h4⟩ := cacheAfter_step (E := E) (A := A) (tb := tb) (hwf t (by simp)) h1 q
    refine ⟨h3, fun x hx => ?_⟩
    rcases h4 x hx with hx | hx
    · obtain ⟨t', ht', hp⟩ := h2 x hx
      exact ⟨t', by simp [ht'], hp⟩
    · exact ⟨t, by simp, hx⟩

/-- The entries looked at by a query, when every cached included partition is still on storage, do
not depend on the cache. -/
theorem included_perm {A : Arrow} {o : Opts} {t : Tree} {p : Pruner} {m c : Cache} (h : TreeWF t)
    (hm : listRelevant A o t p = .ok m) (hc : HmNodup c)
    (hk : ∀ x ∈ c.map Prod.fst, PartitionOf o t x) :
    (included A p m).Perm (included A p (hmExtend c m)) := by
  obtain ⟨hn, h1, h2⟩ := listRelevant_ok h hm
  unfold included
  refine List.Perm.flatMap_right _ ?_
  have hnd : (m.filter (fun e => p.shouldInclude A e.1)).Nodup :=
    (List.Nodup.of_map Prod.fst hn).filter _
  have hnd' : ((hmExtend c m).filter (fun e => p.shouldInclude A e.1)).Nodup :=
    (List.Nodup.of_map Prod.fst (hmExtend_nodup hc)).filter _
  refine (List.perm_ext_iff_of_nodup hnd hnd').2 (fun e => ?_)
  obtain ⟨x, gs⟩ := e
  rw [List.mem_filter, List.mem_filter]
  refine and_congr_left (fun hi => ?_)
  simp only at hi
  have hrev : HmNodup m.reverse := by
    unfold HmNodup
    rw [List.map_reverse]
    exact List.nodup_reverse.2 hn
  have hget : hmGet x m.reverse = hmGet x m := by
    apply Option.ext
    intro v
    rw [hmGet_eq_some hrev, hmGet_eq_some hn, List.mem_reverse]
  rw [← hmGet_eq_some hn, ← hmGet_eq_some (hmExtend_nodup hc), hmGet_hmExtend, hget]
  cases hg : hmGet x m with
  | some v => simp
  | none =>
    simp only [reduceCtorEq, Option.none_or, false_iff]
    intro hcx
    have hx : x ∈ c.map Prod.fst := List.mem_map.2 ⟨_, hmGet_mem hcx, rfl⟩
    have hpart := hk x hx
    obtain ⟨gs', hgs'⟩ := h2 x hpart (fun _ => hi)
    rw [(h1 x gs').2 ⟨hpart, fun _ => hi, hgs'⟩] at hg
    cases hg

theorem mem_included {A : Arrow} {o : Opts} {t : Tree} {p : Pruner} {m : Cache} (h : TreeWF t)
    (hm : listRelevant A o t p = .ok m) (g : FileGroup) :
    g ∈ included A p m ↔ ∃ x gs, PartitionOf o t x ∧ p.shouldInclude A x = true ∧
      listFileGroups o t x = .ok gs ∧ g ∈ gs := by
  obtain ⟨hn, h1, h2⟩ := listRelevant_ok h hm
  unfold included
  simp only [List.mem_flatMap, List.mem_filter, Prod.exists]
  constructor
  · rintro ⟨x, gs, ⟨hx, hi⟩, hg⟩
    obtain ⟨a1, a2, a3⟩ := (h1 x gs).1 ((hmGet_eq_some hn).2 hx)
    exact ⟨x, gs, a1, hi, a3, hg⟩
  · rintro ⟨x, gs, a1, hi, a3, hg⟩
    exact ⟨x, gs, ⟨(hmGet_eq_some hn).1 ((h1 x gs).2 ⟨a1, fun _ => hi, a3⟩), hi⟩, hg⟩

theorem included_nodup {A : Arrow} {o : Opts} {t : Tree} {p : Pruner} {m : Cache} (h : TreeWF t)
    (hm : listRelevant A o t p = .ok m) :
    ((included A p m).map (fun g => (g.partitionPath, g.fileId))).Nodup := by
  obtain ⟨hn, h1, h2⟩ := listRelevant_ok h hm
  unfold included
  rw [List.map_flatMap, List.nodup_flatMap]
  have hentry : ∀ e ∈ m.filter (fun e => p.shouldInclude A e.1),
      (e.2.map FileGroup.fileId).Nodup ∧ ∀ g ∈ e.2, g.partitionPath = e.1 := by
    rintro ⟨x, gs⟩ he
    obtain ⟨a1, a2, a3⟩ := (h1 x gs).1 ((hmGet_eq_some hn).2 (List.mem_filter.1 he).1)
    obtain ⟨b1, b2, _⟩ := listFileGroups_spec (h.at (pathSegs x)).files_nodup a3
    exact ⟨b1, fun g hg => (b2 g hg).1⟩
  constructor
  · intro e he
    have := (hentry e he).1
    refine List.Nodup.of_map Prod.snd ?_
    rw [List.map_map]
    exact this
  · have hsub : ((m.filter (fun e => p.shouldInclude A e.1)).map Prod.fst).Nodup :=
      List.Nodup.sublist (List.Sublist.map _ List.filter_sublist) hn
    rw [List.Nodup, List.pairwise_map] at hsub
    refine List.Pairwise.imp_of_mem ?_ hsub
    intro a b ha hb hab
    simp only [Function.onFun]
    rw [List.disjoint_left]
    intro y hy hy'
    obtain ⟨g, hg, rfl⟩ := List.mem_map.1 hy
    obtain ⟨g', hg', he⟩ := List.mem_map.1 hy'
    have e1 := (hentry a ha).2 g hg
    have e2 := (hentry b hb).2 g' hg'
    have := (Prod.mk.inj he).1
    exact hab (e1.symm.trans (this.symm.trans e2))

theorem mapL_flatten_sublist {α β κ : Type} {f : α → Res (List β)} {key : α → κ} {key' : β → κ}
    {l : List α} {r : List (List β)} (h : Res.mapL f l = .ok r)
    (hone : ∀ a ∈ l, ∀ bs, f a = .ok bs → bs.length ≤ 1 ∧ ∀ b ∈ bs, key' b = key a) :
    (r.flatten.map key').Sublist (l.map key) := by
  induction l generalizing r with
  | nil => cases h; exact .slnil
  | cons a l ih =>
    obtain ⟨bs, r', h1, h2, rfl⟩ := Res.mapL_cons_ok.1 h
    have ih := ih h2 (fun a ha => hone a (by simp [ha]))
    obtain ⟨hl, hk⟩ := hone a (by simp) bs h1
    match bs, hl, hk with
    | [], _, _ => exact ih.cons _
    | [b], _, hk =>
      have : key' b = key a := hk b (by simp)
      simp only [List.flatten_cons, List.cons_append, List.nil_append, List.map_cons, this]
      exact ih.cons_cons _
    | _ :: _ :: _, hl, _ => simp at hl

theorem view_listable {A : Arrow} {o : Opts} {t : Tree} {ts : Str} {p : Pruner}
    {excl : List FileGroup} {c : Cache} {ss : List FileSlice} (h : TreeWF t)
    (hq : (viewSlicesAsOf A o t ts p excl c).2 = .ok ss) (x : Str) (hx : PartitionOf o t x)
    (hi : p.shouldInclude A x = true) : Listable (filesOf t x) := by
  obtain ⟨m, r, hm, _, rfl⟩ := viewSlicesAsOf_ok.1 hq
  obtain ⟨gs, hgs⟩ := (listRelevant_ok h hm).2.2 x hx (fun _ => hi)
  exact (listFileGroups_ok_iff o t x (h.at (pathSegs x)).files_nodup).1 ⟨gs, hgs⟩

/-- The outcome of a query through a fresh handle is the snapshot. -/
theorem view_snapshot {A : Arrow} {o : Opts} {t : Tree} {ts : Str} {p : Pruner}
    {excl : List FileGroup} {ss : List FileSlice} (h : TreeWF t)
    (hone : ∀ x, PartitionOf o t x → OneExtension (filesOf t x))
    (hq : (viewSlicesAsOf A o t ts p excl []).2 = .ok ss) :
    SnapshotOf t (fun x => PartitionOf o t x ∧ p.shouldInclude A x = true)
      (fun x f => ∃ g ∈ excl, groupId g = (x, f)) ts ss := by
  obtain ⟨m, r, hm, hr, rfl⟩ := viewSlicesAsOf_ok.1 hq
  have hperm := included_perm (c := []) h hm (by simp [HmNodup]) (by simp)
  obtain ⟨hn, _, _⟩ := listRelevant_ok h hm
  have hext : hmExtend [] m = m := by
    have := hmOfList_eq hn
    exact this
  rw [hext] at hr
  have hexcl : ∀ g : FileGroup, fgContains excl g = false ↔
      ¬ ∃ g' ∈ excl, groupId g' = (g.partitionPath, g.fileId) := by
    intro g
    unfold fgContains
    rw [List.any_eq_false]
    constructor
    · rintro hx ⟨g', hg', he⟩
      apply hx g' hg'
      rw [same_iff]
      exact ⟨(Prod.mk.inj he).2, (Prod.mk.inj he).1⟩
    · intro hx g' hg' hs
      rw [same_iff] at hs
      exact hx ⟨g', hg', by unfold groupId; rw [hs.1, hs.2]⟩
  -- one group and its slice
  have hslice : ∀ g ∈ included A p m, ∀ s, (fgContains excl g = false ∧ ∃ k s0,
      mapLastLe ts g.slices = some (k, s0) ∧ s0.loadMetadata t = .ok s) →
      s.partitionPath = g.partitionPath ∧ s.baseFile.fileId = g.fileId ∧
      (PartitionOf o t g.partitionPath ∧ p.shouldInclude A g.partitionPath = true) ∧
      (¬ ∃ g' ∈ excl, groupId g' = (g.partitionPath, g.fileId)) ∧
      (∃ b mm, BaseIn (filesOf t g.partitionPath) b ∧ s.baseFile = { b with fileMeta := some mm }) ∧
      (compare s.baseFile.commitTimestamp ts).isLE ∧
      (∀ b, BaseIn (filesOf t g.partitionPath) b → b.fileId = g.fileId →
        (compare b.commitTimestamp ts).isLE →
        (compare b.commitTimestamp s.baseFile.commitTimestamp).isLE) ∧
      ∀ l, l ∈ s.logFiles ↔ LogIn (filesOf t g.partitionPath) l ∧ l.fileId = g.fileId ∧
        l.baseCommitTimestamp = s.baseFile.commitTimestamp := by
    rintro g hg s ⟨hx, k, s0, hl, hload⟩
    obtain ⟨x, gs, hpart, hi, hgs, hgm⟩ := (mem_included h hm g).1 hg
    have hnd := (h.at (pathSegs x)).files_nodup
    have hlist := listFileGroups_listing hnd (hone x hpart) hgs
    have hw := listFileGroups_wf hnd hgs g hgm
    have hpp : g.partitionPath = x := hlist.inPartition g hgm
    obtain ⟨e1, e2, e3⟩ := (mapLastLe_eq_some hw.sorted).1 hl
    have hsl : sliceAt g k = some s0 := by rw [sliceAt_eq]; exact (mapGet_eq_some hw.sorted).2 e1
    obtain ⟨b1, b2, b3, b4, b5⟩ := hlist.slices g hgm k s0 hsl
    obtain ⟨l1, l2, mm, l3, _⟩ := loadMetadata_ok hload
    subst hpp
    have hts : s.baseFile.commitTimestamp = k := by rw [l3]; exact b3
    refine ⟨l1.trans b4, by rw [l3]; exact b2, ⟨hpart, hi⟩, (hexcl g).1 hx,
      ⟨s0.baseFile, mm, b1, l3⟩, by rw [hts]; exact e2, ?_, ?_⟩
    · intro b hb hbf hble
      obtain ⟨s', c1, c2⟩ := hlist.bases g hgm b hb hbf
      rw [hts]
      refine e3 (b.commitTimestamp, s') ?_ hble
      exact (mapGet_eq_some hw.sorted).1 (by rw [← sliceAt_eq]; exact c1)
    · intro l
      rw [l2, b5, hts]; rfl
  have hmem : ∀ s, s ∈ r.flatten ↔ ∃ g ∈ included A p m, fgContains excl g = false ∧ ∃ k s0,
      mapLastLe ts g.slices = some (k, s0) ∧ s0.loadMetadata t = .ok s := by
    intro s
    rw [List.mem_flatten]
    constructor
    · rintro ⟨l, hl, hs⟩
      obtain ⟨g, hg, hgl⟩ := (Res.mapL_mem hr l).1 hl
      exact ⟨g, hg, (mem_pickGroup hgl s).1 hs⟩
    · rintro ⟨g, hg, hs⟩
      obtain ⟨l, hgl, hl⟩ := Res.mapL_ok_mem hr g hg
      exact ⟨l, hl, (mem_pickGroup hgl s).2 hs⟩
  refine ⟨?_, ?_, ?_, ?_, ?_, ?_⟩
  · refine List.Nodup.sublist (mapL_flatten_sublist (key := fun g => (g.partitionPath, g.fileId))
      (key' := fun s => (s.partitionPath, s.baseFile.fileId)) hr ?_) (included_nodup h hm)
    intro g hg l hl
    refine ⟨pickGroup_length hl, fun s hs => ?_⟩
    obtain ⟨a1, a2, _⟩ := hslice g hg s ((mem_pickGroup hl s).1 hs)
    rw [a1, a2]
  · intro s hs
    obtain ⟨g, hg, hgs⟩ := (hmem s).1 hs
    obtain ⟨a1, a2, a3, a4, a5, _⟩ := hslice g hg s hgs
    rw [a1, a2]
    exact ⟨a3, a4, a5⟩
  · intro s hs
    obtain ⟨g, hg, hgs⟩ := (hmem s).1 hs
    exact (hslice g hg s hgs).2.2.2.2.2.1
  · intro s hs
    obtain ⟨g, hg, hgs⟩ := (hmem s).1 hs
    obtain ⟨a1, a2, _, _, _, _, a7, _⟩ := hslice g hg s hgs
    rw [a1, a2]
    exact a7
  · intro s hs
    obtain ⟨g, hg, hgs⟩ := (hmem s).1 hs
    obtain ⟨a1, a2, _, _, _, _, _, a8⟩ := hslice g hg s hgs
    rw [a1, a2]
    exact a8
  · rintro x ⟨hpart, hi⟩ b hb hble hnr
    obtain ⟨gs, hgs⟩ := (listRelevant_ok h hm).2.2 x hpart (fun _ => hi)
    have hnd := (h.at (pathSegs x)).files_nodup
    have hlist := listFileGroups_listing hnd (hone x hpart) hgs
    obtain ⟨g, hgm, hgf⟩ := (hlist.groups b.fileId).2 ⟨b, hb, rfl⟩
    have hw := listFileGroups_wf hnd hgs g hgm
    have hpp : g.partitionPath = x := hlist.inPartition g hgm
    have hg : g ∈ included A p m := (mem_included h hm g).2 ⟨x, gs, hpart, hi, hgs, hgm⟩
    have hx : fgContains excl g = false := (hexcl g).2 (by rw [hpp, hgf]; exact hnr)
    obtain ⟨sb, c1, c2⟩ := hlist.bases g hgm b hb hgf.symm
    obtain ⟨l, hgl, hl⟩ := Res.mapL_ok_mem hr g hg
    cases hlast : mapLastLe ts g.slices with
    | none =>
      have := mapLastLe_eq_none.1 hlast (b.commitTimestamp, sb)
        ((mapGet_eq_some hw.sorted).1 (by rw [← sliceAt_eq]; exact c1))
      rw [this] at hble; cases hble
    | some e =>
      obtain ⟨k, s0⟩ := e
      have hs : ∃ s, s0.loadMetadata t = .ok s := by
        unfold pickGroup collectGroup at hgl
        rw [hx, hlast] at hgl
        simp only [Bool.false_eq_true, if_false] at hgl
        cases hld : s0.loadMetadata t with
        | ok s => exact ⟨s, rfl⟩
        | err e => rw [hld] at hgl; cases hgl
        | panic => rw [hld] at hgl; cases hgl
      obtain ⟨s, hs⟩ := hs
      have hin : s ∈ r.flatten := (hmem s).2 ⟨g, hg, hx, k, s0, hlast, hs⟩
      obtain ⟨a1, a2, _⟩ := hslice g hg s ⟨hx, k, s0, hlast, hs⟩
      exact ⟨s, hin, a1.trans hpp, a2.trans hgf⟩

end Hudi
