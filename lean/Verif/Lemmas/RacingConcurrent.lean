import Verif.Spec.RacingConcurrent
import Verif.Lemmas.Concurrent
import Verif.Lemmas.RacingFaults

/-! # Lemmas: concurrent queries while writers work -/

namespace Hudi
open Spec

/-! ## File groups listed at some moment, with some metadata loaded at others -/

/-- What is known of the storage at all moments `P`, for reads of the table `t` as of `ts`: the partitions of `t` are
there; and base files up to `ts` are in partitions of `t` and have the same metadata as in `t`. -/
structure SeenUpTo (o : Opts) (t : Tree) (ts : Str) (P : Tree → Prop) : Prop where
  wf : ∀ u, P u → TreeWF u
  part : ∀ u, P u → ∀ x, PartitionOf o t x → PartitionOf o u x
  path : ∀ x, PartitionOf o t x → PartitionPath o x
  bases : ∀ u, P u → ∀ x b, PartitionPath o x → BaseIn (filesOf u x) b → (compare b.commitTimestamp ts).isLE = true →
    PartitionOf o t x ∧ ∃ m, getFileMetadata t (pathPush x b.fileName) = .ok m ∧
      ∀ v, P v → getFileMetadata v (pathPush x b.fileName) = .ok m

/-- `g'` is `g` with the metadata of some of its slices loaded, that of slices up to `ts` as `t` has it. -/
structure LoadedUpTo (t : Tree) (ts : Str) (g g' : FileGroup) : Prop where
  id : g'.fileId = g.fileId
  partition : g'.partitionPath = g.partitionPath
  sorted0 : MapSorted g.slices
  sorted : MapSorted g'.slices
  back : ∀ k s', mapGet k g'.slices = some s' → ∃ s, mapGet k g.slices = some s ∧
    ((compare k ts).isLE = true → s' = s ∨ s.loadMetadata t = .ok s')
  forth : ∀ k s, mapGet k g.slices = some s → ∃ s', mapGet k g'.slices = some s'

theorem LoadedUpTo.refl {t : Tree} {ts : Str} {g : FileGroup} (h : MapSorted g.slices) : LoadedUpTo t ts g g :=
  ⟨rfl, rfl, h, h, fun _ s' hs => ⟨s', hs, fun _ => .inl rfl⟩, fun _ s hs => ⟨s, hs⟩⟩

theorem LoadedUpTo.lastLe {t : Tree} {ts : Str} {g g' : FileGroup} (h : LoadedUpTo t ts g g') (ts' : Str) :
    (mapLastLe ts' g.slices = none ∧ mapLastLe ts' g'.slices = none) ∨
    ∃ k s s', mapLastLe ts' g.slices = some (k, s) ∧ mapLastLe ts' g'.slices = some (k, s') ∧
      mapGet k g.slices = some s ∧ (compare k ts').isLE = true ∧
      ((compare k ts).isLE = true → s' = s ∨ s.loadMetadata t = .ok s') := by
  cases hl : mapLastLe ts' g'.slices with
  | none =>
    left
    refine ⟨?_, rfl⟩
    rw [mapLastLe_eq_none] at hl ⊢
    rintro ⟨k, s⟩ he
    obtain ⟨s', hs'⟩ := h.forth k s ((mapGet_eq_some h.sorted0).2 he)
    exact hl (k, s') ((mapGet_eq_some h.sorted).1 hs')
  | some e =>
    obtain ⟨k, s'⟩ := e
    right
    obtain ⟨h1, h2, h3⟩ := (mapLastLe_eq_some h.sorted).1 hl
    obtain ⟨s, hs, hrel⟩ := h.back k s' ((mapGet_eq_some h.sorted).2 h1)
    refine ⟨k, s, s', ?_, rfl, hs, h2, hrel⟩
    refine (mapLastLe_eq_some h.sorted0).2 ⟨(mapGet_eq_some h.sorted0).1 hs, h2, ?_⟩
    rintro ⟨k', s0⟩ he hle
    obtain ⟨s0', hs0'⟩ := h.forth k' s0 ((mapGet_eq_some h.sorted0).2 he)
    exact h3 (k', s0') ((mapGet_eq_some h.sorted).1 hs0') hle

theorem LoadedUpTo.contains {t : Tree} {ts : Str} {g g' : FileGroup} (h : LoadedUpTo t ts g g') (excl : List FileGroup) :
    fgContains excl g' = fgContains excl g := by
  unfold fgContains FileGroup.same
  rw [h.id, h.partition]

/-- A group that is listed in the partition at one of the moments. -/
def ListedGroup (o : Opts) (P : Tree → Prop) (x : Str) (g : FileGroup) : Prop :=
  PartitionPath o x ∧ ∃ u gs, P u ∧ listFileGroups o u x = .ok gs ∧ g ∈ gs

theorem ListedGroup.sorted {o : Opts} {t : Tree} {ts : Str} {P : Tree → Prop} (hS : SeenUpTo o t ts P) {x : Str}
    {g : FileGroup} (h : ListedGroup o P x g) : MapSorted g.slices := by
  obtain ⟨_, u, gs, hu, hl, hg⟩ := h
  exact (listFileGroups_wf ((hS.wf u hu).at (pathSegs x)).files_nodup hl g hg).sorted

/-- The metadata of a listed slice up to `ts` is the same at all moments. -/
theorem ListedGroup.loads {o : Opts} {t : Tree} {ts : Str} {P : Tree → Prop} (hS : SeenUpTo o t ts P) {x : Str}
    {g : FileGroup} (h : ListedGroup o P x g) {k : Str} {s : FileSlice} (hk : mapGet k g.slices = some s)
    (hle : (compare k ts).isLE = true) :
    PartitionOf o t x ∧ ∃ s1, s.loadMetadata t = .ok s1 ∧ ∀ v, P v → s.loadMetadata v = .ok s1 := by
  obtain ⟨hx, u, gs, hu, hl, hg⟩ := h
  obtain ⟨_, hspec, _⟩ := listFileGroups_spec ((hS.wf u hu).at (pathSegs x)).files_nodup hl
  obtain ⟨_, _, hsl⟩ := hspec g hg
  obtain ⟨b, hb, _, hts, rfl⟩ := (hsl k s).1 hk
  obtain ⟨hp, m, hm, hv⟩ := hS.bases u hu x b hx hb (by rw [hts]; exact hle)
  refine ⟨hp, ?_⟩
  unfold FileSlice.loadMetadata
  split
  · exact ⟨_, rfl, fun _ _ => rfl⟩
  · refine ⟨_, by simp only [FileSlice.basePath, FileSlice.relativePathFor, hm, Res.ok_bind]; rfl, fun v h => ?_⟩
    simp only [FileSlice.basePath, FileSlice.relativePathFor, hv v h, Res.ok_bind]
    rfl

theorem loadMetadata_loaded {t v : Tree} {s s' : FileSlice} (h : s.loadMetadata t = .ok s') :
    s'.loadMetadata v = .ok s' := by
  obtain ⟨_, _, m, h3, h4⟩ := loadMetadata_ok h
  unfold FileSlice.loadMetadata
  rw [h3]
  simp [h4]

/-- Loading more, for whatever query, at any moment. -/
theorem LoadedUpTo.collect {o : Opts} {t : Tree} {ts : Str} {P : Tree → Prop} (hS : SeenUpTo o t ts P) {x : Str}
    {g g' g'' : FileGroup} (hg : ListedGroup o P x g) (h : LoadedUpTo t ts g g') {v : Tree} (hv : P v) {ts' : Str}
    {excl : List FileGroup} {s : Option FileSlice} (hc : collectGroup v ts' excl g' = .ok (g'', s)) :
    LoadedUpTo t ts g g'' := by
  unfold collectGroup at hc
  split at hc
  · cases hc; exact h
  · rcases h.lastLe ts' with ⟨h1, h2⟩ | ⟨k, s0, s0', h1, h2, h4, h5, h3⟩
    · rw [h2] at hc; cases hc; exact h
    · rw [h2] at hc
      obtain ⟨s1, h6, h7⟩ := Res.bind_eq_ok.1 hc
      cases h7
      have h8 : (compare k ts).isLE = true → s0.loadMetadata t = .ok s1 := by
        intro hle
        obtain ⟨_, s2, e1, e2⟩ := hg.loads hS h4 hle
        rcases h3 hle with rfl | h3
        · rw [e2 v hv] at h6; cases h6; exact e1
        · rw [loadMetadata_loaded h3] at h6; cases h6; exact h3
      refine ⟨h.id, h.partition, h.sorted0, mapInsert_sorted h.sorted, ?_, ?_⟩
      · intro k' s' hs'
        rw [mapGet_insert] at hs'
        split at hs'
        · rename_i he
          subst he
          cases hs'
          exact ⟨s0, h4, fun hle => .inr (h8 hle)⟩
        · exact h.back k' s' hs'
      · intro k' s' hs'
        rw [mapGet_insert]
        split
        · exact ⟨_, rfl⟩
        · exact h.forth k' s' hs'

/-- Picking the slice as of `ts` does not depend on what is loaded, and does not fail. -/
theorem LoadedUpTo.pick {o : Opts} {t : Tree} {ts : Str} {P : Tree → Prop} (hS : SeenUpTo o t ts P) {x : Str}
    {g g' : FileGroup} (hg : ListedGroup o P x g) (h : LoadedUpTo t ts g g') {v : Tree} (hv : P v)
    (excl : List FileGroup) :
    ∃ g'' s, collectGroup v ts excl g' = .ok (g'', s) ∧ pickGroup t ts excl g = .ok s.toList := by
  unfold pickGroup collectGroup
  rw [h.contains]
  by_cases hx : fgContains excl g = true
  · simp only [hx, if_true]
    exact ⟨_, _, rfl, rfl⟩
  · simp only [hx, Bool.false_eq_true, if_false]
    rcases h.lastLe ts with ⟨h1, h2⟩ | ⟨k, s, s', h1, h2, h4, h5, h3⟩
    · rw [h1, h2]
      exact ⟨_, _, rfl, rfl⟩
    · rw [h1, h2]
      simp only
      obtain ⟨_, s2, e1, e2⟩ := hg.loads hS h4 h5
      rcases h3 h5 with rfl | h3
      · rw [e1, e2 v hv]
        exact ⟨_, _, rfl, rfl⟩
      · rw [loadMetadata_loaded h3, h3]
        exact ⟨_, _, rfl, rfl⟩

theorem collectGroup_keys {t : Tree} {ts : Str} {excl : List FileGroup} {g g' : FileGroup} {s : Option FileSlice}
    (h : collectGroup t ts excl g = .ok (g', s)) : ∀ k ∈ g'.slices.map Prod.fst, k ∈ g.slices.map Prod.fst := by
  unfold collectGroup at h
  split at h
  · cases h; exact fun k hk => hk
  · cases hl : mapLastLe ts g.slices with
    | none => rw [hl] at h; cases h; exact fun k hk => hk
    | some e =>
      obtain ⟨k0, s0⟩ := e
      rw [hl] at h
      have hk0 : k0 ∈ g.slices.map Prod.fst := by
        unfold mapLastLe at hl
        exact List.mem_map.2 ⟨_, (List.mem_filter.1 (List.mem_of_getLast? hl)).1, rfl⟩
      obtain ⟨s1, _, h⟩ := Res.bind_eq_ok.1 h
      cases h
      intro k hk
      obtain ⟨e, he, rfl⟩ := List.mem_map.1 hk
      rcases mapInsert_keys_sub _ _ _ e he with he | he
      · rw [Std.LawfulEqOrd.eq_of_compare he]; exact hk0
      · exact List.mem_map.2 ⟨e, he, rfl⟩

/-! ## The cache and the queries -/

/-- The cache holds a listing of the partition at one of the moments, possibly with metadata loaded. -/
def FreshIn (o : Opts) (t : Tree) (ts : Str) (P : Tree → Prop) (c : Cache) (x : Str) : Prop :=
  PartitionPath o x ∧ ∃ u gs0 gs', P u ∧ listFileGroups o u x = .ok gs0 ∧ hmGet x c = some gs' ∧
    List.Forall₂ (LoadedUpTo t ts) gs0 gs'

/-- What is known about any query: what it is going to put into the cache has been listed at one of the moments, and
what it looks at is in the shard it holds. -/
def PlaceInv (R : Runtime) (o : Opts) (P : Tree → Prop) : Pc → Prop
  | .inserting _ rest => ∀ x gs, (x, gs) ∈ rest → PartitionPath o x ∧ ∃ u, P u ∧ listFileGroups o u x = .ok gs
  | .visiting _ k rest _ _ => ∀ x ∈ rest, R.shard x = k
  | _ => True

theorem freshIn_insert {o : Opts} {t : Tree} {ts : Str} {P : Tree → Prop} {c : Cache} {x : Str} {u : Tree}
    {gs0 gs : List FileGroup} (hx : PartitionPath o x) (hu : P u) (hl : listFileGroups o u x = .ok gs0)
    (h : List.Forall₂ (LoadedUpTo t ts) gs0 gs) : FreshIn o t ts P (hmInsert x gs c) x ∧
      ∀ y, FreshIn o t ts P c y → FreshIn o t ts P (hmInsert x gs c) y := by
  have hself : FreshIn o t ts P (hmInsert x gs c) x :=
    ⟨hx, u, gs0, gs, hu, hl, by rw [hmGet_hmInsert]; simp, h⟩
  refine ⟨hself, fun y hy => ?_⟩
  by_cases he : y = x
  · rw [he]; exact hself
  · obtain ⟨h1, u', gs1, gs', h2, h3, h4, h5⟩ := hy
    exact ⟨h1, u', gs1, gs', h2, h3, by rw [hmGet_hmInsert]; simp [he, h4], h5⟩

theorem sourcedBy_insert {o : Opts} {P : Tree → Prop} {c : Cache} (hc : SourcedBy o P c) {x : Str} {gs : List FileGroup}
    (h : ∀ g ∈ gs, ∀ k ∈ g.slices.map Prod.fst,
      PartitionPath o x ∧ ∃ u, P u ∧ ∃ b, BaseIn (filesOf u x) b ∧ b.commitTimestamp = k) :
    SourcedBy o P (hmInsert x gs c) := by
  refine ⟨hmInsert_nodup hc.1, fun y gs' hy => ?_⟩
  have hy := (hmGet_eq_some (hmInsert_nodup hc.1)).2 hy
  rw [hmGet_hmInsert] at hy
  split at hy
  · rename_i he
    cases hy
    rw [he]
    exact h
  · exact hc.2 y gs' (hmGet_mem hy)

theorem listed_sourced {o : Opts} {t : Tree} {ts : Str} {P : Tree → Prop} (hS : SeenUpTo o t ts P) {x : Str}
    (hx : PartitionPath o x) {u : Tree} (hu : P u) {gs : List FileGroup} (hl : listFileGroups o u x = .ok gs) :
    ∀ g ∈ gs, ∀ k ∈ g.slices.map Prod.fst,
      PartitionPath o x ∧ ∃ u, P u ∧ ∃ b, BaseIn (filesOf u x) b ∧ b.commitTimestamp = k := by
  intro g hg k hk
  obtain ⟨_, hspec, _⟩ := listFileGroups_spec ((hS.wf u hu).at (pathSegs x)).files_nodup hl
  obtain ⟨_, hsorted, hsl⟩ := hspec g hg
  obtain ⟨e, he, rfl⟩ := List.mem_map.1 hk
  obtain ⟨b, hb, _, hts, _⟩ := (hsl e.1 e.2).1 ((mapGet_eq_some hsorted).2 he)
  exact ⟨hx, u, hu, b, hb, hts⟩

/-- What a step of any query does to the cache. -/
theorem pcStep_cache {A : Arrow} {o : Opts} {t : Tree} {ts : Str} {P : Tree → Prop} (hS : SeenUpTo o t ts P)
    {plan : Ask → Res (Option Plan)} {v : Tree} (hv : P v) {R : Runtime} {free : Nat → Bool} {keysIn : Nat → List Str}
    {ks : List Str} {ask : Ask} {c c' : Cache} {pc pc' : Pc}
    (hplan : ∀ p, plan ask = .ok (some p) → ∀ x gs, hmGet x p.listed = some gs →
      PartitionPath o x ∧ ∃ u, P u ∧ listFileGroups o u x = .ok gs)
    (hkeys : ∀ k, ∀ x ∈ keysIn k, R.shard x = k)
    (hc : SourcedBy o P c) (hinv : PlaceInv R o P pc)
    (h : pcStepWith A plan v R free keysIn ks ask c pc = some (c', pc')) :
    SourcedBy o P c' ∧ PlaceInv R o P pc' ∧ (∀ x, FreshIn o t ts P c x → FreshIn o t ts P c' x) ∧
    ∀ y, hmGet y c' = hmGet y c ∨ free (R.shard y) = true ∨ pc.holds = some (R.shard y) := by
  have hsame : ∀ {pc'}, PlaceInv R o P pc' → SourcedBy o P c ∧ PlaceInv R o P pc' ∧
      (∀ x, FreshIn o t ts P c x → FreshIn o t ts P c x) ∧
      ∀ y, hmGet y c = hmGet y c ∨ free (R.shard y) = true ∨ pc.holds = some (R.shard y) :=
    fun h => ⟨hc, h, fun _ h => h, fun _ => .inl rfl⟩
  cases pc with
  | start =>
    simp only [pcStepWith] at h
    split at h
    · cases h; exact hsame trivial
    · rename_i p hp
      split at h
      · cases h
        refine hsame (fun x gs hx => ?_)
        obtain ⟨y, _, hy⟩ := List.mem_filterMap.1 hx
        obtain ⟨gs', h1, h2⟩ := Option.map_eq_some_iff.1 hy
        cases h2
        exact hplan p hp _ _ h1
      · cases h
    · cases h; exact hsame trivial
    · cases h; exact hsame trivial
  | inserting p rest =>
    cases rest with
    | nil => cases h; exact hsame trivial
    | cons e rest =>
      obtain ⟨x, gs⟩ := e
      simp only [pcStepWith] at h
      split at h
      · rename_i hfree
        cases h
        obtain ⟨hx, u, hu, hl⟩ := hinv x gs (by simp)
        have hsort : ∀ g ∈ gs, LoadedUpTo t ts g g := fun g hg =>
          LoadedUpTo.refl (ListedGroup.sorted hS ⟨hx, u, gs, hu, hl, hg⟩)
        refine ⟨sourcedBy_insert hc (listed_sourced hS hx hu hl), fun y gs' hy => hinv y gs' (by simp [hy]),
          (freshIn_insert hx hu hl (forall₂_self hsort)).2, fun y => ?_⟩
        by_cases hy : y = x
        · exact .inr (.inl (hy ▸ hfree))
        · exact .inl (by rw [hmGet_hmInsert, if_neg hy])
      · cases h
  | next p k acc =>
    simp only [pcStepWith] at h
    split at h
    · cases h; exact hsame trivial
    · split at h
      · split at h
        · rename_i hperm
          cases h
          exact hsame (fun x hx => hkeys k x ((List.isPerm_iff.1 hperm).mem_iff.1 hx))
        · cases h
      · cases h
  | visiting p k rest j acc =>
    cases rest with
    | nil => cases h; exact hsame trivial
    | cons x rest =>
      have hrest : ∀ y ∈ rest, R.shard y = k := fun y hy => hinv y (by simp [hy])
      simp only [pcStepWith] at h
      split at h
      · cases h; exact hsame hrest
      · split at h
        · cases h; exact hsame hrest
        · rename_i gs hget
          split at h
          · cases h; exact hsame hrest
          · rename_i g hg
            split at h
            · rename_i g' s hcol
              cases h
              refine ⟨sourcedBy_insert hc (fun g1 hg1 k1 hk1 => ?_), hinv, fun y hy => ?_, fun y => ?_⟩
              · have hmem := hmGet_mem hget
                rcases List.mem_or_eq_of_mem_set hg1 with hg1 | rfl
                · exact hc.2 x gs hmem g1 hg1 k1 hk1
                · exact hc.2 x gs hmem g (List.mem_of_getElem? hg) k1 (collectGroup_keys hcol k1 hk1)
              · by_cases he : y = x
                · subst he
                  obtain ⟨hx, u, gs0, gs', hu, hl, h4, h5⟩ := hy
                  rw [hget] at h4
                  cases h4
                  obtain ⟨g0, hg0, hlg⟩ := forall₂_get h5 hg
                  exact (freshIn_insert hx hu hl (forall₂_set h5 hg0
                    (hlg.collect hS ⟨hx, u, gs0, hu, hl, List.mem_of_getElem? hg0⟩ hv hcol))).1
                · obtain ⟨hx, u, gs0, gs', hu, hl, h4, h5⟩ := hy
                  exact ⟨hx, u, gs0, gs', hu, hl, by rw [hmGet_hmInsert, if_neg he]; exact h4, h5⟩
              · by_cases he : y = x
                · exact .inr (.inr (by rw [he, hinv x (by simp)]; rfl))
                · exact .inl (by rw [hmGet_hmInsert, if_neg he])
            · cases h; exact hsame trivial
            · cases h; exact hsame trivial
  | finished r => cases h

/-- A step takes no lock that another query holds. -/
theorem pcStep_holds {A : Arrow} {plan : Ask → Res (Option Plan)} {v : Tree} {R : Runtime} {free : Nat → Bool}
    {keysIn : Nat → List Str} {ks : List Str} {ask : Ask} {c c' : Cache} {pc pc' : Pc}
    (h : pcStepWith A plan v R free keysIn ks ask c pc = some (c', pc')) {k : Nat} (hk : pc'.holds = some k) :
    pc.holds = some k ∨ free k = true := by
  cases pc with
  | start =>
    simp only [pcStepWith] at h
    split at h
    · cases h; cases hk
    · split at h
      · cases h; cases hk
      · cases h
    · cases h; cases hk
    · cases h; cases hk
  | inserting p rest =>
    cases rest with
    | nil => cases h; cases hk
    | cons e rest =>
      simp only [pcStepWith] at h
      split at h
      · cases h; cases hk
      · cases h
  | next p k acc =>
    simp only [pcStepWith] at h
    split at h
    · cases h; cases hk
    · split at h
      · rename_i hf
        split at h
        · cases h; cases hk; exact .inr hf
        · cases h
      · cases h
  | visiting p k rest j acc =>
    cases rest with
    | nil => cases h; cases hk; exact .inl rfl
    | cons x rest =>
      simp only [pcStepWith] at h
      split at h
      · cases h; exact .inl hk
      · split at h
        · cases h; exact .inl hk
        · split at h
          · cases h; exact .inl hk
          · split at h <;> cases h
            · exact .inl hk
            · cases hk
            · cases hk
  | finished r => cases h

/-! ## One query -/

/-- The partitions `vis` have been looked at, each as it was listed at one of the moments, and `acc` was picked of them. -/
structure Collected (o : Opts) (t : Tree) (P : Tree → Prop) (p : Plan) (vis : List Str) (src : Str → Tree)
    (more : List FileGroup) (acc : List FileSlice) : Prop where
  nodup : vis.Nodup
  listed : ∀ x ∈ vis, P (src x) ∧ ∃ gs, listFileGroups o (src x) x = .ok gs
  picked : Picked t p (vis.flatMap (fun x => groupsOf o (src x) x) ++ more) acc

/-- What is known about a query as of `ts` at each place; `Pl` is what is known about its plan. -/
def Tracked (A : Arrow) (R : Runtime) (o : Opts) (t : Tree) (ts : Str) (P : Tree → Prop) (Pl : Plan → Prop) (c : Cache) :
    Pc → Prop
  | .start => True
  | .inserting p rest => Pl p ∧ ∀ x gs, hmGet x p.listed = some gs → FreshIn o t ts P c x ∨ (x, gs) ∈ rest
  | .next p k acc => Pl p ∧ (∀ x, Wanted A o t p x → FreshIn o t ts P c x) ∧
    ∃ vis src, (∀ x, x ∈ vis ↔ Wanted A o t p x ∧ R.shard x < k) ∧ Collected o t P p vis src [] acc
  | .visiting p k rest j acc => Pl p ∧ (∀ x, Wanted A o t p x → FreshIn o t ts P c x) ∧ rest.Nodup ∧
    ∃ vis src, (∀ x, x ∈ vis ↔ Wanted A o t p x ∧ R.shard x ≤ k ∧ x ∉ rest) ∧
      match rest with
      | [] => Collected o t P p vis src [] acc
      | x :: _ =>
        (Wanted A o t p x → ∃ u gs0 gs', P u ∧ listFileGroups o u x = .ok gs0 ∧ hmGet x c = some gs' ∧
          List.Forall₂ (LoadedUpTo t ts) gs0 gs' ∧ Collected o t P p vis src (gs0.take j) acc) ∧
        (¬ Wanted A o t p x → Collected o t P p vis src [] acc)
  | .finished r => ∃ p, Pl p ∧ ∃ ss vis src, r = .ok ss ∧ (∀ x, x ∈ vis ↔ Wanted A o t p x) ∧
    Collected o t P p vis src [] ss

theorem Collected.mono {o : Opts} {t : Tree} {P P' : Tree → Prop} (hP : ∀ u, P u → P' u) {p : Plan} {vis : List Str}
    {src : Str → Tree} {more : List FileGroup} {acc : List FileSlice} (h : Collected o t P p vis src more acc) :
    Collected o t P' p vis src more acc :=
  ⟨h.nodup, fun x hx => ⟨hP _ (h.listed x hx).1, (h.listed x hx).2⟩, h.picked⟩

theorem FreshIn.mono {o : Opts} {t : Tree} {ts : Str} {P P' : Tree → Prop} (hP : ∀ u, P u → P' u) {c : Cache} {x : Str}
    (h : FreshIn o t ts P c x) : FreshIn o t ts P' c x := by
  obtain ⟨h1, u, gs0, gs', h2, h3⟩ := h
  exact ⟨h1, u, gs0, gs', hP u h2, h3⟩

theorem PlaceInv.mono {R : Runtime} {o : Opts} {P P' : Tree → Prop} (hP : ∀ u, P u → P' u) {pc : Pc}
    (h : PlaceInv R o P pc) : PlaceInv R o P' pc := by
  cases pc with
  | inserting p rest =>
    intro x gs hx
    obtain ⟨h1, u, h2, h3⟩ := h x gs hx
    exact ⟨h1, u, hP u h2, h3⟩
  | visiting p k rest j acc => exact h
  | start => trivial
  | next p k acc => trivial
  | finished r => trivial

theorem SourcedBy.mono {o : Opts} {P P' : Tree → Prop} (hP : ∀ u, P u → P' u) {c : Cache} (h : SourcedBy o P c) :
    SourcedBy o P' c := by
  refine ⟨h.1, fun x gs hx g hg k hk => ?_⟩
  obtain ⟨h1, u, h2, h3⟩ := h.2 x gs hx g hg k hk
  exact ⟨h1, u, hP u h2, h3⟩

/-- More moments go by. -/
theorem Tracked.mono {A : Arrow} {R : Runtime} {o : Opts} {t : Tree} {ts : Str} {P P' : Tree → Prop}
    (hP : ∀ u, P u → P' u) {Pl Pl' : Plan → Prop} (hPl : ∀ p, Pl p → Pl' p) {c : Cache} {pc : Pc}
    (h : Tracked A R o t ts P Pl c pc) : Tracked A R o t ts P' Pl' c pc := by
  cases pc with
  | start => trivial
  | inserting p rest => exact ⟨hPl p h.1, fun x gs hx => (h.2 x gs hx).imp_left (FreshIn.mono hP)⟩
  | next p k acc =>
    obtain ⟨h1, h2, vis, src, h3, h4⟩ := h
    exact ⟨hPl p h1, fun x hx => (h2 x hx).mono hP, vis, src, h3, h4.mono hP⟩
  | visiting p k rest j acc =>
    obtain ⟨h1, h2, h3, vis, src, h4, h5⟩ := h
    refine ⟨hPl p h1, fun x hx => (h2 x hx).mono hP, h3, vis, src, h4, ?_⟩
    cases rest with
    | nil => exact h5.mono hP
    | cons x rest =>
      refine ⟨fun hw => ?_, fun hw => (h5.2 hw).mono hP⟩
      obtain ⟨u, gs0, gs', e1, e2, e3, e4, e5⟩ := h5.1 hw
      exact ⟨u, gs0, gs', hP u e1, e2, e3, e4, e5.mono hP⟩
  | finished r =>
    obtain ⟨p, h1, ss, vis, src, h2, h3, h4⟩ := h
    exact ⟨p, hPl p h1, ss, vis, src, h2, h3, h4.mono hP⟩

/-- Another query takes a step: what is in the shard that this one holds is not changed. -/
theorem Tracked.other {A : Arrow} {R : Runtime} {o : Opts} {t : Tree} {ts : Str} {P : Tree → Prop} {Pl : Plan → Prop}
    {c c' : Cache} {pc : Pc} (h : Tracked A R o t ts P Pl c pc) (hpl : PlaceInv R o P pc)
    (hf : ∀ x, FreshIn o t ts P c x → FreshIn o t ts P c' x)
    (hsame : ∀ y, pc.holds = some (R.shard y) → hmGet y c' = hmGet y c) : Tracked A R o t ts P Pl c' pc := by
  cases pc with
  | start => trivial
  | inserting p rest => exact ⟨h.1, fun x gs hx => (h.2 x gs hx).imp_left (hf x)⟩
  | next p k acc => exact ⟨h.1, fun x hx => hf x (h.2.1 x hx), h.2.2⟩
  | visiting p k rest j acc =>
    obtain ⟨h1, h2, h3, vis, src, h4, h5⟩ := h
    refine ⟨h1, fun x hx => hf x (h2 x hx), h3, vis, src, h4, ?_⟩
    cases rest with
    | nil => exact h5
    | cons x rest =>
      refine ⟨fun hw => ?_, h5.2⟩
      obtain ⟨u, gs0, gs', e1, e2, e3, e4, e5⟩ := h5.1 hw
      exact ⟨u, gs0, gs', e1, e2, by rw [hsame x (by rw [hpl x (by simp)]; rfl)]; exact e3, e4, e5⟩
  | finished r => exact h

theorem Collected.next {o : Opts} {t : Tree} {P : Tree → Prop} {p : Plan} {vis : List Str} {src : Str → Tree} {x : Str}
    {u : Tree} {gs0 : List FileGroup} {acc : List FileSlice} (h : Collected o t P p vis src gs0 acc) (hx : x ∉ vis)
    (hu : P u) (hl : listFileGroups o u x = .ok gs0) :
    Collected o t P p (vis ++ [x]) (fun y => if y = x then u else src y) [] acc := by
  refine ⟨List.nodup_append.2 ⟨h.nodup, by simp, fun a ha b hb => ?_⟩, fun y hy => ?_, ?_⟩
  · rw [List.mem_singleton.1 hb]
    rintro rfl
    exact hx ha
  · rcases List.mem_append.1 hy with hy | hy
    · have : y ≠ x := fun e => hx (e ▸ hy)
      simp only [this, if_false]
      exact h.listed y hy
    · rw [List.mem_singleton.1 hy]
      simp only [if_true]
      exact ⟨hu, gs0, hl⟩
  · have e1 : vis.flatMap (fun y => groupsOf o (if y = x then u else src y) y) =
        vis.flatMap (fun y => groupsOf o (src y) y) := by
      refine List.flatMap_congr (fun y hy => ?_)
      have : y ≠ x := fun e => hx (e ▸ hy)
      simp only [this, if_false]
    have e2 : groupsOf o u x = gs0 := by simp only [groupsOf, hl]
    rw [List.flatMap_append, e1, List.append_nil]
    simpa [e2] using h.picked

/-- The query takes a step. -/
theorem Tracked.step {A : Arrow} {R : Runtime} {o : Opts} {t : Tree} {ts : Str} {P : Tree → Prop} {Pl : Plan → Prop}
    (hS : SeenUpTo o t ts P) (hPl : ∀ p, Pl p → p.ts = ts ∧ ∀ x, Wanted A o t p x → ∃ gs, hmGet x p.listed = some gs)
    (hR : ∀ x, R.shard x < R.shards) {plan : Ask → Res (Option Plan)} {v : Tree} (hv : P v) {free : Nat → Bool}
    {keysIn : Nat → List Str} {ks : List Str} {ask : Ask} {c c' : Cache} {pc pc' : Pc}
    (hplan : ∃ p, plan ask = .ok (some p) ∧ Pl p)
    (hkeys : ∀ k x, x ∈ keysIn k ↔ x ∈ c.map Prod.fst ∧ R.shard x = k) (hkn : ∀ k, (keysIn k).Nodup)
    (hc : SourcedBy o P c) (hpl : PlaceInv R o P pc) (hinv : Tracked A R o t ts P Pl c pc)
    (hf : ∀ x, FreshIn o t ts P c x → FreshIn o t ts P c' x)
    (h : pcStepWith A plan v R free keysIn ks ask c pc = some (c', pc')) : Tracked A R o t ts P Pl c' pc' := by
  have hno : NoStale o t ts c := hc.noStale (fun u hu x b hx hb hle => (hS.bases u hu x b hx hb hle).1)
  cases pc with
  | start =>
    obtain ⟨p, hp, hpp⟩ := hplan
    simp only [pcStepWith, hp] at h
    split at h
    · rename_i hperm
      cases h
      have hperm := List.isPerm_iff.1 hperm
      refine ⟨hpp, fun x gs hx => .inr (List.mem_filterMap.2 ⟨x, ?_, by rw [hx]; rfl⟩)⟩
      rw [hperm.mem_iff]
      exact List.mem_map.2 ⟨_, hmGet_mem hx, rfl⟩
    · cases h
  | inserting p rest =>
    obtain ⟨h1, h2⟩ := hinv
    cases rest with
    | nil =>
      cases h
      refine ⟨h1, fun x hx => ?_, [], fun _ => .nil, fun x => by simp, ⟨List.nodup_nil, (fun x hx => nomatch hx), Picked.nil⟩⟩
      obtain ⟨gs, hgs⟩ := (hPl p h1).2 x hx
      rcases h2 x gs hgs with h | h
      · exact h
      · cases h
    | cons e rest =>
      obtain ⟨x, gs⟩ := e
      simp only [pcStepWith] at h
      split at h
      · cases h
        refine ⟨h1, fun y gs' hy => ?_⟩
        rcases h2 y gs' hy with h | h
        · exact .inl (hf y h)
        · rcases List.mem_cons.1 h with h | h
          · cases h
            obtain ⟨hx, u, hu, hl⟩ := hpl x gs (by simp)
            exact .inl (freshIn_insert hx hu hl (forall₂_self (fun g hg =>
              LoadedUpTo.refl (ListedGroup.sorted hS ⟨hx, u, gs, hu, hl, hg⟩)))).1
          · exact .inr h
      · cases h
  | next p k acc =>
    obtain ⟨h1, h2, vis, src, h3, h4⟩ := hinv
    simp only [pcStepWith] at h
    split at h
    · rename_i hkn
      cases h
      refine ⟨p, h1, acc, vis, src, rfl, fun x => ?_, h4⟩
      rw [h3, hkn]
      exact ⟨fun h => h.1, fun h => ⟨h, hR x⟩⟩
    · split at h
      · split at h
        · rename_i hperm
          cases h
          have hperm := List.isPerm_iff.1 hperm
          refine ⟨h1, h2, hperm.nodup_iff.2 (hkn k), vis, src, fun x => ?_, ?_⟩
          · rw [h3]
            refine and_congr_right (fun hw => ?_)
            rw [hperm.mem_iff, hkeys]
            have hin : x ∈ c.map Prod.fst := by
              obtain ⟨_, _, _, gs', _, _, hg, _⟩ := h2 x hw
              exact List.mem_map.2 ⟨_, hmGet_mem hg, rfl⟩
            constructor
            · intro hlt; exact ⟨by omega, fun ⟨_, he⟩ => by omega⟩
            · rintro ⟨hle, hne⟩
              rcases Nat.lt_or_eq_of_le hle with hlt | he
              · exact hlt
              · exact absurd ⟨hin, he⟩ hne
          · cases ks with
            | nil => exact h4
            | cons x ks =>
              refine ⟨fun hw => ?_, fun _ => h4⟩
              obtain ⟨_, u, gs0, gs', e1, e2, e3, e4⟩ := h2 x hw
              exact ⟨u, gs0, gs', e1, e2, e3, e4, by simpa using h4⟩
        · cases h
      · cases h
  | visiting p k rest j acc =>
    obtain ⟨h1, h2, h3, vis, src, h4, h5⟩ := hinv
    obtain ⟨hts, _⟩ := hPl p h1
    cases rest with
    | nil =>
      cases h
      refine ⟨h1, h2, vis, src, fun x => ?_, h5⟩
      rw [h4]
      simp [Nat.lt_succ_iff]
    | cons x rest =>
      obtain ⟨hxr, hrn⟩ := List.nodup_cons.1 h3
      obtain ⟨h5, h6⟩ := h5
      -- the next partition of the shard
      have hgo : ∀ {vis' src'}, (∀ y, y ∈ vis' ↔ Wanted A o t p y ∧ R.shard y ≤ k ∧ y ∉ rest) →
          Collected o t P p vis' src' [] acc → Tracked A R o t ts P Pl c (.visiting p k rest 0 acc) := by
        intro vis' src' hv' hcol
        refine ⟨h1, h2, hrn, vis', src', hv', ?_⟩
        cases rest with
        | nil => exact hcol
        | cons y rest =>
          refine ⟨fun hw => ?_, fun _ => hcol⟩
          obtain ⟨_, u, gs0, gs', e1, e2, e3, e4⟩ := h2 y hw
          exact ⟨u, gs0, gs', e1, e2, e3, e4, by simpa using hcol⟩
      have hunw : ¬ Wanted A o t p x → ∀ y, y ∈ vis ↔ Wanted A o t p y ∧ R.shard y ≤ k ∧ y ∉ rest := by
        intro hnw y
        rw [h4]
        refine and_congr_right (fun hw => and_congr_right (fun _ => ?_))
        have : y ≠ x := by rintro rfl; exact hnw hw
        simp [this]
      simp only [pcStepWith] at h
      split at h
      · rename_i hno'
        cases h
        have hnw : ¬ Wanted A o t p x := fun hw => by rw [hw.2] at hno'; cases hno'
        exact hgo (hunw hnw) (h6 hnw)
      · rename_i hyes
        have hyes : p.pruner.shouldInclude A x = true := by simpa using hyes
        by_cases hw : Wanted A o t p x
        · obtain ⟨u, gs0, gs', e1, e2, e3, e4, e5⟩ := h5 hw
          rw [e3] at h
          simp only at h
          have hxp := hS.path x hw.1
          split at h
          · -- the end of the partition
            rename_i hend
            cases h
            have hlen : gs0.length ≤ j := by
              rw [forall₂_length e4]
              exact List.getElem?_eq_none_iff.1 hend
            rw [List.take_of_length_le hlen] at e5
            have hxv : x ∉ vis := fun hx => ((h4 x).1 hx).2.2 (by simp)
            refine hgo (fun y => ?_) (e5.next hxv e1 e2)
            rw [List.mem_append, List.mem_singleton, h4]
            constructor
            · rintro (⟨a, b, c⟩ | rfl)
              · exact ⟨a, b, fun hy => c (by simp [hy])⟩
              · exact ⟨hw, Nat.le_of_eq (hpl y (by simp)), hxr⟩
            · rintro ⟨a, b, c⟩
              by_cases hy : y = x
              · exact .inr hy
              · exact .inl ⟨a, b, by simp [hy, c]⟩
          · rename_i g hg
            obtain ⟨g0, hg0, hlg⟩ := forall₂_get e4 hg
            have hmem : ListedGroup o P x g0 := ⟨hxp, u, gs0, e1, e2, List.mem_of_getElem? hg0⟩
            obtain ⟨g', s, hcol, hpick⟩ := hlg.pick hS hmem hv p.excl
            rw [hts, hcol] at h
            simp only at h
            cases h
            have e4' := forall₂_set e4 hg0 (hlg.collect hS hmem hv hcol)
            refine ⟨h1, fun y hy => hf y (h2 y hy), h3, vis, src, h4, fun _ => ?_, fun hnw => absurd hw hnw⟩
            refine ⟨u, gs0, gs'.set j g', e1, e2, by rw [hmGet_hmInsert]; simp, e4', ⟨e5.nodup, e5.listed, ?_⟩⟩
            rw [take_succ_of_get hg0, ← List.append_assoc]
            refine e5.picked.append ⟨[s.toList], Res.mapL_cons_ok.2 ⟨_, [], ?_, rfl, rfl⟩, by simp⟩
            rw [hts]
            exact hpick
        · have hcol := h6 hw
          split at h
          · cases h; exact hgo (hunw hw) hcol
          · rename_i gs hget
            split at h
            · cases h; exact hgo (hunw hw) hcol
            · rename_i g hg
              have hnone : mapLastLe ts g.slices = none := by
                rcases hno x gs (hmGet_mem hget) with hp | hn
                · exact absurd ⟨hp, hyes⟩ hw
                · exact hn g (List.mem_of_getElem? hg)
              have hce : collectGroup v p.ts p.excl g = .ok (g, none) := by
                unfold collectGroup
                rw [hts, hnone]
                split <;> rfl
              rw [hce] at h
              simp only at h
              cases h
              refine ⟨h1, fun y hy => hf y (h2 y hy), h3, vis, src, h4, fun hw' => absurd hw' hw, fun _ => ?_⟩
              rw [Option.toList_none, List.append_nil]
              exact hcol
  | finished r => cases h

/-! ## All queries -/

/-- What is known about the whole state, and about the query `i0`, which asks `ask`. -/
structure RunInv (A : Arrow) (R : Runtime) (o : Opts) (t : Tree) (ts : Str) (P : Tree → Prop) (Pl : Plan → Prop)
    (i0 : Nat) (ask : Ask) (failed : List Nat) (s : Conc) : Prop where
  cache : SourcedBy o P s.cache
  place : ∀ (i : Nat) (tk : QTask), s.tasks[i]? = some tk → PlaceInv R o P tk.pc
  locks : ∀ (i j : Nat) (tk tk' : QTask) (k : Nat), i ≠ j → s.tasks[i]? = some tk → s.tasks[j]? = some tk' → tk.pc.holds = some k →
    tk'.pc.holds ≠ some k
  asks : ∀ (tk : QTask), s.tasks[i0]? = some tk → tk.ask = ask
  tracked : ∀ (tk : QTask), s.tasks[i0]? = some tk → i0 ∉ failed → Tracked A R o t ts P Pl s.cache tk.pc
  fails : ∀ (tk : QTask), s.tasks[i0]? = some tk → i0 ∈ failed → ∃ e, tk.pc = .finished (.err e)

theorem RunInv.mono {A : Arrow} {R : Runtime} {o : Opts} {t : Tree} {ts : Str} {P P' : Tree → Prop} {Pl Pl' : Plan → Prop}
    (hP : ∀ u, P u → P' u) (hPl : ∀ p, Pl p → Pl' p) {i0 : Nat} {ask : Ask} {failed : List Nat} {s : Conc}
    (h : RunInv A R o t ts P Pl i0 ask failed s) : RunInv A R o t ts P' Pl' i0 ask failed s :=
  ⟨h.cache.mono hP, fun i tk hi => (h.place i tk hi).mono hP, h.locks, h.asks,
    fun tk hi hn => (h.tracked tk hi hn).mono hP hPl, h.fails⟩

theorem RunInv.init {A : Arrow} {R : Runtime} {o : Opts} {t : Tree} {ts : Str} {P : Tree → Prop} {Pl : Plan → Prop}
    {c : Cache} (hc : SourcedBy o P c) {asks : List Ask} {i0 : Nat} {ask : Ask} (hi : asks[i0]? = some ask) :
    RunInv A R o t ts P Pl i0 ask [] (.init c asks) := by
  have h : ∀ (i : Nat) (tk : QTask), (Conc.init c asks).tasks[i]? = some tk → ∃ a, asks[i]? = some a ∧ tk = ⟨a, .start⟩ := by
    intro i tk h
    unfold Conc.init at h
    simp only [List.getElem?_map] at h
    obtain ⟨a, ha, rfl⟩ := Option.map_eq_some_iff.1 h
    exact ⟨a, ha, rfl⟩
  refine ⟨hc, fun i tk hk => ?_, fun i j tk tk' k _ h1 _ h2 => ?_, fun tk hk => ?_, fun tk hk _ => ?_,
    fun _ _ hk => nomatch hk⟩
  · obtain ⟨a, _, rfl⟩ := h i tk hk
    trivial
  · obtain ⟨a, _, rfl⟩ := h i tk h1
    cases h2
  · obtain ⟨a, ha, rfl⟩ := h i0 tk hk
    rw [hi] at ha
    cases ha
    rfl
  · obtain ⟨a, _, rfl⟩ := h i0 tk hk
    trivial

theorem set_get {α : Type} {l : List α} {i j : Nat} {a b c : α} (hi : l[i]? = some c) (h : (l.set i a)[j]? = some b) :
    (j = i ∧ b = a) ∨ (j ≠ i ∧ l[j]? = some b) := by
  by_cases hij : j = i
  · subst hij
    have hlt : j < l.length := (List.getElem?_eq_some_iff.1 hi).1
    rw [List.getElem?_set_self hlt] at h
    exact .inl ⟨rfl, (Option.some.inj h).symm⟩
  · rw [List.getElem?_set_ne (fun e => hij e.symm)] at h
    exact .inr ⟨hij, h⟩

/-- A query takes a step. -/
theorem RunInv.step {E : Env} {A : Arrow} {tb : Table} {depth : Nat} {race : Race} {v : Tree} {R : Runtime} {t : Tree}
    {ts : Str} {P : Tree → Prop} {Pl : Plan → Prop} (hS : SeenUpTo tb.opts t ts P)
    (hPl : ∀ p, Pl p → p.ts = ts ∧ ∀ x, Wanted A tb.opts t p x → ∃ gs, hmGet x p.listed = some gs)
    (hR : ∀ x, R.shard x < R.shards) (hv : P v) {i0 : Nat} {ask : Ask} {failed : List Nat}
    (hlist : ∀ ask p, tb.planR E A depth race ask = .ok (some p) → ∀ x gs, hmGet x p.listed = some gs →
      PartitionPath tb.opts x ∧ ∃ u, P u ∧ listFileGroups tb.opts u x = .ok gs)
    (hplan : ∃ p, tb.planR E A depth race ask = .ok (some p) ∧ Pl p) {s s' : Conc} {i : Nat} {ks : List Str}
    (h : RunInv A R tb.opts t ts P Pl i0 ask failed s)
    (hs : s.stepR E A tb depth R race v i ks = some s') : RunInv A R tb.opts t ts P Pl i0 ask failed s' := by
  unfold Conc.stepR at hs
  split at hs
  · cases hs
  · rename_i tk htk
    split at hs
    · split at hs
      · rename_i c pc hp
        cases hs
        have hkeys : ∀ k x, x ∈ s.keysIn R k ↔ x ∈ s.cache.map Prod.fst ∧ R.shard x = k := fun k x => by
          unfold Conc.keysIn
          rw [List.mem_filter]; simp
        obtain ⟨h1, h2, h3, h4⟩ := pcStep_cache hS hv (hlist tk.ask) (fun k x hx => ((hkeys k x).1 hx).2) h.cache
          (h.place i tk htk) hp
        refine ⟨h1, fun j tk' hj => ?_, fun j j' tk1 tk2 k hne hj hj' hk => ?_, fun tk' hj => ?_, fun tk' hj hn => ?_,
          fun tk' hj hn => ?_⟩
        · rcases set_get htk hj with ⟨_, rfl⟩ | ⟨_, hj⟩
          · exact h2
          · exact h.place j tk' hj
        · rcases set_get htk hj with ⟨rfl, rfl⟩ | ⟨hji, hq⟩ <;> rcases set_get htk hj' with ⟨rfl, rfl⟩ | ⟨hji', hq'⟩
          · exact absurd rfl hne
          · rcases pcStep_holds hp hk with hk | hk
            · exact h.locks j j' tk tk2 k hne htk hq' hk
            · exact free_iff.1 hk j' tk2 hq' hji'
          · intro hk'
            rcases pcStep_holds hp hk' with hk' | hk'
            · exact h.locks j j' tk1 tk k hne hq htk hk hk'
            · exact free_iff.1 hk' j tk1 hq hji hk
          · exact h.locks j j' tk1 tk2 k hne hq hq' hk
        · rcases set_get htk hj with ⟨rfl, rfl⟩ | ⟨_, hj⟩
          · exact h.asks tk htk
          · exact h.asks tk' hj
        · rcases set_get htk hj with ⟨rfl, rfl⟩ | ⟨hne, hj⟩
          · rw [h.asks tk htk] at hp
            exact (h.tracked tk htk hn).step hS hPl hR hv hplan hkeys (fun k => List.Nodup.filter _ h.cache.1) h.cache
              (h.place i0 tk htk) h3 hp
          · refine (h.tracked tk' hj hn).other (h.place i0 tk' hj) h3 (fun y hy => ?_)
            rcases h4 y with h4 | h4 | h4
            · exact h4
            · exact absurd hy (free_iff.1 h4 i0 tk' hj hne)
            · exact absurd hy (h.locks i i0 tk tk' _ (fun e => hne e.symm) htk hj h4)
        · rcases set_get htk hj with ⟨rfl, rfl⟩ | ⟨_, hj⟩
          · obtain ⟨e, he⟩ := h.fails tk htk hn
            rw [he] at hp
            cases hp
          · exact h.fails tk' hj hn
      · cases hs
    · cases hs

/-- A request of a query fails. -/
theorem RunInv.fail {A : Arrow} {R : Runtime} {o : Opts} {t : Tree} {ts : Str} {P : Tree → Prop} {Pl : Plan → Prop}
    {i0 : Nat} {ask : Ask} {failed : List Nat} {s s' : Conc} {i : Nat} {e : ErrKind}
    (h : RunInv A R o t ts P Pl i0 ask failed s) (hs : s.fail A R i e = some s') :
    RunInv A R o t ts P Pl i0 ask (i :: failed) s' := by
  unfold Conc.fail at hs
  split at hs
  · cases hs
  · rename_i tk htk
    split at hs
    · split at hs
      · rename_i pc hp
        cases hs
        have hpc : pc = .finished (.err e) := by
          unfold Pc.fail at hp
          split at hp
          · cases hp; rfl
          · split at hp
            · cases hp; rfl
            · cases hp
          · cases hp
        have hfin : ∀ e', tk.pc ≠ .finished (.err e') := fun e' he => by rw [he] at hp; cases hp
        subst hpc
        refine ⟨h.cache, fun j tk' hj => ?_, fun j j' tk1 tk2 k hne hj hj' hk => ?_, fun tk' hj => ?_, fun tk' hj hn => ?_,
          fun tk' hj hn => ?_⟩
        · rcases set_get htk hj with ⟨_, rfl⟩ | ⟨_, hj⟩
          · trivial
          · exact h.place j tk' hj
        · rcases set_get htk hj with ⟨rfl, rfl⟩ | ⟨hji, hq⟩ <;> rcases set_get htk hj' with ⟨rfl, rfl⟩ | ⟨hji', hq'⟩
          · exact absurd rfl hne
          · cases hk
          · exact fun hk' => nomatch hk'
          · exact h.locks j j' tk1 tk2 k hne hq hq' hk
        · rcases set_get htk hj with ⟨rfl, rfl⟩ | ⟨_, hj⟩
          · exact h.asks tk htk
          · exact h.asks tk' hj
        · rcases set_get htk hj with ⟨rfl, rfl⟩ | ⟨_, hj⟩
          · exact absurd (List.mem_cons_self ..) hn
          · exact h.tracked tk' hj (fun hm => hn (List.mem_cons_of_mem _ hm))
        · rcases set_get htk hj with ⟨rfl, rfl⟩ | ⟨hne, hj⟩
          · exact ⟨e, rfl⟩
          · rcases List.mem_cons.1 hn with he | hm
            · exact absurd he hne
            · exact h.fails tk' hj hm
      · cases hs
    · cases hs

end Hudi
