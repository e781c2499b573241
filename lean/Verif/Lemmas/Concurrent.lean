import Verif.Spec.Concurrent
import Verif.Lemmas.Handout
import Mathlib.Logic.Hydra

/-! # Lemmas: concurrent queries -/

namespace Hudi
open Spec

/-! ## File groups with some metadata loaded -/

/-- `g'` is `g` with the metadata of some of its slices loaded. -/
structure Loaded (t : Tree) (g g' : FileGroup) : Prop where
  id : g'.fileId = g.fileId
  partition : g'.partitionPath = g.partitionPath
  sorted0 : MapSorted g.slices
  sorted : MapSorted g'.slices
  back : ∀ k s', mapGet k g'.slices = some s' →
    ∃ s, mapGet k g.slices = some s ∧ (s' = s ∨ s.loadMetadata t = .ok s')
  forth : ∀ k s, mapGet k g.slices = some s → ∃ s', mapGet k g'.slices = some s'

theorem Loaded.refl {t : Tree} {g : FileGroup} (h : MapSorted g.slices) : Loaded t g g :=
  ⟨rfl, rfl, h, h, fun _ s' hs => ⟨s', hs, .inl rfl⟩, fun _ s hs => ⟨s, hs⟩⟩

theorem loadMetadata_again {t : Tree} {s s' : FileSlice} (h : s.loadMetadata t = .ok s') :
    s'.loadMetadata t = .ok s' := by
  obtain ⟨_, _, m, h3, h4⟩ := loadMetadata_ok h
  unfold FileSlice.loadMetadata
  rw [h3]
  simp [h4]

theorem Loaded.lastLe {t : Tree} {g g' : FileGroup} (h : Loaded t g g') (ts : Str) :
    (mapLastLe ts g.slices = none ∧ mapLastLe ts g'.slices = none) ∨
    ∃ k s s', mapLastLe ts g.slices = some (k, s) ∧ mapLastLe ts g'.slices = some (k, s') ∧
      mapGet k g.slices = some s ∧ mapGet k g'.slices = some s' ∧
      (s' = s ∨ s.loadMetadata t = .ok s') := by
  cases hl : mapLastLe ts g'.slices with
  | none =>
    left
    refine ⟨?_, rfl⟩
    rw [mapLastLe_eq_none] at hl ⊢
    rintro ⟨k, s⟩ he
    obtain ⟨s', hs'⟩ := h.forth k s ((mapGet_eq_some h.sorted0).2 he)
    exact hl (k, s') ((mapGet_eq_some h.sorted).1 hs')
  | some e =>
    obtain ⟨k, s'⟩ := e
    right
    obtain ⟨h1, h2, h3⟩ := (mapLastLe_eq_some h.sorted).1 hl
    have hg' := (mapGet_eq_some h.sorted).2 h1
    obtain ⟨s, hs, hrel⟩ := h.back k s' hg'
    refine ⟨k, s, s', ?_, rfl, hs, hg', hrel⟩
    refine (mapLastLe_eq_some h.sorted0).2 ⟨(mapGet_eq_some h.sorted0).1 hs, h2, ?_⟩
    rintro ⟨k', s0⟩ he hle
    obtain ⟨s0', hs0'⟩ := h.forth k' s0 ((mapGet_eq_some h.sorted0).2 he)
    exact h3 (k', s0') ((mapGet_eq_some h.sorted).1 hs0') hle

theorem Loaded.contains {t : Tree} {g g' : FileGroup} (h : Loaded t g g') (excl : List FileGroup) :
    fgContains excl g' = fgContains excl g := by
  unfold fgContains FileGroup.same
  rw [h.id, h.partition]

/-- Picking the slice does not depend on what is loaded. -/
theorem Loaded.pick {t : Tree} {g g' : FileGroup} (h : Loaded t g g') (ts : Str)
    (excl : List FileGroup) : pickGroup t ts excl g' = pickGroup t ts excl g := by
  unfold pickGroup collectGroup
  rw [h.contains]
  by_cases hx : fgContains excl g = true
  · simp [hx]
  · simp only [hx, Bool.false_eq_true, if_false]
    rcases h.lastLe ts with ⟨h1, h2⟩ | ⟨k, s, s', h1, h2, _, _, h3⟩
    · rw [h1, h2]; rfl
    · rw [h1, h2]
      simp only
      rcases h3 with rfl | h3
      · cases s'.loadMetadata t <;> rfl
      · rw [h3, loadMetadata_again h3]; rfl

/-- Loading more. -/
theorem Loaded.collect {t : Tree} {g g' g'' : FileGroup} {ts : Str} {excl : List FileGroup}
    {s : Option FileSlice} (h : Loaded t g g') (hc : collectGroup t ts excl g' = .ok (g'', s)) :
    Loaded t g g'' := by
  unfold collectGroup at hc
  split at hc
  · cases hc; exact h
  · rcases h.lastLe ts with ⟨h1, h2⟩ | ⟨k, s0, s0', h1, h2, h4, h5, h3⟩
    · rw [h2] at hc; cases hc; exact h
    · rw [h2] at hc
      obtain ⟨s1, h6, h7⟩ := Res.bind_eq_ok.1 hc
      cases h7
      have h8 : s0.loadMetadata t = .ok s1 := by
        rcases h3 with rfl | h3
        · exact h6
        · rw [loadMetadata_again h3] at h6; cases h6; exact h3
      refine ⟨h.id, h.partition, h.sorted0, mapInsert_sorted h.sorted, ?_, ?_⟩
      · intro k' s' hs'
        rw [mapGet_insert] at hs'
        split at hs'
        · rename_i he
          subst he
          cases hs'
          exact ⟨s0, h4, .inr h8⟩
        · exact h.back k' s' hs'
      · intro k' s' hs'
        rw [mapGet_insert]
        split
        · exact ⟨_, rfl⟩
        · exact h.forth k' s' hs'

theorem pickGroup_of_collect {t : Tree} {g g' : FileGroup} {ts : Str} {excl : List FileGroup}
    {s : Option FileSlice} (h : collectGroup t ts excl g = .ok (g', s)) :
    pickGroup t ts excl g = .ok s.toList := by
  unfold pickGroup; rw [h]; rfl

/-! ## Queries -/

/-- The file groups of a partition. -/
def groupsOf (o : Opts) (t : Tree) (x : Str) : List FileGroup :=
  match listFileGroups o t x with
  | .ok gs => gs
  | _ => []

/-- The cache holds the current listing of the partition, possibly with metadata loaded. -/
def Fresh (o : Opts) (t : Tree) (c : Cache) (x : Str) : Prop :=
  ∃ gs', hmGet x c = some gs' ∧ List.Forall₂ (Loaded t) (groupsOf o t x) gs'

/-- A partition that the query looks at. -/
def Wanted (A : Arrow) (o : Opts) (t : Tree) (p : Plan) (x : Str) : Prop :=
  PartitionOf o t x ∧ p.pruner.shouldInclude A x = true

/-- The slices picked so far. -/
def Picked (t : Tree) (p : Plan) (gs : List FileGroup) (acc : List FileSlice) : Prop :=
  ∃ r, Res.mapL (pickGroup t p.ts p.excl) gs = .ok r ∧ acc = r.flatten

theorem Picked.append {t : Tree} {p : Plan} {gs gs' : List FileGroup} {acc acc' : List FileSlice}
    (h : Picked t p gs acc) (h' : Picked t p gs' acc') : Picked t p (gs ++ gs') (acc ++ acc') := by
  obtain ⟨r, h1, rfl⟩ := h
  obtain ⟨r', h2, rfl⟩ := h'
  refine ⟨r ++ r', ?_, by simp⟩
  induction gs generalizing r with
  | nil => cases h1; exact h2
  | cons g gs ih =>
    obtain ⟨a, as, e1, e2, rfl⟩ := Res.mapL_cons_ok.1 h1
    exact Res.mapL_cons_ok.2 ⟨a, as ++ r', e1, ih as e2, rfl⟩

/-- The plan of a query, by what the query answers alone. -/
structure Planned (E : Env) (A : Arrow) (tb : Table) (t : Tree) (ask : Ask) (p : Plan) : Prop where
  listed : listRelevant A tb.opts t p.pruner = .ok p.listed
  answer : ∀ ss, alone E A tb t ask = .ok ss ↔
    (viewSlicesAsOf A tb.opts t p.ts p.pruner p.excl []).2 = .ok ss

theorem planAsOf_ok {E : Env} {A : Arrow} {tb : Table} {t : Tree} {ts : Str}
    {fs : List (Str × Str × Str)} {p : Plan} (h : tb.planAsOf E A t ts fs = .ok p) :
    listRelevant A tb.opts t p.pruner = .ok p.listed ∧ ∀ ss,
      (tb.fileSlicesAsOf E A t ts fs []).2 = .ok ss ↔
        (viewSlicesAsOf A tb.opts t p.ts p.pruner p.excl []).2 = .ok ss := by
  unfold Table.planAsOf at h
  obtain ⟨fs', h1, h⟩ := Res.bind_eq_ok.1 h
  obtain ⟨excl, h2, h⟩ := Res.bind_eq_ok.1 h
  obtain ⟨schema, h3, h⟩ := Res.bind_eq_ok.1 h
  obtain ⟨pr, h4, h⟩ := Res.bind_eq_ok.1 h
  obtain ⟨m, h5, h⟩ := Res.bind_eq_ok.1 h
  cases h
  refine ⟨h5, fun ss => ?_⟩
  unfold Table.fileSlicesAsOf
  rw [Query.bind_lift_snd]
  constructor
  · rintro ⟨a, e1, e2⟩
    rw [h1] at e1; cases e1
    obtain ⟨a, b, c, e3, e4, e5, e6⟩ := fileSlicesInternal_ok.1 e2
    rw [h2] at e3; cases e3
    rw [h3] at e4; cases e4
    rw [h4] at e5; cases e5
    exact e6
  · intro e
    exact ⟨fs', h1, fileSlicesInternal_ok.2 ⟨excl, schema, pr, h2, h3, h4, e⟩⟩

theorem planAsOf_not_ok {E : Env} {A : Arrow} {tb : Table} {t : Tree} {ts : Str}
    {fs : List (Str × Str × Str)} (h : ∀ p, tb.planAsOf E A t ts fs ≠ .ok p) (ss : List FileSlice) :
    (tb.fileSlicesAsOf E A t ts fs []).2 ≠ .ok ss := by
  intro hq
  unfold Table.fileSlicesAsOf at hq
  obtain ⟨fs', h1, hq⟩ := Query.bind_lift_snd.1 hq
  obtain ⟨excl, schema, pr, h2, h3, h4, h5⟩ := fileSlicesInternal_ok.1 hq
  obtain ⟨m, r, h6, _, _⟩ := viewSlicesAsOf_ok.1 h5
  apply h ⟨ts, pr, excl, m⟩
  unfold Table.planAsOf
  rw [h1, Res.ok_bind, h2, Res.ok_bind, h3, Res.ok_bind, h4, Res.ok_bind, h6, Res.ok_bind]
  rfl

theorem plan_some {E : Env} {A : Arrow} {tb : Table} {t : Tree} {ask : Ask} {p : Plan}
    (h : tb.plan E A t ask = .ok (some p)) : Planned E A tb t ask p := by
  cases ask with
  | latest fs =>
    simp only [Table.plan] at h
    cases hl : tb.timeline.latestTimestamp with
    | none => rw [hl] at h; cases h
    | some ts =>
      rw [hl] at h
      obtain ⟨p', h1, h2⟩ := Res.bind_eq_ok.1 h
      cases h2
      obtain ⟨h3, h4⟩ := planAsOf_ok h1
      refine ⟨h3, fun ss => ?_⟩
      rw [← h4]
      simp only [alone, Table.fileSlices, hl]
      rfl
  | asOf ts fs =>
    obtain ⟨p', h1, h2⟩ := Res.bind_eq_ok.1 h
    cases h2
    obtain ⟨h3, h4⟩ := planAsOf_ok h1
    exact ⟨h3, h4⟩

theorem plan_none {E : Env} {A : Arrow} {tb : Table} {t : Tree} {ask : Ask}
    (h : tb.plan E A t ask = .ok none) : alone E A tb t ask = .ok [] := by
  cases ask with
  | latest fs =>
    simp only [Table.plan] at h
    cases hl : tb.timeline.latestTimestamp with
    | none => simp only [alone, Table.fileSlices, hl]; rfl
    | some ts =>
      rw [hl] at h
      obtain ⟨p', h1, h2⟩ := Res.bind_eq_ok.1 h
      cases h2
  | asOf ts fs =>
    obtain ⟨p', h1, h2⟩ := Res.bind_eq_ok.1 h
    cases h2

theorem plan_not_ok {E : Env} {A : Arrow} {tb : Table} {t : Tree} {ask : Ask}
    (h : ∀ x, tb.plan E A t ask ≠ .ok x) (ss : List FileSlice) : alone E A tb t ask ≠ .ok ss := by
  cases ask with
  | latest fs =>
    simp only [Table.plan] at h
    cases hl : tb.timeline.latestTimestamp with
    | none => rw [hl] at h; exact absurd rfl (h none)
    | some ts =>
      rw [hl] at h
      have := planAsOf_not_ok (E := E) (A := A) (tb := tb) (t := t) (ts := ts) (fs := fs)
        (fun p hp => h (some p) (by simp only; rw [hp]; rfl)) ss
      simp only [alone, Table.fileSlices, hl]
      exact this
  | asOf ts fs =>
    exact planAsOf_not_ok (fun p hp => h (some p) (by simp only [Table.plan]; rw [hp]; rfl)) ss

theorem SameAnswer.failed {r r' : Res (List FileSlice)} (h : ∀ ss, r ≠ .ok ss) (h' : ∀ ss, r' ≠ .ok ss) :
    SameAnswer r r' :=
  ⟨fun ss e => absurd e (h ss), fun ss e => absurd e (h' ss)⟩

/-- What is known about a query at each place. -/
def TaskInv (E : Env) (A : Arrow) (tb : Table) (t : Tree) (R : Runtime) (c : Cache) (ask : Ask) :
    Pc → Prop
  | .start => True
  | .inserting p rest => Planned E A tb t ask p ∧
    (∀ x gs, (x, gs) ∈ rest → hmGet x p.listed = some gs) ∧
    ∀ x gs, hmGet x p.listed = some gs → Fresh tb.opts t c x ∨ (x, gs) ∈ rest
  | .next p k acc => Planned E A tb t ask p ∧ (∀ x, Wanted A tb.opts t p x → Fresh tb.opts t c x) ∧
    ∃ vis : List Str, vis.Nodup ∧ (∀ x, x ∈ vis ↔ Wanted A tb.opts t p x ∧ R.shard x < k) ∧
      Picked t p (vis.flatMap (groupsOf tb.opts t)) acc
  | .visiting p k rest j acc =>
    Planned E A tb t ask p ∧ (∀ x, Wanted A tb.opts t p x → Fresh tb.opts t c x) ∧ rest.Nodup ∧
    (∀ x ∈ rest, R.shard x = k ∧ PartitionOf tb.opts t x) ∧
    ∃ vis : List Str, vis.Nodup ∧ (∀ x, x ∈ vis ↔ Wanted A tb.opts t p x ∧ R.shard x ≤ k ∧ x ∉ rest) ∧
      match rest with
      | [] => Picked t p (vis.flatMap (groupsOf tb.opts t)) acc
      | x :: _ => (p.pruner.shouldInclude A x = false → j = 0) ∧
        Picked t p (vis.flatMap (groupsOf tb.opts t) ++ (groupsOf tb.opts t x).take j) acc
  | .finished r => SameAnswer (alone E A tb t ask) r

theorem TaskInv.mono {E : Env} {A : Arrow} {tb : Table} {t : Tree} {R : Runtime} {c c' : Cache}
    {ask : Ask} {pc : Pc} (h : TaskInv E A tb t R c ask pc)
    (hf : ∀ x, Fresh tb.opts t c x → Fresh tb.opts t c' x) : TaskInv E A tb t R c' ask pc := by
  cases pc with
  | start => trivial
  | inserting p rest =>
    exact ⟨h.1, h.2.1, fun x gs hx => (h.2.2 x gs hx).imp (hf x) id⟩
  | next p k acc => exact ⟨h.1, fun x hx => hf x (h.2.1 x hx), h.2.2⟩
  | visiting p k rest j acc => exact ⟨h.1, fun x hx => hf x (h.2.1 x hx), h.2.2⟩
  | finished r => exact h

/-- The groups a query wants, in any order of its partitions. -/
theorem wanted_perm {A : Arrow} {o : Opts} {t : Tree} {p : Plan} (hwf : TreeWF t)
    (hm : listRelevant A o t p.pruner = .ok p.listed) {vis : List Str} (hn : vis.Nodup)
    (hv : ∀ x, x ∈ vis ↔ Wanted A o t p x) :
    (vis.flatMap (groupsOf o t)).Perm (included A p.pruner p.listed) := by
  obtain ⟨hnd, h1, h2⟩ := listRelevant_ok hwf hm
  have hkeys : ((p.listed.filter (fun e => p.pruner.shouldInclude A e.1)).map Prod.fst).Nodup :=
    List.Nodup.sublist (List.Sublist.map _ List.filter_sublist) hnd
  have hperm : vis.Perm ((p.listed.filter (fun e => p.pruner.shouldInclude A e.1)).map Prod.fst) := by
    refine (List.perm_ext_iff_of_nodup hn hkeys).2 (fun x => ?_)
    rw [hv, List.mem_map]
    constructor
    · rintro ⟨a, b⟩
      obtain ⟨gs, hgs⟩ := h2 x a (fun _ => b)
      exact ⟨(x, gs), List.mem_filter.2 ⟨(hmGet_eq_some hnd).1 ((h1 x gs).2 ⟨a, fun _ => b, hgs⟩), b⟩, rfl⟩
    · rintro ⟨⟨y, gs⟩, hy, rfl⟩
      obtain ⟨h3, h4⟩ := List.mem_filter.1 hy
      exact ⟨((h1 y gs).1 ((hmGet_eq_some hnd).2 h3)).1, h4⟩
  refine (hperm.flatMap_right _).trans ?_
  unfold included
  rw [List.flatMap_map]
  have : ∀ l : Cache, (∀ e ∈ l, e ∈ p.listed) →
      l.flatMap (fun e => groupsOf o t e.1) = l.flatMap Prod.snd := by
    intro l hl
    induction l with
    | nil => rfl
    | cons e l ih =>
      rw [List.flatMap_cons, List.flatMap_cons, ih (fun e he => hl e (by simp [he]))]
      obtain ⟨x, gs⟩ := e
      have := ((h1 x gs).1 ((hmGet_eq_some hnd).2 (hl _ (by simp)))).2.2
      simp only [groupsOf, this]
  rw [this _ (fun e he => (List.mem_filter.1 he).1)]

/-- The answer of a query that has picked the slices of all groups it wants. -/
theorem answer_of_picked {E : Env} {A : Arrow} {tb : Table} {t : Tree} {ask : Ask} {p : Plan}
    (hwf : TreeWF t) (hp : Planned E A tb t ask p) {vis : List Str} (hn : vis.Nodup)
    (hv : ∀ x, x ∈ vis ↔ Wanted A tb.opts t p x) {acc : List FileSlice}
    (hacc : Picked t p (vis.flatMap (groupsOf tb.opts t)) acc) :
    SameAnswer (alone E A tb t ask) (.ok acc) := by
  obtain ⟨r, h1, rfl⟩ := hacc
  obtain ⟨r', h2, h3⟩ := mapL_perm (wanted_perm hwf hp.listed hn hv) h1
  have hext : hmExtend [] p.listed = p.listed := hmOfList_eq (listRelevant_ok hwf hp.listed).1
  have h4 : alone E A tb t ask = .ok r'.flatten := by
    rw [hp.answer]
    exact viewSlicesAsOf_ok.2 ⟨p.listed, r', hp.listed, by rw [hext]; exact h2, rfl⟩
  constructor
  · intro ss hs
    rw [h4] at hs; cases hs
    exact ⟨_, rfl, h3.flatten.symm⟩
  · intro ss hs
    cases hs
    exact ⟨_, h4, h3.flatten.symm⟩

/-- A query fails alone if it fails on a group it wants. -/
theorem fails_alone {E : Env} {A : Arrow} {tb : Table} {t : Tree} {ask : Ask} {p : Plan}
    (hwf : TreeWF t) (hp : Planned E A tb t ask p) {x : Str} (hx : Wanted A tb.opts t p x)
    {g : FileGroup} (hg : g ∈ groupsOf tb.opts t x)
    (hf : ∀ l, pickGroup t p.ts p.excl g ≠ .ok l) (ss : List FileSlice) :
    alone E A tb t ask ≠ .ok ss := by
  intro h
  rw [hp.answer] at h
  obtain ⟨m, r, h1, h2, _⟩ := viewSlicesAsOf_ok.1 h
  have hm : m = p.listed := by rw [hp.listed] at h1; cases h1; rfl
  have hext : hmExtend [] m = m := hmOfList_eq (listRelevant_ok hwf h1).1
  rw [hext] at h2
  unfold groupsOf at hg
  split at hg
  · rename_i gs hgs
    obtain ⟨l, h3, _⟩ := Res.mapL_ok_mem h2 g ((mem_included hwf h1 g).2 ⟨x, gs, hx.1, hx.2, hgs, hg⟩)
    exact hf l h3
  · cases hg

/-- What is known about the whole state. -/
structure ConcInv (E : Env) (A : Arrow) (tb : Table) (t : Tree) (R : Runtime) (s : Conc) : Prop where
  nodup : HmNodup s.cache
  keys : ∀ x ∈ s.cache.map Prod.fst, PartitionOf tb.opts t x
  tasks : ∀ (i : Nat) (tk : QTask), s.tasks[i]? = some tk → TaskInv E A tb t R s.cache tk.ask tk.pc

theorem groups_sorted {o : Opts} {t : Tree} (hwf : TreeWF t) {x : Str} :
    ∀ g ∈ groupsOf o t x, MapSorted g.slices := by
  intro g hg
  unfold groupsOf at hg
  split at hg
  · rename_i gs hgs
    exact (listFileGroups_wf (hwf.at (pathSegs x)).files_nodup hgs g hg).sorted
  · cases hg

theorem forall₂_self {α : Type} {r : α → α → Prop} {l : List α} (h : ∀ a ∈ l, r a a) :
    List.Forall₂ r l l := by
  induction l with
  | nil => exact .nil
  | cons a l ih => exact .cons (h a (by simp)) (ih (fun b hb => h b (by simp [hb])))

theorem forall₂_get {α β : Type} {r : α → β → Prop} {l : List α} {l' : List β}
    (h : List.Forall₂ r l l') {j : Nat} {b : β} (hb : l'[j]? = some b) :
    ∃ a, l[j]? = some a ∧ r a b := by
  induction h generalizing j with
  | nil => simp at hb
  | cons h1 h2 ih =>
    cases j with
    | zero =>
      simp only [List.getElem?_cons_zero, Option.some.injEq] at hb
      subst hb
      exact ⟨_, rfl, h1⟩
    | succ j =>
      simp only [List.getElem?_cons_succ] at hb ⊢
      exact ih hb

theorem forall₂_set {α β : Type} {r : α → β → Prop} {l : List α} {l' : List β}
    (h : List.Forall₂ r l l') {j : Nat} {a : α} {b : β} (ha : l[j]? = some a) (hr : r a b) :
    List.Forall₂ r l (l'.set j b) := by
  induction h generalizing j with
  | nil => exact .nil
  | cons h1 h2 ih =>
    cases j with
    | zero =>
      simp only [List.getElem?_cons_zero, Option.some.injEq] at ha
      subst ha
      exact .cons hr h2
    | succ j =>
      simp only [List.getElem?_cons_succ] at ha
      exact .cons h1 (ih ha)

theorem forall₂_length {α β : Type} {r : α → β → Prop} {l : List α} {l' : List β}
    (h : List.Forall₂ r l l') : l.length = l'.length := by
  induction h with
  | nil => rfl
  | cons _ _ ih => simp [ih]

theorem fresh_insert {o : Opts} {t : Tree} {c : Cache} {x : Str} {gs : List FileGroup}
    (h : List.Forall₂ (Loaded t) (groupsOf o t x) gs) :
    Fresh o t (hmInsert x gs c) x ∧ ∀ y, Fresh o t c y → Fresh o t (hmInsert x gs c) y := by
  refine ⟨⟨gs, by rw [hmGet_hmInsert]; simp, h⟩, ?_⟩
  rintro y ⟨gs', h1, h2⟩
  by_cases hy : y = x
  · subst hy
    exact ⟨gs, by rw [hmGet_hmInsert]; simp, h⟩
  · exact ⟨gs', by rw [hmGet_hmInsert]; simp [hy, h1], h2⟩

theorem Picked.nil {t : Tree} {p : Plan} : Picked t p [] [] := ⟨[], rfl, rfl⟩

theorem take_succ_of_get {α : Type} {l : List α} {j : Nat} {a : α} (h : l[j]? = some a) :
    l.take (j + 1) = l.take j ++ [a] := by
  rw [List.take_add_one, h]; rfl

/-- A step keeps what is known, about the cache and about the query. -/
theorem pcStep_inv {E : Env} {A : Arrow} {tb : Table} {t : Tree} {R : Runtime} (hwf : TreeWF t)
    {free : Nat → Bool} {keysIn : Nat → List Str} {ks : List Str} {ask : Ask} {c c' : Cache} {pc pc' : Pc}
    (hR : ∀ x, R.shard x < R.shards)
    (hn : HmNodup c) (hk : ∀ x ∈ c.map Prod.fst, PartitionOf tb.opts t x)
    (hkeys : ∀ k x, x ∈ keysIn k ↔ x ∈ c.map Prod.fst ∧ R.shard x = k) (hkn : ∀ k, (keysIn k).Nodup)
    (hinv : TaskInv E A tb t R c ask pc)
    (h : pcStep E A tb t R free keysIn ks ask c pc = some (c', pc')) :
    HmNodup c' ∧ (∀ x ∈ c'.map Prod.fst, PartitionOf tb.opts t x) ∧
    (∀ x, Fresh tb.opts t c x → Fresh tb.opts t c' x) ∧ TaskInv E A tb t R c' ask pc' := by
  have hsame : ∀ {pc'}, TaskInv E A tb t R c ask pc' → HmNodup c ∧
      (∀ x ∈ c.map Prod.fst, PartitionOf tb.opts t x) ∧
      (∀ x, Fresh tb.opts t c x → Fresh tb.opts t c x) ∧ TaskInv E A tb t R c ask pc' :=
    fun h => ⟨hn, hk, fun _ h => h, h⟩
  cases pc with
  | start =>
    simp only [pcStep, pcStepWith] at h
    cases hp : tb.plan E A t ask with
    | ok o =>
      rw [hp] at h
      cases o with
      | none =>
        cases h
        refine hsame ?_
        show SameAnswer _ _
        rw [plan_none hp]
        exact ⟨fun ss h => ⟨ss, h, .refl _⟩, fun ss h => ⟨ss, h, .refl _⟩⟩
      | some p =>
        simp only at h
        split at h
        · rename_i hperm
          cases h
          have hperm := List.isPerm_iff.1 hperm
          have hpl := plan_some hp
          obtain ⟨hnl, _, _⟩ := listRelevant_ok hwf hpl.listed
          refine hsame ⟨hpl, ?_, ?_⟩
          · intro x gs hx
            obtain ⟨y, _, hy⟩ := List.mem_filterMap.1 hx
            obtain ⟨gs', h1, h2⟩ := Option.map_eq_some_iff.1 hy
            cases h2
            exact h1
          · intro x gs hx
            right
            refine List.mem_filterMap.2 ⟨x, ?_, by rw [hx]; rfl⟩
            rw [hperm.mem_iff]
            exact List.mem_map.2 ⟨_, hmGet_mem hx, rfl⟩
        · cases h
    | err e =>
      rw [hp] at h
      cases h
      exact hsame (SameAnswer.failed (plan_not_ok (fun x hx => by rw [hp] at hx; cases hx))
        (fun ss hs => by cases hs))
    | panic =>
      rw [hp] at h
      cases h
      exact hsame (SameAnswer.failed (plan_not_ok (fun x hx => by rw [hp] at hx; cases hx))
        (fun ss hs => by cases hs))
  | inserting p rest =>
    obtain ⟨hpl, h1, h2⟩ := hinv
    obtain ⟨hnl, h3, h4⟩ := listRelevant_ok hwf hpl.listed
    cases rest with
    | nil =>
      cases h
      refine hsame ⟨hpl, ?_, [], List.nodup_nil, ?_, Picked.nil⟩
      · rintro x ⟨hx1, hx2⟩
        obtain ⟨gs, hgs⟩ := h4 x hx1 (fun _ => hx2)
        rcases h2 x gs ((h3 x gs).2 ⟨hx1, fun _ => hx2, hgs⟩) with h | h
        · exact h
        · cases h
      · intro x; simp
    | cons e rest =>
      obtain ⟨x, gs⟩ := e
      simp only [pcStep, pcStepWith] at h
      split at h
      · cases h
        have hx := h1 x gs (by simp)
        obtain ⟨hpart, _, hgs⟩ := (h3 x gs).1 hx
        have hgo : groupsOf tb.opts t x = gs := by simp only [groupsOf, hgs]
        have hl : List.Forall₂ (Loaded t) (groupsOf tb.opts t x) gs := by
          rw [hgo]
          refine forall₂_self (fun g hg => Loaded.refl (groups_sorted hwf (o := tb.opts) (x := x) g ?_))
          rw [hgo]; exact hg
        obtain ⟨f1, f2⟩ := fresh_insert (c := c) hl
        refine ⟨hmInsert_nodup hn, ?_, f2, hpl, fun y gs' hy => h1 y gs' (by simp [hy]), ?_⟩
        · intro y hy
          rw [hmInsert_keys] at hy
          rcases hy with rfl | hy
          · exact hpart
          · exact hk y hy
        · intro y gs' hy
          rcases h2 y gs' hy with h | h
          · exact .inl (f2 y h)
          · rcases List.mem_cons.1 h with h | h
            · cases h; exact .inl f1
            · exact .inr h
      · cases h
  | next p k acc =>
    obtain ⟨hpl, h1, vis, h2, h3, h4⟩ := hinv
    simp only [pcStep, pcStepWith] at h
    split at h
    · rename_i hkn
      cases h
      refine hsame (answer_of_picked hwf hpl h2 (fun x => ?_) h4)
      rw [h3, hkn]
      exact ⟨fun h => h.1, fun h => ⟨h, hR x⟩⟩
    · split at h
      · split at h
        · rename_i hperm
          cases h
          have hperm := List.isPerm_iff.1 hperm
          refine hsame ⟨hpl, h1, hperm.nodup_iff.2 (hkn k), ?_, vis, h2, ?_, ?_⟩
          · intro x hx
            obtain ⟨a, b⟩ := (hkeys k x).1 (hperm.mem_iff.1 hx)
            exact ⟨b, hk x a⟩
          · intro x
            rw [h3]
            refine and_congr_right (fun hw => ?_)
            rw [hperm.mem_iff, hkeys]
            have hin : x ∈ c.map Prod.fst := by
              obtain ⟨gs', hg, _⟩ := h1 x hw
              exact List.mem_map.2 ⟨_, hmGet_mem hg, rfl⟩
            constructor
            · intro hlt; exact ⟨by omega, fun ⟨_, he⟩ => by omega⟩
            · rintro ⟨hle, hne⟩
              rcases Nat.lt_or_eq_of_le hle with hlt | he
              · exact hlt
              · exact absurd ⟨hin, he⟩ hne
          · cases ks with
            | nil => exact h4
            | cons x ks => exact ⟨fun _ => rfl, by simpa using h4⟩
        · cases h
      · cases h
  | visiting p k rest j acc =>
    obtain ⟨hpl, h1, h2, h3, vis, h4, h5, h6⟩ := hinv
    cases rest with
    | nil =>
      cases h
      refine hsame ⟨hpl, h1, vis, h4, fun x => ?_, h6⟩
      rw [h5]
      simp [Nat.lt_succ_iff]
    | cons x rest =>
      obtain ⟨h6, h7⟩ := h6
      obtain ⟨hxk, hxp⟩ := h3 x (by simp)
      obtain ⟨hxr, hrn⟩ := List.nodup_cons.1 h2
      simp only [pcStep, pcStepWith] at h
      split at h
      · rename_i hno
        cases h
        refine hsame ⟨hpl, h1, hrn, fun y hy => h3 y (by simp [hy]), vis, h4, fun y => ?_, ?_⟩
        · rw [h5]
          refine and_congr_right (fun hw => and_congr_right (fun _ => ?_))
          have : y ≠ x := by
            rintro rfl
            rw [hw.2] at hno; cases hno
          simp [this]
        · rw [h6 hno] at h7
          simp only [List.take_zero, List.append_nil] at h7
          cases rest with
          | nil => exact h7
          | cons y rest => exact ⟨fun _ => rfl, by simpa using h7⟩
      · rename_i hyes
        have hw : Wanted A tb.opts t p x := ⟨hxp, by simpa using hyes⟩
        obtain ⟨gs', hget, hl⟩ := h1 x hw
        rw [hget] at h
        simp only at h
        split at h
        · -- the end of the partition
          rename_i hend
          cases h
          have hlen : (groupsOf tb.opts t x).length ≤ j := by
            rw [forall₂_length hl]
            exact List.getElem?_eq_none_iff.1 hend
          rw [List.take_of_length_le hlen] at h7
          have hxv : x ∉ vis := fun hx => ((h5 x).1 hx).2.2 (by simp)
          refine hsame ⟨hpl, h1, hrn, fun y hy => h3 y (by simp [hy]), vis ++ [x], ?_, fun y => ?_, ?_⟩
          · refine List.nodup_append.2 ⟨h4, by simp, ?_⟩
            intro a ha b hb
            rw [List.mem_singleton.1 hb]
            rintro rfl
            exact hxv ha
          · rw [List.mem_append, List.mem_singleton, h5]
            constructor
            · rintro (⟨a, b, c⟩ | rfl)
              · exact ⟨a, b, fun hy => c (by simp [hy])⟩
              · exact ⟨hw, Nat.le_of_eq hxk, hxr⟩
            · rintro ⟨a, b, c⟩
              by_cases hy : y = x
              · exact .inr hy
              · exact .inl ⟨a, b, by simp [hy, c]⟩
          · have h8 : Picked t p ((vis ++ [x]).flatMap (groupsOf tb.opts t)) acc := by
              simpa [List.flatMap_append] using h7
            cases rest with
            | nil => exact h8
            | cons y rest => exact ⟨fun _ => rfl, by simpa using h8⟩
        · rename_i g hg
          obtain ⟨g0, hg0, hlg⟩ := forall₂_get hl hg
          have hmem : g0 ∈ groupsOf tb.opts t x := List.mem_of_getElem? hg0
          split at h
          · rename_i g' s hc
            cases h
            have hl' : List.Forall₂ (Loaded t) (groupsOf tb.opts t x) (gs'.set j g') :=
              forall₂_set hl hg0 (hlg.collect hc)
            obtain ⟨f1, f2⟩ := fresh_insert (c := c) hl'
            refine ⟨hmInsert_nodup hn, ?_, f2, hpl, fun y hy => f2 y (h1 y hy), h2, h3, vis, h4, h5,
              ?_, ?_⟩
            · intro y hy
              rw [hmInsert_keys] at hy
              rcases hy with rfl | hy
              · exact hxp
              · exact hk y hy
            · intro hno; rw [hw.2] at hno; cases hno
            · rw [take_succ_of_get hg0, ← List.append_assoc]
              refine h7.append ?_
              have hpick := pickGroup_of_collect hc
              rw [hlg.pick] at hpick
              exact ⟨[s.toList], Res.mapL_cons_ok.2 ⟨_, [], hpick, rfl, rfl⟩, by simp⟩
          · rename_i e hc
            cases h
            refine hsame (SameAnswer.failed (fails_alone hwf hpl hw hmem ?_) (fun ss hs => by cases hs))
            intro l hl
            rw [← hlg.pick] at hl
            unfold pickGroup at hl
            rw [hc] at hl
            cases hl
          · rename_i hc
            cases h
            refine hsame (SameAnswer.failed (fails_alone hwf hpl hw hmem ?_) (fun ss hs => by cases hs))
            intro l hl
            rw [← hlg.pick] at hl
            unfold pickGroup at hl
            rw [hc] at hl
            cases hl
  | finished r => cases h

theorem ConcInv.step {E : Env} {A : Arrow} {tb : Table} {t : Tree} {R : Runtime} (hwf : TreeWF t)
    (hR : ∀ x, R.shard x < R.shards) {s s' : Conc} (h : ConcInv E A tb t R s) {i : Nat} {ks : List Str}
    (hs : s.step E A tb t R i ks = some s') : ConcInv E A tb t R s' := by
  unfold Conc.step at hs
  split at hs
  · cases hs
  · rename_i tk htk
    split at hs
    · split at hs
      · rename_i c pc hp
        cases hs
        obtain ⟨h1, h2, h3, h4⟩ := pcStep_inv hwf hR h.nodup h.keys
          (fun k x => by rw [List.mem_filter]; simp)
          (fun k => List.Nodup.filter _ h.nodup) (h.tasks i tk htk) hp
        refine ⟨h1, h2, ?_⟩
        intro j tk' hj
        by_cases hij : i = j
        · subst hij
          have hlt : i < s.tasks.length := (List.getElem?_eq_some_iff.1 htk).1
          simp only [List.getElem?_set_self hlt, Option.some.injEq] at hj
          subst hj
          exact h4
        · simp only [List.getElem?_set_ne hij] at hj
          exact (h.tasks j tk' hj).mono h3
      · cases hs
    · cases hs

theorem ConcInv.init {E : Env} {A : Arrow} {tb : Table} {t : Tree} {R : Runtime} {c : Cache}
    (hn : HmNodup c) (hk : ∀ x ∈ c.map Prod.fst, PartitionOf tb.opts t x) (asks : List Ask) :
    ConcInv E A tb t R (.init c asks) := by
  refine ⟨hn, hk, ?_⟩
  intro i tk h
  unfold Conc.init at h
  simp only [List.getElem?_map] at h
  obtain ⟨a, _, rfl⟩ := Option.map_eq_some_iff.1 h
  trivial

theorem ConcInv.reaches {E : Env} {A : Arrow} {tb : Table} {t : Tree} {R : Runtime} (hwf : TreeWF t)
    (hR : ∀ x, R.shard x < R.shards) {s s' : Conc} (h : ConcInv E A tb t R s)
    (hs : Reaches E A tb t R s s') : ConcInv E A tb t R s' := by
  induction hs with
  | refl => exact h
  | step i ks _ hstep ih => exact ih.step hwf hR hstep

/-- Steps do not change what the queries ask for. -/
theorem step_asks {E : Env} {A : Arrow} {tb : Table} {t : Tree} {R : Runtime} {s s' : Conc} {i : Nat}
    {ks : List Str} (hs : s.step E A tb t R i ks = some s') :
    s'.tasks.map QTask.ask = s.tasks.map QTask.ask := by
  unfold Conc.step at hs
  split at hs
  · cases hs
  · rename_i tk htk
    split at hs
    · split at hs
      · cases hs
        simp only [List.map_set]
        refine List.ext_getElem? (fun j => ?_)
        by_cases hij : i = j
        · subst hij
          have hlt : i < (s.tasks.map QTask.ask).length := by
            simpa using (List.getElem?_eq_some_iff.1 htk).1
          rw [List.getElem?_set_self hlt, List.getElem?_map, htk]; rfl
        · rw [List.getElem?_set_ne hij]
      · cases hs
    · cases hs

theorem reaches_asks {E : Env} {A : Arrow} {tb : Table} {t : Tree} {R : Runtime} {c : Cache}
    {asks : List Ask} {s : Conc} (h : Reaches E A tb t R (.init c asks) s) :
    s.tasks.map QTask.ask = asks := by
  induction h with
  | refl => simp [Conc.init, Function.comp_def]
  | step i ks _ hs ih => rw [step_asks hs]; exact ih

/-! ## Progress -/

theorem free_iff {s : Conc} {i k : Nat} : s.free i k = true ↔
    ∀ j tk, s.tasks[j]? = some tk → j ≠ i → tk.pc.holds ≠ some k := by
  unfold Conc.free
  rw [List.all_eq_true]
  constructor
  · intro h j tk hj hne
    have := h j (List.mem_range.2 (List.getElem?_eq_some_iff.1 hj).1)
    rw [hj] at this
    simpa [hne] using this
  · intro h j hj
    cases hg : s.tasks[j]? with
    | none => simp
    | some tk =>
      by_cases hne : j = i
      · simp [hne]
      · simp [h j tk hg hne]

theorem scheduled_own {A : Arrow} {R : Runtime} (hR : OwnThreads R) (s : Conc) (i : Nat) :
    s.scheduled A R i = true := by
  unfold Conc.scheduled
  rw [List.all_eq_true]
  intro j _
  by_cases hne : j = i
  · simp [hne]
  · have : R.thread j ≠ R.thread i := fun h => hne (hR j i h)
    simp [this]

/-- The shard that a query waits for. -/
def Pc.needs (R : Runtime) : Pc → Option Nat
  | .inserting _ ((x, _) :: _) => some (R.shard x)
  | .next _ k _ => if k = R.shards then none else some k
  | _ => none

/-- A query that has not returned takes a step, or waits for a lock. -/
theorem pcStep_enabled {A : Arrow} {plan : Ask → Res (Option Plan)} {t : Tree} {R : Runtime}
    {free : Nat → Bool} {keysIn : Nat → List Str} {ask : Ask} {c : Cache} {pc : Pc}
    (hnf : ∀ r, pc ≠ .finished r) (hneed : ∀ k, pc.needs R = some k → free k = true) :
    ∃ ks r, pcStepWith A plan t R free keysIn ks ask c pc = some r := by
  cases pc with
  | start =>
    simp only [pcStepWith]
    cases plan ask with
    | ok o =>
      cases o with
      | none => exact ⟨[], _, rfl⟩
      | some p => exact ⟨p.listed.map Prod.fst, _, by simp only; rw [if_pos (List.isPerm_iff.2 (.refl _))]⟩
    | err e => exact ⟨[], _, rfl⟩
    | panic => exact ⟨[], _, rfl⟩
  | inserting p rest =>
    cases rest with
    | nil => exact ⟨[], _, rfl⟩
    | cons e rest =>
      have := hneed _ rfl
      exact ⟨[], _, by simp only [pcStepWith]; rw [if_pos this]⟩
  | next p k acc =>
    by_cases hk : k = R.shards
    · exact ⟨[], _, by simp only [pcStepWith]; rw [if_pos hk]⟩
    · have := hneed k (by simp [Pc.needs, hk])
      exact ⟨keysIn k, _, by
        simp only [pcStepWith]; rw [if_neg hk, if_pos this, if_pos (List.isPerm_iff.2 (.refl _))]⟩
  | visiting p k rest j acc =>
    cases rest with
    | nil => exact ⟨[], _, rfl⟩
    | cons x rest =>
      refine ⟨[], ?_⟩
      simp only [pcStepWith]
      split
      · exact ⟨_, rfl⟩
      · split
        · exact ⟨_, rfl⟩
        · split
          · exact ⟨_, rfl⟩
          · split <;> exact ⟨_, rfl⟩
  | finished r => exact absurd rfl (hnf r)

/-- If some query has not returned, some query that has not returned waits for no lock that is held.
The queries that hold locks take them in ascending order. -/
theorem some_free {R : Runtime} (s : Conc)
    (hk : ∀ tk ∈ s.tasks, ∀ k, tk.pc.holds = some k → k < R.shards)
    (h : ¬ AllReturned s) :
    ∃ i tk, s.tasks[i]? = some tk ∧ (∀ r, tk.pc ≠ .finished r) ∧
      ∀ k, tk.pc.needs R = some k → s.free i k = true := by
  by_contra hno
  push Not at hno
  -- every shard that is held, and more, is below another one that is held
  have hup : ∀ (d k j : Nat) (tk : QTask), R.shards - k = d → s.tasks[j]? = some tk → tk.pc.holds = some k → False := by
    intro d
    induction d using Nat.strongRecOn with
    | _ d ih =>
      intro k j tk hd hj hh
      have hlt := hk tk (List.mem_of_getElem? hj) k hh
      have hnf : ∀ r, tk.pc ≠ .finished r := by
        intro r hr
        rw [hr] at hh; cases hh
      obtain ⟨k', h1, h2⟩ := hno j tk hj hnf
      have h3 : k' = k + 1 ∧ k' < R.shards := by
        cases hpc : tk.pc with
        | start => rw [hpc] at hh; cases hh
        | inserting p rest => rw [hpc] at hh; cases hh
        | finished r => rw [hpc] at hh; cases hh
        | visiting p k0 rest j acc => rw [hpc] at h1; cases h1
        | next p k0 acc =>
          rw [hpc] at hh h1
          cases k0 with
          | zero => cases hh
          | succ k0 =>
            cases hh
            simp only [Pc.needs] at h1
            split at h1
            · cases h1
            · cases h1; exact ⟨rfl, by omega⟩
      have h4 : ¬ ∀ j' tk', s.tasks[j']? = some tk' → j' ≠ j → tk'.pc.holds ≠ some k' := by
        rw [← free_iff]; simpa using h2
      push Not at h4
      obtain ⟨j', tk', e1, _, e3⟩ := h4
      exact ih (R.shards - k') (by omega) k' j' tk' rfl e1 e3
  unfold AllReturned at h
  push Not at h
  obtain ⟨tk, htk, hnf⟩ := h
  obtain ⟨i, hi⟩ := List.mem_iff_getElem?.1 htk
  obtain ⟨k, _, h2⟩ := hno i tk hi hnf
  have h4 : ¬ ∀ j' tk', s.tasks[j']? = some tk' → j' ≠ i → tk'.pc.holds ≠ some k := by
    rw [← free_iff]; simpa using h2
  push Not at h4
  obtain ⟨j', tk', e1, _, e3⟩ := h4
  exact hup _ k j' tk' rfl e1 e3

/-- The place of a query is within the shards. -/
def Pc.Within (R : Runtime) : Pc → Prop
  | .next _ k _ => k ≤ R.shards
  | .visiting _ k _ _ _ => k < R.shards
  | _ => True

theorem pcStep_within {A : Arrow} {plan : Ask → Res (Option Plan)} {t : Tree} {R : Runtime}
    {free : Nat → Bool} {keysIn : Nat → List Str} {ks : List Str} {ask : Ask} {c c' : Cache} {pc pc' : Pc}
    (hw : pc.Within R) (h : pcStepWith A plan t R free keysIn ks ask c pc = some (c', pc')) :
    pc'.Within R := by
  cases pc with
  | start =>
    simp only [pcStepWith] at h
    split at h
    · cases h; trivial
    · split at h
      · cases h; trivial
      · cases h
    · cases h; trivial
    · cases h; trivial
  | inserting p rest =>
    cases rest with
    | nil => cases h; exact Nat.zero_le _
    | cons e rest =>
      simp only [pcStepWith] at h
      split at h
      · cases h; trivial
      · cases h
  | next p k acc =>
    simp only [pcStepWith] at h
    split at h
    · cases h; trivial
    · rename_i hk
      split at h
      · split at h
        · cases h
          exact Nat.lt_of_le_of_ne hw hk
        · cases h
      · cases h
  | visiting p k rest j acc =>
    cases rest with
    | nil => cases h; exact hw
    | cons x rest =>
      simp only [pcStepWith] at h
      split at h
      · cases h; exact hw
      · split at h
        · cases h; exact hw
        · split at h
          · cases h; exact hw
          · split at h <;> cases h
            · exact hw
            · trivial
            · trivial
  | finished r => cases h

theorem reaches_within {E : Env} {A : Arrow} {tb : Table} {t : Tree} {R : Runtime} {c : Cache}
    {asks : List Ask} {s : Conc} (h : Reaches E A tb t R (.init c asks) s) :
    ∀ tk ∈ s.tasks, tk.pc.Within R := by
  induction h with
  | refl =>
    intro tk htk
    unfold Conc.init at htk
    obtain ⟨a, _, rfl⟩ := List.mem_map.1 htk
    trivial
  | step i ks _ hs ih =>
    unfold Conc.step at hs
    split at hs
    · cases hs
    · rename_i tk htk
      split at hs
      · split at hs
        · rename_i c' pc' hp
          cases hs
          intro tk' htk'
          rcases List.mem_or_eq_of_mem_set htk' with h1 | h1
          · exact ih tk' h1
          · rw [h1]
            exact pcStep_within (ih tk (List.mem_of_getElem? htk)) hp
        · cases hs
      · cases hs

theorem Pc.Within.holds {R : Runtime} {pc : Pc} (h : pc.Within R) {k : Nat} (hk : pc.holds = some k) :
    k < R.shards := by
  cases pc with
  | start => cases hk
  | inserting p rest => cases hk
  | finished r => cases hk
  | visiting p k0 rest j acc => cases hk; exact h
  | next p k0 acc =>
    cases k0 with
    | zero => cases hk
    | succ k0 => cases hk; exact h

/-! ## Termination -/

/-- How far a query is from returning. -/
def Pc.rank (o : Opts) (t : Tree) (R : Runtime) : Pc → Nat × Nat × Nat
  | .start => (2 * R.shards + 3, 0, 0)
  | .inserting _ rest => (2 * R.shards + 2, rest.length, 0)
  | .next _ k _ => (2 * (R.shards - k) + 1, 0, 0)
  | .visiting _ k rest j _ => (2 * (R.shards - k), rest.length,
      match rest with
      | [] => 0
      | x :: _ => (groupsOf o t x).length - j)
  | .finished _ => (0, 0, 0)

/-- The order of ranks. -/
def rankLt : Nat × Nat × Nat → Nat × Nat × Nat → Prop := Prod.Lex (· < ·) (Prod.Lex (· < ·) (· < ·))

theorem rankLt_wf : WellFounded rankLt :=
  (Prod.lex ⟨(· < ·), Nat.lt_wfRel.wf⟩ (Prod.lex ⟨(· < ·), Nat.lt_wfRel.wf⟩ ⟨(· < ·), Nat.lt_wfRel.wf⟩)).wf

theorem pcStep_rank {E : Env} {A : Arrow} {tb : Table} {t : Tree} {R : Runtime}
    {free : Nat → Bool} {keysIn : Nat → List Str} {ks : List Str} {ask : Ask} {c c' : Cache} {pc pc' : Pc}
    (hinv : TaskInv E A tb t R c ask pc) (hw : pc.Within R)
    (h : pcStep E A tb t R free keysIn ks ask c pc = some (c', pc')) :
    rankLt (pc'.rank tb.opts t R) (pc.rank tb.opts t R) := by
  cases pc with
  | start =>
    simp only [pcStep, pcStepWith] at h
    split at h
    · cases h; exact .left _ _ (by omega)
    · split at h
      · cases h; exact .left _ _ (by omega)
      · cases h
    · cases h; exact .left _ _ (by omega)
    · cases h; exact .left _ _ (by omega)
  | inserting p rest =>
    cases rest with
    | nil => cases h; exact .left _ _ (by omega)
    | cons e rest =>
      simp only [pcStep, pcStepWith] at h
      split at h
      · cases h; exact .right _ (.left _ _ (by simp))
      · cases h
  | next p k acc =>
    simp only [pcStep, pcStepWith] at h
    split at h
    · cases h; exact .left _ _ (by omega)
    · split at h
      · split at h
        · cases h; exact .left _ _ (by omega)
        · cases h
      · cases h
  | visiting p k rest j acc =>
    cases rest with
    | nil =>
      cases h
      have : k < R.shards := hw
      exact .left _ _ (by omega)
    | cons x rest =>
      obtain ⟨hpl, h1, h2, h3, vis, h4, h5, h6⟩ := hinv
      have hlt : k < R.shards := hw
      simp only [pcStep, pcStepWith] at h
      split at h
      · cases h; exact .right _ (.left _ _ (by simp))
      · rename_i hyes
        split at h
        · cases h; exact .right _ (.left _ _ (by simp))
        · rename_i gs hget
          split at h
          · cases h; exact .right _ (.left _ _ (by simp))
          · rename_i g hg
            split at h <;> cases h
            · obtain ⟨gs', e1, e2⟩ := h1 x ⟨(h3 x (by simp)).2, by simpa using hyes⟩
              rw [hget] at e1; cases e1
              have hj : j < (groupsOf tb.opts t x).length := by
                rw [forall₂_length e2]
                exact (List.getElem?_eq_some_iff.1 hg).1
              refine .right _ (.right _ ?_)
              simp only
              omega
            · exact .left _ _ (by omega)
            · exact .left _ _ (by omega)
  | finished r => cases h

/-- The distances of all queries from returning. -/
def Conc.ranks (o : Opts) (t : Tree) (R : Runtime) (s : Conc) : Multiset (Nat × Nat × Nat) :=
  (s.tasks.map (fun tk => tk.pc.rank o t R) : List (Nat × Nat × Nat))

theorem step_ranks {E : Env} {A : Arrow} {tb : Table} {t : Tree} {R : Runtime} {s s' : Conc}
    (hinv : ConcInv E A tb t R s) (hw : ∀ tk ∈ s.tasks, tk.pc.Within R) {i : Nat} {ks : List Str}
    (hs : s.step E A tb t R i ks = some s') :
    Relation.CutExpand rankLt (s'.ranks tb.opts t R) (s.ranks tb.opts t R) := by
  unfold Conc.step at hs
  split at hs
  · cases hs
  · rename_i tk htk
    split at hs
    · split at hs
      · rename_i c' pc' hp
        cases hs
        refine ⟨{pc'.rank tb.opts t R}, tk.pc.rank tb.opts t R, ?_, ?_⟩
        · intro a ha
          rw [Multiset.mem_singleton] at ha
          subst ha
          exact pcStep_rank (hinv.tasks i tk htk) (hw tk (List.mem_of_getElem? htk)) hp
        · unfold Conc.ranks
          obtain ⟨hlt, rfl⟩ := List.getElem?_eq_some_iff.1 htk
          simp only
          have e1 : s.tasks = s.tasks.take i ++ s.tasks[i] :: s.tasks.drop (i + 1) := by
            rw [List.getElem_cons_drop hlt, List.take_append_drop]
          rw [List.set_eq_take_append_cons_drop, if_pos hlt]
          conv_rhs => rw [e1]
          simp only [List.map_append, List.map_cons]
          rw [← Multiset.coe_singleton, ← Multiset.coe_singleton, Multiset.coe_add, Multiset.coe_add,
            Multiset.coe_eq_coe]
          simp only [List.append_assoc, List.cons_append]
          refine List.Perm.append_left _ ?_
          refine (List.Perm.cons _ (List.perm_append_singleton _ _)).trans ?_
          refine (List.Perm.swap _ _ _).trans ?_
          exact (List.Perm.cons _ (List.perm_append_singleton _ _).symm)
      · cases hs
    · cases hs

end Hudi
