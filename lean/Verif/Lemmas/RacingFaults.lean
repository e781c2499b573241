import Verif.Spec.RacingFaults
import Verif.Lemmas.Cached
import Verif.Lemmas.Racing

/-! # Lemmas: requests that fail or are answered at different moments -/

namespace Hudi
open Spec

/-! ## What the calls return -/

theorem faithful_replacedAsOfRF (E : Env) (tl : Timeline) (R : Race) (ts : Str) :
    Faithful (tl.replacedAsOfRF E R ts) (tl.replacedAsOfR E R ts) :=
  faithful_bind (faithful_lift _) (fun _ _ => faithful_foldL (fun _ _ =>
    faithful_bind (faithful_request _ _) (fun _ _ => faithful_bind (faithful_lift _) (fun _ _ => faithful_pure _))) _ _)

theorem faithful_partitionSchemaRF (tb : Table) (R : Race) :
    Faithful (tb.partitionSchemaRF R) (tb.partitionSchemaR R) := by
  rw [partitionSchemaR_eq]
  refine faithful_bind (faithful_lift _) (fun _ _ => ?_)
  have e : ∀ {α β γ : Type} (x : Res α) (f : α → Res β) (g : β → Res γ),
      (x >>= fun a => f a >>= g) = ((x >>= f) >>= g) := by
    intro α β γ x f g; cases x <;> rfl
  first
  | exact faithful_bind (faithful_bind (faithful_latestMetadata _ _) (fun md _ => faithful_schemaOfCommit _ md))
      (fun _ _ => faithful_pure _)
  | (rw [e]; exact faithful_bind (faithful_bind (faithful_latestMetadata _ _) (fun md _ => faithful_schemaOfCommit _ md))
      (fun _ _ => faithful_pure _))

theorem faithful_fileGroupsBetweenRF (E : Env) (tl : Timeline) (R : Race) (start stop : Option Str) :
    Faithful (tl.fileGroupsBetweenRF E R start stop) (tl.fileGroupsBetweenR E R start stop) :=
  faithful_bind (faithful_lift _) (fun _ _ => faithful_bind
    (faithful_foldL (fun _ _ => faithful_request _ _) _ _) (fun _ _ => faithful_pure _))

theorem faithful_leafDirsRF (k : Nat) (R : Race) (d : Str) : Faithful (leafDirsRF k R d) (leafDirsR k R d) := by
  induction k generalizing d with
  | zero => exact faithful_lift _
  | succ k ih =>
    have : leafDirsR (k + 1) R d = (Res.ok (listDirs (R.dirs d) d) >>= fun ds => match ds with
      | [] => Res.ok [d]
      | d' :: ds' => do
        let ls ← Res.mapL (fun x => leafDirsR k R (pathPush d x)) (d' :: ds')
        return ls.flatten) := by
      simp only [Res.ok_bind, leafDirsR]
      cases listDirs (R.dirs d) d <;> rfl
    rw [this]
    refine faithful_bind (faithful_request _ _) (fun ds _ => ?_)
    cases ds with
    | nil => exact faithful_lift _
    | cons a as => exact faithful_bind (faithful_mapL (fun x => ih _) _) (fun _ _ => faithful_pure _)

theorem faithful_relevantPartitionsRF (A : Arrow) (o : Opts) (depth : Nat) (R : Race) (p : Pruner) :
    Faithful (relevantPartitionsRF A o depth R p) (relevantPartitionsR A o depth R p) := by
  refine faithful_bind (faithful_lift _) (fun b _ => ?_)
  split
  · exact faithful_lift _
  · have := faithful_bind (faithful_request .storage (Res.ok (listDirs (R.dirs []) [])))
      (f := fun top => do
        let ls ← Io.mapL (leafDirsRF depth R) (top.filter (fun d => !lakeFormatMetadataDirs.contains d))
        let paths := ls.flatten
        if paths.isEmpty || p.isEmpty then Io.lift (.ok paths)
        else return paths.filter (p.shouldInclude A))
      (g := fun top => do
        let ls ← Res.mapL (leafDirsR depth R) (top.filter (fun d => !lakeFormatMetadataDirs.contains d))
        let paths := ls.flatten
        if paths.isEmpty || p.isEmpty then Res.ok paths
        else return paths.filter (p.shouldInclude A))
      (fun top _ => faithful_bind (faithful_mapL (fun x => faithful_leafDirsRF _ _ _) _) (fun ls _ => by
        simp only
        split
        · exact faithful_lift _
        · exact faithful_pure _))
    exact this

theorem faithful_listRelevantRF (A : Arrow) (o : Opts) (depth : Nat) (R : Race) (p : Pruner) :
    Faithful (listRelevantRF A o depth R p) (listRelevantR A o depth R p) := by
  refine faithful_bind (faithful_lift _) (fun b _ => ?_)
  split
  · exact faithful_bind (faithful_listFileGroups o _ []) (fun _ _ => faithful_pure _)
  · refine faithful_bind (faithful_relevantPartitionsRF A o depth R p) (fun paths _ => faithful_bind (faithful_lift _)
      (fun par _ => ?_))
    split
    · exact faithful_lift _
    · exact faithful_bind (faithful_mapL (fun x => faithful_bind (faithful_listFileGroups o _ x)
        (fun _ _ => faithful_pure _)) _) (fun _ _ => faithful_pure _)

/-- The group after its metadata is loaded, and its slice; see `collectGroup`. -/
def collectGroupR (R : Race) (ts : Str) (excl : List FileGroup) (g : FileGroup) : Res (FileGroup × Option FileSlice) :=
  if fgContains excl g then .ok (g, none)
  else
    match mapLastLe ts g.slices with
    | none => .ok (g, none)
    | some (k, s) => do
      let s' ← s.loadMetadata (R.sizes s.basePath)
      return ({ g with slices := mapInsert k s' g.slices }, some s')

theorem faithful_collectGroupRF (R : Race) (ts : Str) (excl : List FileGroup) (g : FileGroup) :
    Faithful (collectGroupRF R ts excl g) (collectGroupR R ts excl g) := by
  unfold collectGroupRF collectGroupR
  split
  · exact faithful_lift _
  · cases mapLastLe ts g.slices with
    | none => exact faithful_lift _
    | some e => exact faithful_bind (faithful_loadMetadata _ _) (fun _ _ => faithful_pure _)

theorem pickGroupR_eq (R : Race) (ts : Str) (excl : List FileGroup) (g : FileGroup) :
    pickGroupR R ts excl g = (do return (← collectGroupR R ts excl g).2.toList) := by
  unfold pickGroupR collectGroupR
  split
  · rfl
  · cases mapLastLe ts g.slices with
    | none => rfl
    | some e =>
      obtain ⟨k, s⟩ := e
      simp only
      cases s.loadMetadata (R.sizes s.basePath) <;> rfl

/-- The computation has the outcome `r` if none of the requests it makes then fails, and is an error if one of
them does, whatever becomes of its state. -/
def FaithfulO {σ α : Type} (x : Faults → Nat → Nat × σ × Res α) (r : Res α) : Prop := ∀ n, ∃ m, n ≤ m ∧
  (∀ F, NoneFails F n m → (x F n).1 = m ∧ (x F n).2.2 = r) ∧ (∀ F, OneFails F n m → ∃ e, (x F n).2.2 = .err e)

theorem faithfulO_done {σ α : Type} (s : σ) (r : Res α) : FaithfulO (fun _ n => (n, s, r)) r := fun n =>
  ⟨n, Nat.le_refl _, fun _ _ => ⟨rfl, rfl⟩, fun _ h => absurd h not_noisy_self⟩

theorem faithful_collectGroupsRF (R : Race) (ts : Str) (excl gs : List FileGroup) :
    FaithfulO (collectGroupsRF R ts excl gs) (do return (← Res.mapL (pickGroupR R ts excl) gs).flatten) := by
  induction gs with
  | nil => exact fun n => ⟨n, Nat.le_refl _, fun _ _ => ⟨rfl, rfl⟩, fun _ h => absurd h not_noisy_self⟩
  | cons g gs ih =>
    intro n
    obtain ⟨m, h1, h2, h3⟩ := faithful_collectGroupRF R ts excl g n
    have hfail : ∀ F, OneFails F n m → ∃ e, (collectGroupsRF R ts excl (g :: gs) F n).2.2 = .err e := by
      intro F q
      obtain ⟨n', e, he⟩ := h3 F q
      exact ⟨e, by simp only [collectGroupsRF, he]⟩
    have hpick := pickGroupR_eq R ts excl g
    cases hr : collectGroupR R ts excl g with
    | ok a =>
      obtain ⟨g', s⟩ := a
      rw [hr] at h2 hpick
      obtain ⟨k, k1, k2, k3⟩ := ih m
      refine ⟨k, by omega, fun F hq => ?_, fun F hq => ?_⟩
      · obtain ⟨q1, q2⟩ := quiet_split hq h1 k1
        obtain ⟨e1, e2⟩ := k2 F q2
        simp only [collectGroupsRF, h2 F q1, e1, e2, Res.mapL, hpick, true_and]
        cases Res.mapL (pickGroupR R ts excl) gs <;> rfl
      · rcases noisy_split hq h1 with q | ⟨q1, q2⟩
        · exact hfail F q
        · obtain ⟨e, he⟩ := k3 F q2
          exact ⟨e, by simp only [collectGroupsRF, h2 F q1, he, Res.err_bind]⟩
    | err e =>
      rw [hr] at h2 hpick
      exact ⟨m, h1, fun F hq => by simp only [collectGroupsRF, h2 F hq, Res.mapL, hpick, true_and]; rfl, hfail⟩
    | panic =>
      rw [hr] at h2 hpick
      exact ⟨m, h1, fun F hq => by simp only [collectGroupsRF, h2 F hq, Res.mapL, hpick, true_and]; rfl, hfail⟩

theorem mapL_append_bind {α β : Type} (f : α → Res (List β)) (a b : List α) :
    (do return (← Res.mapL f (a ++ b)).flatten) =
      (do let x ← (do return (← Res.mapL f a).flatten); return x ++ (← (do return (← Res.mapL f b).flatten))) := by
  induction a with
  | nil => simp only [List.nil_append, Res.mapL]; cases Res.mapL f b <;> rfl
  | cons x a ih =>
    simp only [List.cons_append, Res.mapL]
    cases f x with
    | ok y =>
      simp only [Res.ok_bind]
      cases h1 : Res.mapL f (a ++ b) <;> cases h2 : Res.mapL f a <;> cases h3 : Res.mapL f b <;>
        rw [h1, h2, h3] at ih <;>
        simp_all [Res.pure_eq, Res.ok_bind, Res.err_bind, Res.panic_bind, List.append_assoc]
    | err e => rfl
    | panic => rfl

theorem faithful_collectSlicesRF (A : Arrow) (R : Race) (ts : Str) (p : Pruner) (excl : List FileGroup) (c : Cache) :
    FaithfulO (fun F n => collectSlicesRF A R ts p excl F n c)
      (do return (← Res.mapL (pickGroupR R ts excl) (included A p c)).flatten) := by
  induction c with
  | nil => exact fun n => ⟨n, Nat.le_refl _, fun _ _ => ⟨rfl, rfl⟩, fun _ h => absurd h not_noisy_self⟩
  | cons e rest ih =>
    obtain ⟨path, gs⟩ := e
    intro n
    by_cases hi : p.shouldInclude A path = false
    · obtain ⟨m, h1, h2, h3⟩ := ih n
      have hinc : included A p ((path, gs) :: rest) = included A p rest := by
        unfold included; rw [List.filter_cons_of_neg (by simp [hi])]
      rw [hinc]
      refine ⟨m, h1, fun F hq => ?_, fun F hq => ?_⟩
      · have := h2 F hq
        simp only at this
        simpa only [collectSlicesRF, hi, if_true] using this
      · obtain ⟨e, he⟩ := h3 F hq
        simp only at he
        exact ⟨e, by simp only [collectSlicesRF, hi, if_true, he]⟩
    have hi : p.shouldInclude A path = true := by simpa using hi
    have hinc : included A p ((path, gs) :: rest) = gs ++ included A p rest := by
      unfold included; rw [List.filter_cons_of_pos (by simp [hi])]; rfl
    rw [hinc, mapL_append_bind]
    obtain ⟨m, h1, h2, h3⟩ := faithful_collectGroupsRF R ts excl gs n
    have hfail : ∀ F, OneFails F n m → ∃ e, (collectSlicesRF A R ts p excl F n ((path, gs) :: rest)).2.2 = .err e := by
      intro F q
      obtain ⟨e, he⟩ := h3 F q
      exact ⟨e, by simp only [collectSlicesRF, hi, he, if_false, reduceCtorEq]⟩
    generalize (do return (← Res.mapL (pickGroupR R ts excl) gs).flatten : Res (List FileSlice)) = r at h2 ⊢
    cases r with
    | ok l =>
      obtain ⟨k, k1, k2, k3⟩ := ih m
      refine ⟨k, by omega, fun F hq => ?_, fun F hq => ?_⟩
      · obtain ⟨q1, q2⟩ := quiet_split hq h1 k1
        obtain ⟨e1, e2⟩ := h2 F q1
        obtain ⟨e3, e4⟩ := k2 F q2
        simp only at e3 e4
        simp only [collectSlicesRF, hi, e1, e2, e3, e4, if_false, reduceCtorEq, true_and]
        rfl
      · rcases noisy_split hq h1 with q | ⟨q1, q2⟩
        · exact hfail F q
        · obtain ⟨e1, e2⟩ := h2 F q1
          obtain ⟨e, he⟩ := k3 F q2
          simp only at he
          exact ⟨e, by simp only [collectSlicesRF, hi, e1, e2, he, Res.err_bind, if_false, reduceCtorEq]⟩
    | err e =>
      refine ⟨m, h1, fun F hq => ?_, hfail⟩
      obtain ⟨e1, e2⟩ := h2 F hq
      simp only [collectSlicesRF, hi, e1, e2, if_false, reduceCtorEq, true_and]
      rfl
    | panic =>
      refine ⟨m, h1, fun F hq => ?_, hfail⟩
      obtain ⟨e1, e2⟩ := h2 F hq
      simp only [collectSlicesRF, hi, e1, e2, if_false, reduceCtorEq, true_and]
      rfl

/-- What `viewSlicesAsOfRF` returns through a handle with the cache `c` when no request fails. -/
def viewSlicesAsOfRC (A : Arrow) (o : Opts) (depth : Nat) (R : Race) (ts : Str) (p : Pruner)
    (excl : List FileGroup) (c : Cache) : Res (List FileSlice) := do
  let m ← listRelevantR A o depth R p
  return (← Res.mapL (pickGroupR R ts excl) (included A p (hmExtend c m))).flatten

theorem faithful_viewRF (A : Arrow) (o : Opts) (depth : Nat) (R : Race) (ts : Str) (p : Pruner) (excl : List FileGroup)
    (c : Cache) : FaithfulO (fun F n => viewSlicesAsOfRF A o depth R ts p excl F n c)
      (viewSlicesAsOfRC A o depth R ts p excl c) := by
  intro n
  obtain ⟨m, h1, h2, h3⟩ := faithful_listRelevantRF A o depth R p n
  have hfail : ∀ F, OneFails F n m → ∃ e, (viewSlicesAsOfRF A o depth R ts p excl F n c).2.2 = .err e := by
    intro F hq
    obtain ⟨n', e, he⟩ := h3 F hq
    exact ⟨e, by simp only [viewSlicesAsOfRF, he]⟩
  unfold viewSlicesAsOfRC
  cases hr : listRelevantR A o depth R p with
  | ok l =>
    rw [hr] at h2
    obtain ⟨k, k1, k2, k3⟩ := faithful_collectSlicesRF A R ts p excl (hmExtend c l) m
    refine ⟨k, by omega, fun F hq => ?_, fun F hq => ?_⟩
    · obtain ⟨q1, q2⟩ := quiet_split hq h1 k1
      have e2 := k2 F q2
      simp only at e2
      simpa only [viewSlicesAsOfRF, h2 F q1, Res.ok_bind] using e2
    · rcases noisy_split hq h1 with q | ⟨q1, q2⟩
      · exact hfail F q
      · obtain ⟨e, he⟩ := k3 F q2
        simp only at he
        exact ⟨e, by simp only [viewSlicesAsOfRF, h2 F q1, he]⟩
  | err e =>
    rw [hr] at h2
    exact ⟨m, h1, fun F hq => by simp only [viewSlicesAsOfRF, h2 F hq, Res.err_bind, true_and], hfail⟩
  | panic =>
    rw [hr] at h2
    exact ⟨m, h1, fun F hq => by simp only [viewSlicesAsOfRF, h2 F hq, Res.panic_bind, true_and], hfail⟩

theorem faithfulO_after {α β : Type} {x : Io α} {r : Res α} {f : α → IoQuery β} {g : α → Res β} {c : Cache}
    (hx : Faithful x r) (hf : ∀ a, FaithfulO (fun F n => f a F n c) (g a)) :
    FaithfulO (fun F n => (IoQuery.lift x >>= f) F n c) (r >>= g) := by
  intro n
  obtain ⟨m, h1, h2, h3⟩ := hx n
  have key : ∀ F, (IoQuery.lift x >>= f) F n c = IoQuery.bind (IoQuery.lift x) f F n c := fun _ => rfl
  simp only [key]
  have hfail : ∀ F, OneFails F n m → ∃ e, (IoQuery.bind (IoQuery.lift x) f F n c).2.2 = .err e := by
    intro F hq
    obtain ⟨n', e, he⟩ := h3 F hq
    exact ⟨e, by simp only [IoQuery.bind, IoQuery.lift, he]⟩
  cases r with
  | ok a =>
    obtain ⟨k, k1, k2, k3⟩ := hf a m
    refine ⟨k, by omega, fun F hq => ?_, fun F hq => ?_⟩
    · obtain ⟨q1, q2⟩ := quiet_split hq h1 k1
      have e2 := k2 F q2
      simp only at e2
      simpa only [IoQuery.bind, IoQuery.lift, h2 F q1, Res.ok_bind] using e2
    · rcases noisy_split hq h1 with q | ⟨q1, q2⟩
      · exact hfail F q
      · obtain ⟨e, he⟩ := k3 F q2
        simp only at he
        exact ⟨e, by simp only [IoQuery.bind, IoQuery.lift, h2 F q1, he]⟩
  | err e => exact ⟨m, h1, fun F hq => by simp only [IoQuery.bind, IoQuery.lift, h2 F hq, Res.err_bind, true_and], hfail⟩
  | panic => exact ⟨m, h1, fun F hq => by simp only [IoQuery.bind, IoQuery.lift, h2 F hq, Res.panic_bind, true_and], hfail⟩

theorem faithfulO_then {α β : Type} {x : IoQuery α} {r : Res α} {f : α → Io β} {g : α → Res β} {c : Cache}
    (hx : FaithfulO (fun F n => x F n c) r) (hf : ∀ a, Faithful (f a) (g a)) :
    FaithfulO (fun F n => (x >>= fun a => IoQuery.lift (f a)) F n c) (r >>= g) := by
  intro n
  obtain ⟨m, h1, h2, h3⟩ := hx n
  simp only at h2 h3
  have key : ∀ F, (x >>= fun a => IoQuery.lift (f a)) F n c = IoQuery.bind x (fun a => IoQuery.lift (f a)) F n c :=
    fun _ => rfl
  simp only [key]
  have hb : ∀ F, (∀ a, (x F n c).2.2 = .ok a → (IoQuery.bind x (fun a => IoQuery.lift (f a)) F n c).1 = (f a F (x F n c).1).1 ∧
        (IoQuery.bind x (fun a => IoQuery.lift (f a)) F n c).2.2 = (f a F (x F n c).1).2) ∧
      (∀ e, (x F n c).2.2 = .err e → (IoQuery.bind x (fun a => IoQuery.lift (f a)) F n c).1 = (x F n c).1 ∧
        (IoQuery.bind x (fun a => IoQuery.lift (f a)) F n c).2.2 = .err e) ∧
      ((x F n c).2.2 = .panic → (IoQuery.bind x (fun a => IoQuery.lift (f a)) F n c).1 = (x F n c).1 ∧
        (IoQuery.bind x (fun a => IoQuery.lift (f a)) F n c).2.2 = .panic) := by
    intro F
    unfold IoQuery.bind
    obtain ⟨n1, c1, r1⟩ := x F n c
    refine ⟨fun a ha => ?_, fun e he => ?_, fun hp => ?_⟩ <;> simp only at * <;> subst_vars <;> exact ⟨rfl, rfl⟩
  have hfail : ∀ F, OneFails F n m → ∃ e, (IoQuery.bind x (fun a => IoQuery.lift (f a)) F n c).2.2 = .err e := by
    intro F hq
    obtain ⟨e, he⟩ := h3 F hq
    exact ⟨e, ((hb F).2.1 e he).2⟩
  cases r with
  | ok a =>
    obtain ⟨k, k1, k2, k3⟩ := hf a m
    refine ⟨k, by omega, fun F hq => ?_, fun F hq => ?_⟩
    · obtain ⟨q1, q2⟩ := quiet_split hq h1 k1
      obtain ⟨e1, e2⟩ := h2 F q1
      obtain ⟨b1, b2⟩ := (hb F).1 a e2
      rw [b1, b2, e1, k2 F q2]
      exact ⟨rfl, rfl⟩
    · rcases noisy_split hq h1 with q | ⟨q1, q2⟩
      · exact hfail F q
      · obtain ⟨e1, e2⟩ := h2 F q1
        obtain ⟨b1, b2⟩ := (hb F).1 a e2
        obtain ⟨n', e, he⟩ := k3 F q2
        exact ⟨e, by rw [b2, e1, he]⟩
  | err e =>
    refine ⟨m, h1, fun F hq => ?_, hfail⟩
    obtain ⟨e1, e2⟩ := h2 F hq
    obtain ⟨b1, b2⟩ := (hb F).2.1 e e2
    exact ⟨b1.trans e1, b2⟩
  | panic =>
    refine ⟨m, h1, fun F hq => ?_, hfail⟩
    obtain ⟨e1, e2⟩ := h2 F hq
    obtain ⟨b1, b2⟩ := (hb F).2.2 e2
    exact ⟨b1.trans e1, b2⟩

/-- What `Table.fileSlicesInternalRF` returns through a handle with the cache `c` when no request fails. -/
def Table.fileSlicesInternalRC (E : Env) (A : Arrow) (tb : Table) (depth : Nat) (R : Race) (ts : Str)
    (filters : List Filter) (c : Cache) : Res (List FileSlice) := do
  let excl ← tb.timeline.replacedAsOfR E R ts
  let schema ← tb.partitionSchemaR R
  let pruner ← Pruner.new A filters schema tb.opts
  viewSlicesAsOfRC A tb.opts depth R ts pruner excl c

theorem faithful_internalRF (E : Env) (A : Arrow) (tb : Table) (depth : Nat) (R : Race) (ts : Str) (fs : List Filter)
    (c : Cache) : FaithfulO (fun F n => tb.fileSlicesInternalRF E A depth R ts fs F n c)
      (tb.fileSlicesInternalRC E A depth R ts fs c) :=
  faithfulO_after (faithful_replacedAsOfRF _ _ _ _) (fun _ => faithfulO_after (faithful_partitionSchemaRF _ _) (fun _ =>
    faithfulO_after (faithful_lift _) (fun _ => faithful_viewRF _ _ _ _ _ _ _ _)))

theorem faithful_readFileSliceRF (C : Codec) (A : Arrow) (M : MergeEnv A) (ltz : LocalTz) (o : Opts) (R : Race)
    (s : FileSlice) : Faithful (readFileSliceRF C A M ltz o R s) (readFileSliceR C A M ltz o R s) := by
  unfold readFileSliceRF readFileSliceR
  split
  · exact faithful_request _ _
  · have := faithful_bind (faithful_lift (do (← Cfg.useReadOptimizedMode.getOrDefault o).toBool))
      (f := fun b => if b then readBaseFileRF A o R s.basePath else readMergedRF C A M ltz o R s)
      (g := fun b => if b then readBaseFileR A o R s.basePath else readMergedR C A M ltz o R s)
      (fun b _ => by
        cases b with
        | true => exact faithful_request _ _
        | false => exact faithful_bind (faithful_request _ _) (fun _ _ => faithful_bind (faithful_lift _)
            (fun _ _ => faithful_bind (faithful_bind (faithful_mapL (fun _ => faithful_request _ _) _) (fun files _ =>
              faithful_lift (Res.mapL (survivingBatches (files.flatMap Prod.snd)) (files.flatMap Prod.fst) >>=
                fun kept => Res.ok (kept.filterMap id)))) (fun _ _ => faithful_lift _))))
    have e : ∀ {α β γ : Type} (x : Res α) (f : α → Res β) (g : β → Res γ),
        ((x >>= f) >>= g) = (x >>= fun a => f a >>= g) := by
      intro α β γ x f g; cases x <;> rfl
    rw [e] at this
    exact this

/-- What `Table.readSnapshotInternalRF` returns through a handle with the cache `c` when no request fails. -/
def Table.readSnapshotInternalRC (E : Env) (A : Arrow) (C : Codec) (M : MergeEnv A) (tb : Table) (depth : Nat)
    (R : Race) (ts : Str) (filters : List Filter) (c : Cache) : Res (List Batch) := do
  let ss ← tb.fileSlicesInternalRC E A depth R ts filters c
  Res.mapL (readFileSliceR C A M E.ltz (tb.readerOpts [(Cfg.fileGroupEndTimestamp.key, ts)]) R) ss

/-- What `Table.readSnapshotAsOfRF` returns through a handle with the cache `c` when no request fails. -/
def Table.readSnapshotAsOfRC (E : Env) (A : Arrow) (C : Codec) (M : MergeEnv A) (tb : Table) (depth : Nat)
    (R : Race) (ts : Str) (filters : List (Str × Str × Str)) (c : Cache) : Res (List Batch) := do
  let fs ← fromStrTuples filters
  tb.readSnapshotInternalRC E A C M depth R ts fs c

theorem faithful_snapshotAsOfRF (E : Env) (A : Arrow) (C : Codec) (M : MergeEnv A) (tb : Table) (depth : Nat) (R : Race)
    (ts : Str) (filters : List (Str × Str × Str)) (c : Cache) :
    FaithfulO (fun F n => tb.readSnapshotAsOfRF E A C M depth R ts filters F n c)
      (tb.readSnapshotAsOfRC E A C M depth R ts filters c) :=
  faithfulO_after (faithful_lift _) (fun _ => faithfulO_then (faithful_internalRF _ _ _ _ _ _ _ _)
    (fun _ => faithful_mapL (fun _ => faithful_readFileSliceRF _ _ _ _ _ _ _) _))

theorem faithful_incrementalRF (E : Env) (A : Arrow) (C : Codec) (M : MergeEnv A) (tb : Table) (R : Race)
    (start : Str) (stop : Option Str) :
    Faithful (tb.readIncrementalRF E A C M R start stop) (tb.readIncrementalR E A C M R start stop) := by
  unfold Table.readIncrementalRF Table.readIncrementalR
  cases stop.or tb.timeline.latestTimestamp with
  | none => exact faithful_lift _
  | some stop =>
    exact faithful_bind (faithful_bind (faithful_fileGroupsBetweenRF _ _ _ _ _) (fun _ _ => faithful_pure _))
      (fun _ _ => faithful_mapL (fun _ => faithful_readFileSliceRF _ _ _ _ _ _ _) _)

/-! ## What the cache holds -/

/-- It is the same file group, with slices of no other instants. -/
def Narrowed (g' g : FileGroup) : Prop := g'.fileId = g.fileId ∧ g'.partitionPath = g.partitionPath ∧
  ∀ k ∈ g'.slices.map Prod.fst, k ∈ g.slices.map Prod.fst

theorem Narrowed.refl (g : FileGroup) : Narrowed g g := ⟨rfl, rfl, fun _ hk => hk⟩

theorem collectGroupRF_keys {R : Race} {ts : Str} {excl : List FileGroup} {g g' : FileGroup} {s : Option FileSlice}
    {F : Faults} {n n' : Nat} (h : collectGroupRF R ts excl g F n = (n', .ok (g', s))) :
    Narrowed g' g := by
  have h := (faithful_collectGroupRF R ts excl g).ok h
  unfold collectGroupR at h
  split at h
  · cases h; exact .refl _
  · cases hl : mapLastLe ts g.slices with
    | none => rw [hl] at h; cases h; exact .refl _
    | some e =>
      obtain ⟨k0, s0⟩ := e
      rw [hl] at h
      have hk0 : k0 ∈ g.slices.map Prod.fst := by
        unfold mapLastLe at hl
        exact List.mem_map.2 ⟨_, (List.mem_filter.1 (List.mem_of_getLast? hl)).1, rfl⟩
      obtain ⟨s', _, h⟩ := Res.bind_eq_ok.1 h
      cases h
      refine ⟨rfl, rfl, fun k hk => ?_⟩
      obtain ⟨e, he, rfl⟩ := List.mem_map.1 hk
      rcases mapInsert_keys_sub _ _ _ e he with he | he
      · rw [Std.LawfulEqOrd.eq_of_compare he]; exact hk0
      · exact List.mem_map.2 ⟨e, he, rfl⟩

theorem collectGroupsRF_keys (R : Race) (ts : Str) (excl : List FileGroup) (gs : List FileGroup) (F : Faults) (n : Nat) :
    ∀ g' ∈ (collectGroupsRF R ts excl gs F n).2.1, ∃ g ∈ gs, Narrowed g' g := by
  induction gs generalizing n with
  | nil => intro g' hg; cases hg
  | cons g gs ih =>
    unfold collectGroupsRF
    split
    · rename_i n' g1 s hg1
      intro g' hg'
      rcases List.mem_cons.1 hg' with rfl | hg'
      · exact ⟨g, by simp, collectGroupRF_keys hg1⟩
      · obtain ⟨g2, h2, h3⟩ := ih n' g' hg'
        exact ⟨g2, by simp [h2], h3⟩
    · exact fun g' hg' => ⟨g', hg', .refl _⟩
    · exact fun g' hg' => ⟨g', hg', .refl _⟩

theorem collectSlicesRF_entries (A : Arrow) (R : Race) (ts : Str) (p : Pruner) (excl : List FileGroup) (F : Faults)
    (n : Nat) (c : Cache) : ∀ x gs', (x, gs') ∈ (collectSlicesRF A R ts p excl F n c).2.1 → ∃ gs, (x, gs) ∈ c ∧
      ∀ g' ∈ gs', ∃ g ∈ gs, Narrowed g' g := by
  induction c generalizing n with
  | nil => intro x gs' h; cases h
  | cons e rest ih =>
    obtain ⟨path, gs⟩ := e
    have hsame : ∀ x gs', (x, gs') ∈ rest → ∃ gs1, (x, gs1) ∈ (path, gs) :: rest ∧
        ∀ g' ∈ gs', ∃ g ∈ gs1, Narrowed g' g :=
      fun x gs' h => ⟨gs', by simp [h], fun g' hg' => ⟨g', hg', .refl _⟩⟩
    have hlater : ∀ n x gs', (x, gs') ∈ (collectSlicesRF A R ts p excl F n rest).2.1 → ∃ gs1, (x, gs1) ∈ (path, gs) :: rest ∧
        ∀ g' ∈ gs', ∃ g ∈ gs1, Narrowed g' g := by
      intro n x gs' h
      obtain ⟨gs1, h1, h2⟩ := ih n x gs' h
      exact ⟨gs1, by simp [h1], h2⟩
    unfold collectSlicesRF
    split
    · intro x gs' h
      rcases List.mem_cons.1 h with h | h
      · cases h
        exact ⟨gs, by simp, fun g' hg' => ⟨g', hg', .refl _⟩⟩
      · exact hlater _ x gs' h
    · simp only
      split
      all_goals
        intro x gs' h
        rcases List.mem_cons.1 h with h | h
        · cases h
          exact ⟨gs, by simp, collectGroupsRF_keys R ts excl gs F n⟩
        · first
          | exact hlater _ x gs' h
          | exact hsame x gs' h

theorem collectSlicesRF_keys (A : Arrow) (R : Race) (ts : Str) (p : Pruner) (excl : List FileGroup) (F : Faults)
    (n : Nat) (c : Cache) : (collectSlicesRF A R ts p excl F n c).2.1.map Prod.fst = c.map Prod.fst := by
  induction c generalizing n with
  | nil => rfl
  | cons e rest ih =>
    obtain ⟨path, gs⟩ := e
    unfold collectSlicesRF
    split
    · simp only [List.map_cons, ih]
    · simp only
      split <;> simp only [List.map_cons, ih]

/-- The cache holds no partition twice, and every cached slice is that of a base file which was at one of the moments
where a partition can be. -/
def SourcedBy (o : Opts) (P : Tree → Prop) (c : Cache) : Prop := HmNodup c ∧
  ∀ x gs, (x, gs) ∈ c → ∀ g ∈ gs, ∀ k ∈ g.slices.map Prod.fst,
    PartitionPath o x ∧ ∃ u, P u ∧ ∃ b, BaseIn (filesOf u x) b ∧ b.commitTimestamp = k

theorem sourcedBy_nil {o : Opts} {P : Tree → Prop} : SourcedBy o P [] := ⟨.nil, fun _ _ h => nomatch h⟩

theorem sourcedBy_view {A : Arrow} {o : Opts} {depth : Nat} {R : Race} {P : Tree → Prop} {t : Tree}
    (hP : ∀ u, P u → TreeWF u) (hR : AllSeen P R) (hpart : ∀ x, PartitionOf o t x → ∀ y, PartitionOf o (R.dirs y) x)
    (ts : Str) (p : Pruner) (excl : List FileGroup) :
    KeepsCache (SourcedBy o P) (viewSlicesAsOfRF A o depth R ts p excl) := by
  intro F n c hc
  unfold viewSlicesAsOfRF
  split
  · rename_i n' m hm
    have hm := (faithful_listRelevantRF A o depth R p).ok hm
    obtain ⟨hn, Found, _, hpath, h1, _⟩ := listRelevantR_ok (fun x => hP _ (hR.dirs x)) hpart hm
    refine ⟨?_, fun x gs' hx g' hg' k hk => ?_⟩
    · unfold HmNodup
      rw [collectSlicesRF_keys]
      exact hmExtend_nodup hc.1
    obtain ⟨gs, hgs, hkeys⟩ := collectSlicesRF_entries A R ts p excl F n' _ x gs' hx
    obtain ⟨g, hg, hsub⟩ := hkeys g' hg'
    have hk := hsub.2.2 k hk
    rcases hmExtend_mem hgs with hgs | hgs
    · obtain ⟨hf, _, hlist⟩ := (h1 x gs).1 ((hmGet_eq_some hn).2 hgs)
      obtain ⟨_, hspec, _⟩ := listFileGroups_spec ((hP _ (hR.files x)).at (pathSegs x)).files_nodup hlist
      obtain ⟨_, hsorted, hsl⟩ := hspec g hg
      obtain ⟨e, he, rfl⟩ := List.mem_map.1 hk
      obtain ⟨b, hb, _, hts, _⟩ := (hsl e.1 e.2).1 ((mapGet_eq_some hsorted).2 he)
      exact ⟨hpath x hf, _, hR.files x, b, hb, hts⟩
    · exact hc.2 x gs hgs g hg k hk
  · exact hc
  · exact hc

/-- What every load of the cache keeps, every call keeps. -/
theorem race_keeps {E : Env} {A : Arrow} {C : Codec} {M : MergeEnv A} {tb : Table} {depth : Nat} {R : Race}
    {P : Cache → Prop} (hv : ∀ ts p excl, KeepsCache P (viewSlicesAsOfRF A tb.opts depth R ts p excl))
    (call : TableCall) (F : Faults) (c : Cache) (hc : P c) : P (call.race E A C M tb depth R F c).2.1 := by
  have hint : ∀ ts fs, KeepsCache P (tb.fileSlicesInternalRF E A depth R ts fs) := fun ts fs =>
    keeps_bind (keeps_lift _) (fun _ => keeps_bind (keeps_lift _) (fun _ => keeps_bind (keeps_lift _) (fun _ => hv _ _ _)))
  have hs : ∀ {α : Type} (g : List Filter → IoQuery α) (fs : List (Str × Str × Str)),
      (∀ l, KeepsCache P (g l)) → KeepsCache P (IoQuery.lift (Io.lift (fromStrTuples fs)) >>= g) :=
    fun g fs h => keeps_bind (keeps_lift _) h
  cases call with
  | slices fs => exact keeps_latest _ [] (fun ts => hs _ fs (fun l => hint ts l)) F 0 c hc
  | slicesAsOf ts fs => exact hs _ fs (fun l => hint ts l) F 0 c hc
  | splits k fs =>
    exact keeps_latest _ [] (fun ts => hs (tb.fileSlicesSplitsInternalRF E A depth R k ts) fs
      (fun l => keeps_bind (hint ts l) (fun _ => keeps_lift _))) F 0 c hc
  | splitsAsOf k ts fs =>
    exact hs (tb.fileSlicesSplitsInternalRF E A depth R k ts) fs
      (fun l => keeps_bind (hint ts l) (fun _ => keeps_lift _)) F 0 c hc
  | slicesBetween start stop => exact hc
  | snapshot fs =>
    exact keeps_latest _ [] (fun ts => hs (tb.readSnapshotInternalRF E A C M depth R ts) fs
      (fun l => keeps_bind (hint ts l) (fun _ => keeps_lift _))) F 0 c hc
  | snapshotAsOf ts fs =>
    exact hs (tb.readSnapshotInternalRF E A C M depth R ts) fs
      (fun l => keeps_bind (hint ts l) (fun _ => keeps_lift _)) F 0 c hc
  | incremental start stop => exact hc
  | schema => exact hc
  | partitionSchema => exact hc
  | avroSchema => exact hc
  | readSlice options s => exact hc

/-! ## What is read does not depend on the cache -/

/-- A cached partition is one of `t`, or has no base file up to `ts`. -/
theorem SourcedBy.noStale {o : Opts} {P : Tree → Prop} {c : Cache} (h : SourcedBy o P c) {t : Tree} {ts : Str}
    (hnew : ∀ u, P u → ∀ x b, PartitionPath o x → BaseIn (filesOf u x) b → (compare b.commitTimestamp ts).isLE →
      PartitionOf o t x) : NoStale o t ts c := by
  intro x gs hx
  by_cases hp : PartitionOf o t x
  · exact .inl hp
  · refine .inr (fun g hg => mapLastLe_eq_none.2 (fun e he => ?_))
    obtain ⟨hpath, u, hu, b, hb, hk⟩ := h.2 x gs hx g hg e.1 (List.mem_map.2 ⟨e, he, rfl⟩)
    cases hc : compare e.1 ts with
    | gt => rfl
    | lt => exact absurd (hnew u hu x b hpath hb (by rw [hk, hc]; rfl)) hp
    | eq => exact absurd (hnew u hu x b hpath hb (by rw [hk, hc]; rfl)) hp

/-- Cached file groups of partitions that are no longer there do no harm, if they have been replaced or no slice of
theirs is up to the time asked for. -/
theorem viewRC_idle {A : Arrow} {o : Opts} {depth : Nat} {R : Race} {ts : Str} {p : Pruner} {excl : List FileGroup}
    {c : Cache} {P : Str → Prop} (hwf : ∀ x, TreeWF (R.dirs x))
    (hpart : ∀ x, P x → ∀ y, PartitionOf o (R.dirs y) x) (hc : HmNodup c)
    (hk : ∀ x gs, (x, gs) ∈ c → P x ∨ ∀ g ∈ gs, fgContains excl g = true ∨ mapLastLe ts g.slices = none)
    {ss : List FileSlice} (h : viewSlicesAsOfR A o depth R ts p excl = .ok ss) :
    ∃ ss', viewSlicesAsOfRC A o depth R ts p excl c = .ok ss' ∧ ss.Perm ss' := by
  obtain ⟨m, r, hm, hr, rfl⟩ := viewSlicesAsOfR_ok h
  obtain ⟨hn, Found, hfound, _, h1, h2⟩ := listRelevantR_found hwf hpart hm
  rw [show hmExtend [] m = m from hmOfList_eq hn] at hr
  obtain ⟨st, hp, hst⟩ := included_others (A := A) (p := p)
    (fun g => fgContains excl g = true ∨ mapLastLe ts g.slices = none) hn hc (fun x gs hx hi =>
    (hk x gs hx).imp_left (fun hp => by
      obtain ⟨gs', hgs'⟩ := h2 x (hfound x hp) (fun _ => hi)
      exact ⟨gs', hmGet_mem ((h1 x gs').2 ⟨hfound x hp, fun _ => hi, hgs'⟩)⟩))
  obtain ⟨b', hb', hf'⟩ := flatten_mapL_nothing (f := pickGroupR R ts excl) (l := st) (by
    intro g hg
    unfold pickGroupR
    rcases hst g hg with e | e
    · rw [if_pos e]
    · rw [e]
      split <;> rfl)
  obtain ⟨r2, hr2, hpr2⟩ := mapL_perm hp.symm (Res.mapL_append_ok.2 ⟨r, b', hr, hb', rfl⟩)
  refine ⟨r2.flatten, ?_, ?_⟩
  · unfold viewSlicesAsOfRC
    rw [hm, Res.ok_bind, hr2]
    rfl
  · have e2 := hpr2.flatten
    rwa [List.flatten_append, hf', List.append_nil] at e2

theorem readSnapshotRC_idle {E : Env} {A : Arrow} {C : Codec} {M : MergeEnv A} {tb : Table} {depth : Nat} {R : Race}
    {ts : Str} {filters : List (Str × Str × Str)} {c : Cache} {P : Str → Prop} (hwf : ∀ x, TreeWF (R.dirs x))
    (hpart : ∀ x, P x → ∀ y, PartitionOf tb.opts (R.dirs y) x) (hc : HmNodup c)
    (hk : ∀ excl, tb.timeline.replacedAsOfR E R ts = .ok excl → ∀ x gs, (x, gs) ∈ c →
      P x ∨ ∀ g ∈ gs, fgContains excl g = true ∨ mapLastLe ts g.slices = none) {outs : List Batch}
    (h : tb.readSnapshotAsOfR E A C M depth R ts filters = .ok outs) :
    ∃ outs', tb.readSnapshotAsOfRC E A C M depth R ts filters c = .ok outs' ∧ outs.Perm outs' := by
  unfold Table.readSnapshotAsOfR at h
  obtain ⟨fs, h1, h⟩ := Res.bind_eq_ok.1 h
  unfold Table.readSnapshotInternalR at h
  obtain ⟨ss, h2, h⟩ := Res.bind_eq_ok.1 h
  unfold Table.fileSlicesInternalR at h2
  obtain ⟨excl, g1, h2⟩ := Res.bind_eq_ok.1 h2
  obtain ⟨schema, g2, h2⟩ := Res.bind_eq_ok.1 h2
  obtain ⟨pruner, g3, h2⟩ := Res.bind_eq_ok.1 h2
  obtain ⟨ss', h3, h4⟩ := viewRC_idle hwf hpart hc (hk excl g1) h2
  obtain ⟨outs', h5, h6⟩ := mapL_perm h4 h
  refine ⟨outs', ?_, h6⟩
  unfold Table.readSnapshotAsOfRC Table.readSnapshotInternalRC Table.fileSlicesInternalRC
  simp only [h1, g1, g2, g3, h3, Res.ok_bind, h5]

theorem readSnapshotRC_harmless {E : Env} {A : Arrow} {C : Codec} {M : MergeEnv A} {tb : Table} {depth : Nat} {R : Race}
    {ts : Str} {filters : List (Str × Str × Str)} {c : Cache} {t : Tree} (hwf : ∀ x, TreeWF (R.dirs x))
    (hpart : ∀ x, PartitionOf tb.opts t x → ∀ y, PartitionOf tb.opts (R.dirs y) x) (hc : HmNodup c)
    (hk : NoStale tb.opts t ts c) {outs : List Batch}
    (h : tb.readSnapshotAsOfR E A C M depth R ts filters = .ok outs) :
    ∃ outs', tb.readSnapshotAsOfRC E A C M depth R ts filters c = .ok outs' ∧ outs.Perm outs' :=
  readSnapshotRC_idle hwf hpart hc (fun _ _ x gs hx => (hk x gs hx).imp_right (fun h g hg => .inr (h g hg))) h

end Hudi
