import Verif.Spec.Faults
import Verif.Lemmas.Snapshot

/-! # Lemmas: requests that fail -/

namespace Hudi
open Spec

/-- No request from number `n` to before number `m` fails. -/
def NoneFails (F : Faults) (n m : Nat) : Prop := ∀ k, n ≤ k → k < m → F k = false

/-- Some request from number `n` to before number `m` fails. -/
def OneFails (F : Faults) (n m : Nat) : Prop := ∃ k, n ≤ k ∧ k < m ∧ F k = true

theorem noisy_split {F : Faults} {n m k : Nat} (h : OneFails F n k) (_hm : n ≤ m) :
    OneFails F n m ∨ (NoneFails F n m ∧ OneFails F m k) := by
  by_cases hq : OneFails F n m
  · exact .inl hq
  · right
    have q : NoneFails F n m := by
      intro j h1 h2
      cases hf : F j with
      | false => rfl
      | true => exact absurd ⟨j, h1, h2, hf⟩ hq
    refine ⟨q, ?_⟩
    obtain ⟨j, h1, h2, h3⟩ := h
    refine ⟨j, ?_, h2, h3⟩
    by_cases hj : m ≤ j
    · exact hj
    · rw [q j h1 (by omega)] at h3; cases h3

theorem quiet_split {F : Faults} {n m k : Nat} (h : NoneFails F n k) (h1 : n ≤ m) (h2 : m ≤ k) :
    NoneFails F n m ∧ NoneFails F m k :=
  ⟨fun j a b => h j a (by omega), fun j a b => h j (by omega) b⟩

/-- The computation has the outcome `r` if none of the requests it makes then fails, and is an error if one of
them does. -/
def Faithful {α : Type} (x : Io α) (r : Res α) : Prop := ∀ n, ∃ m, n ≤ m ∧
  (∀ F, NoneFails F n m → x F n = (m, r)) ∧ (∀ F, OneFails F n m → ∃ n' e, x F n = (n', .err e))

theorem not_noisy_self {F : Faults} {n : Nat} : ¬ OneFails F n n := by
  rintro ⟨k, h1, h2, _⟩; omega

theorem faithful_lift {α : Type} (r : Res α) : Faithful (Io.lift r) r := fun n =>
  ⟨n, Nat.le_refl _, fun _ _ => rfl, fun _ h => absurd h not_noisy_self⟩

theorem faithful_pure {α : Type} (a : α) : Faithful (pure a : Io α) (.ok a) := faithful_lift _

theorem faithful_request {α : Type} (e : ErrKind) (r : Res α) : Faithful (Io.request e r) r := fun n =>
  ⟨n + 1, by omega, fun F h => by unfold Io.request; rw [h n (by omega) (by omega)]; rfl,
    fun F h => by
      obtain ⟨k, h1, h2, h3⟩ := h
      have : k = n := by omega
      subst this
      refine ⟨k + 1, e, ?_⟩
      unfold Io.request
      rw [h3]; rfl⟩

theorem faithful_bind {α β : Type} {x : Io α} {r : Res α} {f : α → Io β} {g : α → Res β} (hx : Faithful x r)
    (hf : ∀ a, r = .ok a → Faithful (f a) (g a)) : Faithful (x >>= f) (r >>= g) := by
  intro n
  obtain ⟨m, h1, h2, h3⟩ := hx n
  have key : ∀ F, (x >>= f) F n = Io.bind x f F n := fun _ => rfl
  cases r with
  | ok a =>
    obtain ⟨k, k1, k2, k3⟩ := hf a rfl m
    refine ⟨k, by omega, fun F hq => ?_, fun F hq => ?_⟩
    · obtain ⟨q1, q2⟩ := quiet_split hq h1 k1
      rw [key]; unfold Io.bind; rw [h2 F q1]
      exact k2 F q2
    · rw [key]; unfold Io.bind
      rcases noisy_split hq h1 with q | ⟨q1, q2⟩
      · obtain ⟨n', e, he⟩ := h3 F q
        rw [he]; exact ⟨n', e, rfl⟩
      · rw [h2 F q1]; exact k3 F q2
  | err e =>
    refine ⟨m, h1, fun F hq => ?_, fun F hq => ?_⟩
    · rw [key]; unfold Io.bind; rw [h2 F hq]; rfl
    · rw [key]; unfold Io.bind
      obtain ⟨n', e, he⟩ := h3 F hq
      rw [he]; exact ⟨n', e, rfl⟩
  | panic =>
    refine ⟨m, h1, fun F hq => ?_, fun F hq => ?_⟩
    · rw [key]; unfold Io.bind; rw [h2 F hq]; rfl
    · rw [key]; unfold Io.bind
      obtain ⟨n', e, he⟩ := h3 F hq
      rw [he]; exact ⟨n', e, rfl⟩

theorem faithful_mapL {α β : Type} {f : α → Io β} {g : α → Res β} (h : ∀ a, Faithful (f a) (g a)) (l : List α) :
    Faithful (Io.mapL f l) (Res.mapL g l) := by
  induction l with
  | nil => exact faithful_lift _
  | cons x xs ih =>
    exact faithful_bind (h x) (fun y _ => faithful_bind ih (fun ys _ => faithful_pure _))

theorem faithful_foldL {α β : Type} {f : β → α → Io β} {g : β → α → Res β} (h : ∀ b a, Faithful (f b a) (g b a))
    (b : β) (l : List α) : Faithful (Io.foldL f b l) (Res.foldL g b l) := by
  induction l generalizing b with
  | nil => exact faithful_lift _
  | cons x xs ih => exact faithful_bind (h b x) (fun b' _ => ih b')

/-! ## Timeline -/

theorem faithful_latestMetadata (tl : Timeline) (t : Tree) : Faithful (tl.latestMetadataF t) (tl.latestMetadata t) := by
  unfold Timeline.latestMetadataF Timeline.latestMetadata
  cases tl.completed.getLast? with
  | some i => exact faithful_request _ _
  | none => exact faithful_lift _

theorem faithful_avroSchema (tl : Timeline) (t : Tree) :
    Faithful (tl.latestAvroSchemaF t) (tl.latestAvroSchema t) :=
  faithful_bind (faithful_latestMetadata tl t) (fun _ _ => faithful_lift _)

theorem faithful_schemaOfCommit (t : Tree) (md : List (Str × Json)) :
    Faithful (schemaOfCommitF t md) (schemaOfCommit t md) := by
  refine faithful_bind (faithful_lift _) (fun e _ => ?_)
  obtain ⟨partition, stats⟩ := e
  simp only
  cases ((stats.asArr.bind List.head?).bind (Json.field c!"path")).bind Json.asStr with
  | some path =>
    simp only
    split
    · exact faithful_request _ _
    · exact faithful_bind (faithful_lift _) (fun b _ => faithful_request _ _)
  | none => exact faithful_lift _

theorem faithful_latestSchema (tl : Timeline) (t : Tree) : Faithful (tl.latestSchemaF t) (tl.latestSchema t) :=
  faithful_bind (faithful_latestMetadata tl t) (fun md _ => faithful_schemaOfCommit t md)

theorem faithful_replacedAsOf (E : Env) (tl : Timeline) (t : Tree) (ts : Str) :
    Faithful (tl.replacedAsOfF E t ts) (tl.replacedAsOf E t ts) :=
  faithful_bind (faithful_lift _) (fun _ _ => faithful_foldL (fun _ _ =>
    faithful_bind (faithful_request _ _) (fun _ _ => faithful_bind (faithful_lift _) (fun _ _ => faithful_pure _))) _ _)

theorem faithful_fileGroupsBetween (E : Env) (tl : Timeline) (t : Tree) (start stop : Option Str) :
    Faithful (tl.fileGroupsBetweenF E t start stop) (tl.fileGroupsBetween E t start stop) :=
  faithful_bind (faithful_lift _) (fun _ _ => faithful_bind
    (faithful_foldL (fun _ _ => faithful_request _ _) _ _) (fun _ _ => faithful_pure _))

/-! ## Listing -/

theorem faithful_leafDirs (k : Nat) (t : Tree) (d : Str) : Faithful (leafDirsF k t d) (leafDirs k t d) := by
  induction k generalizing d with
  | zero => exact faithful_lift _
  | succ k ih =>
    have : leafDirs (k + 1) t d = (Res.ok (listDirs t d) >>= fun ds => match ds with
      | [] => Res.ok [d]
      | d' :: ds' => do
        let ls ← Res.mapL (fun x => leafDirs k t (pathPush d x)) (d' :: ds')
        return ls.flatten) := by
      simp only [Res.ok_bind, leafDirs]
      cases listDirs t d <;> rfl
    rw [this]
    refine faithful_bind (faithful_request _ _) (fun ds _ => ?_)
    cases ds with
    | nil => exact faithful_lift _
    | cons a as => exact faithful_bind (faithful_mapL (fun x => ih _) _) (fun _ _ => faithful_pure _)

theorem faithful_relevantPartitions (A : Arrow) (o : Opts) (t : Tree) (p : Pruner) :
    Faithful (relevantPartitionsF A o t p) (relevantPartitions A o t p) := by
  refine faithful_bind (faithful_lift _) (fun b _ => ?_)
  split
  · exact faithful_lift _
  · have := faithful_bind (faithful_request .storage (Res.ok (listDirs t [])))
      (f := fun top => do
        let ls ← Io.mapL (leafDirsF (t.height + 1) t) (top.filter (fun d => !lakeFormatMetadataDirs.contains d))
        let paths := ls.flatten
        if paths.isEmpty || p.isEmpty then Io.lift (.ok paths)
        else return paths.filter (p.shouldInclude A))
      (g := fun top => do
        let ls ← Res.mapL (leafDirs (t.height + 1) t) (top.filter (fun d => !lakeFormatMetadataDirs.contains d))
        let paths := ls.flatten
        if paths.isEmpty || p.isEmpty then Res.ok paths
        else return paths.filter (p.shouldInclude A))
      (fun top _ => faithful_bind (faithful_mapL (fun x => faithful_leafDirs _ _ _) _) (fun ls _ => by
        simp only
        split
        · exact faithful_lift _
        · exact faithful_pure _))
    exact this

theorem faithful_listFileGroups (o : Opts) (t : Tree) (x : Str) :
    Faithful (listFileGroupsF o t x) (listFileGroups o t x) := by
  refine faithful_bind (faithful_lift _) (fun f _ => ?_)
  exact faithful_bind (faithful_request .storage (Res.ok (listFiles t x))) (fun files _ => faithful_lift
    (Res.foldL (listStep f) ⟨[], []⟩ files >>= fun acc => Res.mapL (listGroup x acc.logs) acc.bases))

theorem faithful_listRelevant (A : Arrow) (o : Opts) (t : Tree) (p : Pruner) :
    Faithful (listRelevantF A o t p) (listRelevant A o t p) := by
  refine faithful_bind (faithful_lift _) (fun b _ => ?_)
  split
  · exact faithful_bind (faithful_listFileGroups o t []) (fun _ _ => faithful_pure _)
  · refine faithful_bind (faithful_relevantPartitions A o t p) (fun paths _ => faithful_bind (faithful_lift _)
      (fun par _ => ?_))
    split
    · exact faithful_lift _
    · exact faithful_bind (faithful_mapL (fun x => faithful_bind (faithful_listFileGroups o t x)
        (fun _ _ => faithful_pure _)) _) (fun _ _ => faithful_pure _)

/-! ## File system view -/

theorem faithful_loadMetadata (t : Tree) (s : FileSlice) : Faithful (s.loadMetadataF t) (s.loadMetadata t) := by
  unfold FileSlice.loadMetadataF FileSlice.loadMetadata
  split
  · exact faithful_lift _
  · exact faithful_bind (faithful_request _ _) (fun _ _ => faithful_pure _)

theorem faithful_collectGroup (t : Tree) (ts : Str) (excl : List FileGroup) (g : FileGroup) :
    Faithful (collectGroupF t ts excl g) (collectGroup t ts excl g) := by
  unfold collectGroupF collectGroup
  split
  · exact faithful_lift _
  · cases mapLastLe ts g.slices with
    | none => exact faithful_lift _
    | some e => exact faithful_bind (faithful_loadMetadata _ _) (fun _ _ => faithful_pure _)

/-- `Faithful` for computations that also return a state. -/
def FaithfulS {σ α : Type} (x : Faults → Nat → Nat × σ × Res α) (q : σ × Res α) : Prop := ∀ n, ∃ m, n ≤ m ∧
  (∀ F, NoneFails F n m → x F n = (m, q)) ∧ (∀ F, OneFails F n m → ∃ n' s e, x F n = (n', s, .err e))

theorem faithful_collectGroups (t : Tree) (ts : Str) (excl gs : List FileGroup) :
    FaithfulS (collectGroupsF t ts excl gs) (collectGroups t ts excl gs) := by
  induction gs with
  | nil => exact fun n => ⟨n, Nat.le_refl _, fun _ _ => rfl, fun _ h => absurd h not_noisy_self⟩
  | cons g gs ih =>
    intro n
    obtain ⟨m, h1, h2, h3⟩ := faithful_collectGroup t ts excl g n
    cases hr : collectGroup t ts excl g with
    | ok a =>
      obtain ⟨g', s⟩ := a
      rw [hr] at h2
      obtain ⟨k, k1, k2, k3⟩ := ih m
      refine ⟨k, by omega, fun F hq => ?_, fun F hq => ?_⟩
      · obtain ⟨q1, q2⟩ := quiet_split hq h1 k1
        simp only [collectGroupsF, collectGroups, h2 F q1, k2 F q2, hr]
      · rcases noisy_split hq h1 with q | ⟨q1, q2⟩
        · obtain ⟨n', e, he⟩ := h3 F q
          exact ⟨n', g :: gs, e, by simp only [collectGroupsF, he]⟩
        · obtain ⟨n', s', e, he⟩ := k3 F q2
          exact ⟨n', g' :: s', e, by simp only [collectGroupsF, h2 F q1, he, Res.err_bind]⟩
    | err e =>
      rw [hr] at h2
      refine ⟨m, h1, fun F hq => ?_, fun F hq => ?_⟩
      · simp only [collectGroupsF, collectGroups, h2 F hq, hr]
      · obtain ⟨n', e, he⟩ := h3 F hq
        exact ⟨n', g :: gs, e, by simp only [collectGroupsF, he]⟩
    | panic =>
      rw [hr] at h2
      refine ⟨m, h1, fun F hq => ?_, fun F hq => ?_⟩
      · simp only [collectGroupsF, collectGroups, h2 F hq, hr]
      · obtain ⟨n', e, he⟩ := h3 F hq
        exact ⟨n', g :: gs, e, by simp only [collectGroupsF, he]⟩

theorem faithful_collectSlices (A : Arrow) (t : Tree) (ts : Str) (p : Pruner) (excl : List FileGroup) (c : Cache) :
    FaithfulS (fun F n => collectSlicesF A t ts p excl F n c) (collectSlices A t ts p excl c) := by
  induction c with
  | nil => exact fun n => ⟨n, Nat.le_refl _, fun _ _ => rfl, fun _ h => absurd h not_noisy_self⟩
  | cons e rest ih =>
    obtain ⟨path, gs⟩ := e
    intro n
    by_cases hi : p.shouldInclude A path = false
    · obtain ⟨m, h1, h2, h3⟩ := ih n
      refine ⟨m, h1, fun F hq => ?_, fun F hq => ?_⟩
      · have := h2 F hq
        simp only at this
        simp only [collectSlicesF, collectSlices, hi, if_true, this]
      · obtain ⟨n', s, e, he⟩ := h3 F hq
        simp only at he
        exact ⟨n', (path, gs) :: s, e, by simp only [collectSlicesF, hi, if_true, he]⟩
    have hi : p.shouldInclude A path = true := by simpa using hi
    obtain ⟨m, h1, h2, h3⟩ := faithful_collectGroups t ts excl gs n
    cases hr : collectGroups t ts excl gs with
    | mk gs' r =>
    rw [hr] at h2
    cases r with
    | ok l =>
      obtain ⟨k, k1, k2, k3⟩ := ih m
      refine ⟨k, by omega, fun F hq => ?_, fun F hq => ?_⟩
      · obtain ⟨q1, q2⟩ := quiet_split hq h1 k1
        have := k2 F q2
        simp only at this
        simp only [collectSlicesF, collectSlices, hi, h2 F q1, hr, this, if_false, reduceCtorEq]
      · rcases noisy_split hq h1 with q | ⟨q1, q2⟩
        · obtain ⟨n', s, e, he⟩ := h3 F q
          exact ⟨n', (path, s) :: rest, e, by simp only [collectSlicesF, hi, he, if_false, reduceCtorEq]⟩
        · obtain ⟨n', s', e, he⟩ := k3 F q2
          simp only at he
          exact ⟨n', (path, gs') :: s', e, by
            simp only [collectSlicesF, hi, h2 F q1, he, Res.err_bind, if_false, reduceCtorEq]⟩
    | err e =>
      refine ⟨m, h1, fun F hq => ?_, fun F hq => ?_⟩
      · simp only [collectSlicesF, collectSlices, hi, h2 F hq, hr, if_false, reduceCtorEq]
      · obtain ⟨n', s, e, he⟩ := h3 F hq
        exact ⟨n', (path, s) :: rest, e, by simp only [collectSlicesF, hi, he, if_false, reduceCtorEq]⟩
    | panic =>
      refine ⟨m, h1, fun F hq => ?_, fun F hq => ?_⟩
      · simp only [collectSlicesF, collectSlices, hi, h2 F hq, hr, if_false, reduceCtorEq]
      · obtain ⟨n', s, e, he⟩ := h3 F hq
        exact ⟨n', (path, s) :: rest, e, by simp only [collectSlicesF, hi, he, if_false, reduceCtorEq]⟩

/-- `Faithful` for queries. -/
def FaithfulQ {α : Type} (x : IoQuery α) (q : Query α) : Prop := ∀ c, FaithfulS (fun F n => x F n c) (q c)

theorem faithfulQ_lift {α : Type} {x : Io α} {r : Res α} (h : Faithful x r) :
    FaithfulQ (IoQuery.lift x) (Query.lift r) := by
  intro c n
  obtain ⟨m, h1, h2, h3⟩ := h n
  refine ⟨m, h1, fun F hq => ?_, fun F hq => ?_⟩
  · simp only [IoQuery.lift, Query.lift, h2 F hq]
  · obtain ⟨n', e, he⟩ := h3 F hq
    exact ⟨n', c, e, by simp only [IoQuery.lift, he]⟩

theorem faithfulQ_bind {α β : Type} {x : IoQuery α} {q : Query α} {f : α → IoQuery β} {g : α → Query β}
    (hx : FaithfulQ x q) (hf : ∀ a, FaithfulQ (f a) (g a)) : FaithfulQ (x >>= f) (q >>= g) := by
  intro c n
  obtain ⟨m, h1, h2, h3⟩ := hx c n
  have key : ∀ F, (x >>= f) F n c = IoQuery.bind x f F n c := fun _ => rfl
  have key' : (q >>= g) c = Query.bind q g c := rfl
  simp only [key, key']
  have herr : ∀ F, OneFails F n m → ∃ n' s e, IoQuery.bind x f F n c = (n', s, .err e) := by
    intro F hq
    obtain ⟨n', s, e, he⟩ := h3 F hq
    simp only at he
    exact ⟨n', s, e, by simp only [IoQuery.bind, he]⟩
  cases hr : q c with
  | mk c' r =>
  rw [hr] at h2
  cases r with
  | ok a =>
    obtain ⟨k, k1, k2, k3⟩ := hf a c' m
    refine ⟨k, by omega, fun F hq => ?_, fun F hq => ?_⟩
    · obtain ⟨q1, q2⟩ := quiet_split hq h1 k1
      have e1 := h2 F q1
      have e2 := k2 F q2
      simp only at e1 e2
      simp only [IoQuery.bind, Query.bind, e1, e2, hr]
    · rcases noisy_split hq h1 with q | ⟨q1, q2⟩
      · exact herr F q
      · obtain ⟨n', s', e, he⟩ := k3 F q2
        have e1 := h2 F q1
        simp only at e1 he
        exact ⟨n', s', e, by simp only [IoQuery.bind, e1, he]⟩
  | err e =>
    refine ⟨m, h1, fun F hq => ?_, herr⟩
    have e1 := h2 F hq
    simp only at e1
    simp only [IoQuery.bind, Query.bind, e1, hr]
  | panic =>
    refine ⟨m, h1, fun F hq => ?_, herr⟩
    have e1 := h2 F hq
    simp only at e1
    simp only [IoQuery.bind, Query.bind, e1, hr]

theorem faithful_view (A : Arrow) (o : Opts) (t : Tree) (ts : Str) (p : Pruner) (excl : List FileGroup) :
    FaithfulQ (viewSlicesAsOfF A o t ts p excl) (viewSlicesAsOf A o t ts p excl) := by
  intro c n
  obtain ⟨m, h1, h2, h3⟩ := faithful_listRelevant A o t p n
  have herr : ∀ F, OneFails F n m → ∃ n' s e, viewSlicesAsOfF A o t ts p excl F n c = (n', s, .err e) := by
    intro F hq
    obtain ⟨n', e, he⟩ := h3 F hq
    exact ⟨n', c, e, by simp only [viewSlicesAsOfF, he]⟩
  cases hr : listRelevant A o t p with
  | ok l =>
    rw [hr] at h2
    obtain ⟨k, k1, k2, k3⟩ := faithful_collectSlices A t ts p excl (hmExtend c l) m
    refine ⟨k, by omega, fun F hq => ?_, fun F hq => ?_⟩
    · obtain ⟨q1, q2⟩ := quiet_split hq h1 k1
      have e2 := k2 F q2
      simp only at e2
      simp only [viewSlicesAsOfF, viewSlicesAsOf, loadFileGroups, h2 F q1, hr, Res.ok_bind, Res.pure_eq, e2]
    · rcases noisy_split hq h1 with q | ⟨q1, q2⟩
      · exact herr F q
      · obtain ⟨n', s', e, he⟩ := k3 F q2
        simp only at he
        exact ⟨n', s', e, by simp only [viewSlicesAsOfF, h2 F q1, he]⟩
  | err e =>
    rw [hr] at h2
    refine ⟨m, h1, fun F hq => ?_, herr⟩
    simp only [viewSlicesAsOfF, viewSlicesAsOf, loadFileGroups, h2 F hq, hr, Res.err_bind]
  | panic =>
    rw [hr] at h2
    refine ⟨m, h1, fun F hq => ?_, herr⟩
    simp only [viewSlicesAsOfF, viewSlicesAsOf, loadFileGroups, h2 F hq, hr, Res.panic_bind]

/-! ## Table -/

theorem faithful_partitionSchema (tb : Table) (t : Tree) :
    Faithful (tb.partitionSchemaF t) (tb.partitionSchema t) :=
  faithful_bind (faithful_lift _) (fun _ _ => faithful_bind (faithful_latestSchema _ _) (fun _ _ => faithful_pure _))

theorem faithful_internal (E : Env) (A : Arrow) (tb : Table) (t : Tree) (ts : Str) (fs : List Filter) :
    FaithfulQ (tb.fileSlicesInternalF E A t ts fs) (tb.fileSlicesInternal E A t ts fs) :=
  faithfulQ_bind (faithfulQ_lift (faithful_replacedAsOf _ _ _ _)) (fun _ =>
    faithfulQ_bind (faithfulQ_lift (faithful_partitionSchema _ _)) (fun _ =>
      faithfulQ_bind (faithfulQ_lift (faithful_lift _)) (fun _ => faithful_view _ _ _ _ _ _)))

theorem faithfulQ_lifted {α β : Type} {r : Res α} {f : α → IoQuery β} {g : α → Query β}
    (h : ∀ a, FaithfulQ (f a) (g a)) :
    FaithfulQ (IoQuery.lift (Io.lift r) >>= f) (Query.lift r >>= g) :=
  faithfulQ_bind (faithfulQ_lift (faithful_lift _)) h

theorem faithfulQ_pure {α : Type} (a : α) : FaithfulQ (pure a : IoQuery α) (pure a : Query α) :=
  faithfulQ_lift (faithful_lift _)

theorem faithful_fileSlicesAsOf (E : Env) (A : Arrow) (tb : Table) (t : Tree) (ts : Str)
    (fs : List (Str × Str × Str)) : FaithfulQ (tb.fileSlicesAsOfF E A t ts fs) (tb.fileSlicesAsOf E A t ts fs) :=
  faithfulQ_lifted (fun _ => faithful_internal _ _ _ _ _ _)

theorem faithful_fileSlices (E : Env) (A : Arrow) (tb : Table) (t : Tree) (fs : List (Str × Str × Str)) :
    FaithfulQ (tb.fileSlicesF E A t fs) (tb.fileSlices E A t fs) := by
  unfold Table.fileSlicesF Table.fileSlices
  cases tb.timeline.latestTimestamp with
  | some ts => exact faithfulQ_lifted (fun _ => faithful_internal _ _ _ _ _ _)
  | none => exact faithfulQ_pure _

theorem faithful_splitsInternal (E : Env) (A : Arrow) (tb : Table) (t : Tree) (k : Nat) (ts : Str)
    (fs : List Filter) :
    FaithfulQ (tb.fileSlicesSplitsInternalF E A t k ts fs) (tb.fileSlicesSplitsInternal E A t k ts fs) :=
  faithfulQ_bind (faithful_internal _ _ _ _ _ _) (fun _ => faithfulQ_lift (faithful_lift _))

theorem faithful_splitsAsOf (E : Env) (A : Arrow) (tb : Table) (t : Tree) (k : Nat) (ts : Str)
    (fs : List (Str × Str × Str)) :
    FaithfulQ (tb.fileSlicesSplitsAsOfF E A t k ts fs) (tb.fileSlicesSplitsAsOf E A t k ts fs) :=
  faithfulQ_lifted (fun _ => faithful_splitsInternal _ _ _ _ _ _ _)

theorem faithful_splits (E : Env) (A : Arrow) (tb : Table) (t : Tree) (k : Nat) (fs : List (Str × Str × Str)) :
    FaithfulQ (tb.fileSlicesSplitsF E A t k fs) (tb.fileSlicesSplits E A t k fs) := by
  unfold Table.fileSlicesSplitsF Table.fileSlicesSplits
  cases tb.timeline.latestTimestamp with
  | some ts => exact faithfulQ_lifted (fun _ => faithful_splitsInternal _ _ _ _ _ _ _)
  | none => exact faithfulQ_pure _

theorem faithful_betweenInternal (E : Env) (tb : Table) (t : Tree) (start stop : Str) :
    Faithful (tb.fileSlicesBetweenInternalF E t start stop) (tb.fileSlicesBetweenInternal E t start stop) :=
  faithful_bind (faithful_fileGroupsBetween _ _ _ _ _) (fun _ _ => faithful_pure _)

theorem faithful_between (E : Env) (tb : Table) (t : Tree) (start stop : Option Str) :
    Faithful (tb.fileSlicesBetweenF E t start stop) (tb.fileSlicesBetween E t start stop) := by
  unfold Table.fileSlicesBetweenF Table.fileSlicesBetween
  cases stop.or tb.timeline.latestTimestamp with
  | none => exact faithful_lift _
  | some stop => exact faithful_betweenInternal _ _ _ _ _

/-! ## Reading -/

theorem faithful_scanLogs (C : Codec) (ltz : LocalTz) (o : Opts) (t : Tree) (range : InstantRange)
    (paths : List Str) : Faithful (scanLogsF C ltz o t range paths) (scanLogs C ltz o t range paths) :=
  faithful_bind (faithful_mapL (fun _ => faithful_request _ _) _) (fun files _ => faithful_lift
    (Res.mapL (survivingBatches (files.flatMap Prod.snd)) (files.flatMap Prod.fst) >>=
      fun kept => Res.ok (kept.filterMap id)))

theorem faithful_readFileSlice (C : Codec) (A : Arrow) (M : MergeEnv A) (ltz : LocalTz) (o : Opts) (t : Tree)
    (s : FileSlice) : Faithful (readFileSliceF C A M ltz o t s) (readFileSlice C A M ltz o t s) := by
  unfold readFileSliceF readFileSlice
  split
  · exact faithful_request _ _
  · have := faithful_bind (faithful_lift (do (← Cfg.useReadOptimizedMode.getOrDefault o).toBool))
      (f := fun b => if b then readBaseFileF A o t s.basePath else readMergedF C A M ltz o t s)
      (g := fun b => if b then readBaseFile A o t s.basePath else readMerged C A M ltz o t s)
      (fun b _ => by
        cases b with
        | true => exact faithful_request _ _
        | false => exact faithful_bind (faithful_request _ _) (fun _ _ => faithful_bind (faithful_lift _)
            (fun _ _ => faithful_bind (faithful_scanLogs _ _ _ _ _ _) (fun _ _ => faithful_lift _))))
    have e : ∀ {α β γ : Type} (x : Res α) (f : α → Res β) (g : β → Res γ),
        ((x >>= f) >>= g) = (x >>= fun a => f a >>= g) := by
      intro α β γ x f g; cases x <;> rfl
    rw [e] at this
    exact this

theorem faithful_snapshotInternal (E : Env) (A : Arrow) (C : Codec) (M : MergeEnv A) (tb : Table) (t : Tree)
    (ts : Str) (fs : List Filter) :
    FaithfulQ (tb.readSnapshotInternalF E A C M t ts fs) (tb.readSnapshotInternal E A C M t ts fs) :=
  faithfulQ_bind (faithful_internal _ _ _ _ _ _) (fun _ => faithfulQ_lift (faithful_mapL
    (fun _ => faithful_readFileSlice _ _ _ _ _ _ _) _))

theorem faithful_snapshotAsOf (E : Env) (A : Arrow) (C : Codec) (M : MergeEnv A) (tb : Table) (t : Tree)
    (ts : Str) (fs : List (Str × Str × Str)) :
    FaithfulQ (tb.readSnapshotAsOfF E A C M t ts fs) (tb.readSnapshotAsOf E A C M t ts fs) :=
  faithfulQ_lifted (fun _ => faithful_snapshotInternal _ _ _ _ _ _ _ _)

theorem faithful_snapshot (E : Env) (A : Arrow) (C : Codec) (M : MergeEnv A) (tb : Table) (t : Tree)
    (fs : List (Str × Str × Str)) :
    FaithfulQ (tb.readSnapshotF E A C M t fs) (tb.readSnapshot E A C M t fs) := by
  unfold Table.readSnapshotF Table.readSnapshot
  cases tb.timeline.latestTimestamp with
  | some ts => exact faithfulQ_lifted (fun _ => faithful_snapshotInternal _ _ _ _ _ _ _ _)
  | none => exact faithfulQ_pure _

theorem faithful_incremental (E : Env) (A : Arrow) (C : Codec) (M : MergeEnv A) (tb : Table) (t : Tree)
    (start : Str) (stop : Option Str) :
    Faithful (tb.readIncrementalF E A C M t start stop) (tb.readIncremental E A C M t start stop) := by
  unfold Table.readIncrementalF Table.readIncremental
  cases stop.or tb.timeline.latestTimestamp with
  | none => exact faithful_lift _
  | some stop => exact faithful_bind (faithful_betweenInternal _ _ _ _ _) (fun _ _ => faithful_mapL
      (fun _ => faithful_readFileSlice _ _ _ _ _ _ _) _)

/-! ## The cache -/

/-- What no computation does to the cache: hold a partition twice, or one that is neither in the cache before nor
on the storage. -/
def Tidy (o : Opts) (t : Tree) (c c' : Cache) : Prop :=
  (HmNodup c → HmNodup c') ∧ ∀ x ∈ c'.map Prod.fst, x ∈ c.map Prod.fst ∨ PartitionOf o t x

theorem Tidy.refl (o : Opts) (t : Tree) (c : Cache) : Tidy o t c c := ⟨id, fun _ h => .inl h⟩

theorem Tidy.trans {o : Opts} {t : Tree} {c c' c'' : Cache} (h : Tidy o t c c') (h' : Tidy o t c' c'') :
    Tidy o t c c'' :=
  ⟨fun hn => h'.1 (h.1 hn), fun x hx => by
    rcases h'.2 x hx with hx | hx
    · exact h.2 x hx
    · exact .inr hx⟩

theorem collectSlicesF_keys (A : Arrow) (t : Tree) (ts : Str) (p : Pruner) (excl : List FileGroup) (F : Faults)
    (n : Nat) (c : Cache) : (collectSlicesF A t ts p excl F n c).2.1.map Prod.fst = c.map Prod.fst := by
  induction c generalizing n with
  | nil => rfl
  | cons e rest ih =>
    obtain ⟨path, gs⟩ := e
    unfold collectSlicesF
    split
    · simp only [List.map_cons, ih]
    · simp only
      split <;> simp only [List.map_cons, ih]

/-- The listing has come back only if no request failed. -/
theorem Faithful.ok {α : Type} {x : Io α} {r : Res α} (h : Faithful x r) {F : Faults} {n n' : Nat} {a : α}
    (hx : x F n = (n', .ok a)) : r = .ok a := by
  obtain ⟨m, h1, h2, h3⟩ := h n
  rcases Classical.em (OneFails F n m) with hq | hq
  · obtain ⟨_, _, he⟩ := h3 F hq
    rw [hx] at he; cases he
  · have : NoneFails F n m := by
      intro j a b
      cases hf : F j with
      | false => rfl
      | true => exact absurd ⟨j, a, b, hf⟩ hq
    rw [h2 F this] at hx
    cases hx; rfl

theorem tidy_view {A : Arrow} {o : Opts} {t : Tree} (hwf : TreeWF t) (ts : Str) (p : Pruner)
    (excl : List FileGroup) (F : Faults) (n : Nat) (c : Cache) :
    Tidy o t c (viewSlicesAsOfF A o t ts p excl F n c).2.1 := by
  unfold viewSlicesAsOfF
  split
  · rename_i n' m hm
    have hm := (faithful_listRelevant A o t p).ok hm
    refine ⟨fun hn => ?_, ?_⟩
    · unfold HmNodup
      rw [collectSlicesF_keys]
      exact hmExtend_nodup hn
    · rw [collectSlicesF_keys]
      intro x hx
      by_cases hc : x ∈ c.map Prod.fst
      · exact .inl hc
      · right
        obtain ⟨hn, h1, _⟩ := listRelevant_ok hwf hm
        have hget : hmGet x (hmExtend c m) ≠ none := fun hnone => hmGet_eq_none.1 hnone hx
        rw [hmGet_hmExtend, hmGet_eq_none.2 hc] at hget
        cases hg : hmGet x m.reverse with
        | none => rw [hg] at hget; exact absurd rfl hget
        | some gs =>
          have hmem : (x, gs) ∈ m := List.mem_reverse.1 (hmGet_mem hg)
          exact ((h1 x gs).1 ((hmGet_eq_some hn).2 hmem)).1
  · exact .refl _ _ _
  · exact .refl _ _ _

theorem tidy_bind {o : Opts} {t : Tree} {α β : Type} {x : IoQuery α} {f : α → IoQuery β}
    (hx : ∀ F n c, Tidy o t c (x F n c).2.1) (hf : ∀ a F n c, Tidy o t c (f a F n c).2.1) (F : Faults) (n : Nat)
    (c : Cache) : Tidy o t c ((x >>= f) F n c).2.1 := by
  show Tidy o t c (IoQuery.bind x f F n c).2.1
  have h := hx F n c
  unfold IoQuery.bind
  split
  · rename_i n' c' a he; rw [he] at h; exact h.trans (hf _ _ _ _)
  · rename_i n' c' e he; rw [he] at h; exact h
  · rename_i n' c' he; rw [he] at h; exact h

theorem tidy_lift {o : Opts} {t : Tree} {α : Type} (x : Io α) (F : Faults) (n : Nat) (c : Cache) :
    Tidy o t c (IoQuery.lift x F n c).2.1 := .refl _ _ _

theorem tidy_internal {E : Env} {A : Arrow} {tb : Table} {t : Tree} (hwf : TreeWF t) (ts : Str) (fs : List Filter)
    (F : Faults) (n : Nat) (c : Cache) : Tidy tb.opts t c (tb.fileSlicesInternalF E A t ts fs F n c).2.1 :=
  tidy_bind (tidy_lift _) (fun _ => tidy_bind (tidy_lift _) (fun _ => tidy_bind (tidy_lift _)
    (fun _ => tidy_view hwf _ _ _))) F n c

end Hudi
