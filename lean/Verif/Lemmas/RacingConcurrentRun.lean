import Verif.Lemmas.RacingConcurrent
import Verif.Props.RacingFaults

/-! # Lemmas: runs of concurrent queries while writers work -/

namespace Hudi
open Spec

theorem works_after {S : Setting} {a b c : Work} (h1 : Works S a b) (h2 : Works S b c) : Works S a c := by
  induction h2 with
  | refl => exact h1
  | step _ hstep ih => exact .step ih hstep

/-- The storage at some moment between `s0` and `w`. -/
def Heard (S : Setting) (s0 w : Work) (t : Tree) : Prop := ∃ u, Works S s0 u ∧ Works S u w ∧ t = u.tree

theorem Heard.later {S : Setting} {s0 w w' : Work} (hw : Works S w w') {t : Tree} (h : Heard S s0 w t) :
    Heard S s0 w' t := by
  obtain ⟨u, h1, h2, h3⟩ := h
  exact ⟨u, h1, works_after h2 hw, h3⟩

/-- The metadata of a completed base file stays the same. -/
theorem base_metadata {S : Setting} {s0 : Work} (hi0 : Inv S s0) {x : Str}
    (hx : PartitionOf S.o (lasting S s0).tree x) {b : BaseFile} (hb : BaseIn (filesOf (lasting S s0).tree x) b) :
    ∃ m, getFileMetadata (lasting S s0).tree (pathPush x b.fileName) = .ok m ∧
      ∀ s, Works S s0 s → getFileMetadata s.tree (pathPush x b.fileName) = .ok m := by
  obtain ⟨j, f, token, hj, hk, rfl, hf, _⟩ := base_holds hi0 hx hb
  obtain ⟨d1, hjob⟩ := hi0.jobOf hj
  have hp := base_path (m := some (FileMeta.new (baseName f token j.commit.ts) 1)) (job_key hjob hk)
    (hjob.tokens _ _ hk) hjob.time.1
  have hm : ∃ m, getFileMetadata (lasting S s0).tree (pathPush x (BaseFile.fileName
      ⟨f, token, j.commit.ts, c!"parquet", some (FileMeta.new (baseName f token j.commit.ts) 1)⟩)) = .ok m := by
    unfold getFileMetadata getFile
    rw [hf, hp]
    simp only [Res.ofOption, Res.ok_bind, baseAt, inPartition, List.getLast?_concat]
    exact ⟨_, rfl⟩
  obtain ⟨m, hm⟩ := hm
  refine ⟨m, hm, fun s hs => ?_⟩
  obtain ⟨more, hmore⟩ := done_works hs
  have hi := inv_works hi0 hs
  have hf' := hi.fileAt (p := baseAt (x, f) token j.commit.ts) (by simp [baseAt, inPartition])
    (hi.bases j (by rw [hmore]; simp [hj]) _ _ hk)
  rw [← hp] at hf'
  rw [← hm]
  unfold getFileMetadata
  rw [getFile_congr (t := s.tree) (u := (lasting S s0).tree) (by rw [hf]; exact hf')]

theorem seenUpTo_works {S : Setting} {s0 : Work} (hmono : MonotoneTz S.ltz) (hsec : WholeSecondsTz S.ltz)
    (hi0 : Inv S s0) {j0 : Job} (hj0 : j0 ∈ s0.done) {tl : Timeline}
    (htl : ∀ i ∈ tl.completed, ∃ c ∈ s0.history, ∃ d, parseDatetime S.ltz c.ts S.tz = .ok d ∧
      i = ⟨c.ts, c.action, .completed, d.epochMillis⟩) (w : Work) :
    SeenUpTo S.o (lasting S s0).tree j0.commit.ts (Heard S s0 w) where
  wf := by
    rintro u ⟨s, hs, _, rfl⟩
    exact (inv_works hi0 hs).treeWF
  part := by
    rintro u ⟨s, hs, _, rfl⟩ x hx
    exact partitions_works hi0 hs hx
  path := fun x hx => partition_path (inv_lasting hi0) hx
  bases := by
    rintro u ⟨s, hs, _, rfl⟩ x b hx hb hle
    obtain ⟨h1, h2⟩ := (meanwhile_works hmono hsec hi0 hs hj0 htl).newBases x b hx hb hle
    obtain ⟨m, h3, h4⟩ := base_metadata hi0 h1 h2
    refine ⟨h1, m, h3, ?_⟩
    rintro v ⟨s', hs', _, rfl⟩
    exact h4 s' hs'

/-! ## The requests that a listing depends on -/

theorem leafDirsR_congr {R R' : Race} (h : R.dirs = R'.dirs) (n : Nat) (x : Str) :
    leafDirsR n R x = leafDirsR n R' x := by
  induction n generalizing x with
  | zero => rfl
  | succ n ih =>
    unfold leafDirsR
    rw [h]
    split
    · rfl
    · rw [show (fun d => leafDirsR n R (pathPush x d)) = fun d => leafDirsR n R' (pathPush x d) from funext fun d => ih _]

theorem relevantPartitionsR_congr {A : Arrow} {o : Opts} {depth : Nat} {R R' : Race} (h : R.dirs = R'.dirs) (p : Pruner) :
    relevantPartitionsR A o depth R p = relevantPartitionsR A o depth R' p := by
  unfold relevantPartitionsR
  rw [h, show leafDirsR depth R = leafDirsR depth R' from funext fun x => leafDirsR_congr h depth x]

theorem planAsOfR_congr {E : Env} {A : Arrow} {tb : Table} {depth : Nat} {R R' : Race} (h1 : R.replaced = R'.replaced)
    (h2 : R.latest = R'.latest) (h3 : R.schema = R'.schema) (h4 : R.dirs = R'.dirs) (h5 : R.files = R'.files) (ts : Str)
    (fs : List (Str × Str × Str)) : tb.planAsOfR E A depth R ts fs = tb.planAsOfR E A depth R' ts fs := by
  unfold Table.planAsOfR Timeline.replacedAsOfR Table.partitionSchemaR listRelevantR listWithPathR
  rw [h1, h2, h3, h5]
  simp only [relevantPartitionsR_congr (R := R) (R' := R') h4]

/-! ## One listing per partition -/

theorem pickGroup_eqR {o : Opts} {t : Tree} {ts : Str} {P : Tree → Prop} (hS : SeenUpTo o t ts P) {x : Str}
    {g : FileGroup} (hg : ListedGroup o P x g) {R : Race} (hR : ∀ y, P (R.sizes y)) (excl : List FileGroup) :
    pickGroupR R ts excl g = pickGroup t ts excl g := by
  unfold pickGroupR pickGroup collectGroup
  split
  · rfl
  · cases hl : mapLastLe ts g.slices with
    | none => rfl
    | some e =>
      obtain ⟨k, s⟩ := e
      obtain ⟨h1, h2, _⟩ := (mapLastLe_eq_some (hg.sorted hS)).1 hl
      obtain ⟨_, s1, h3, h4⟩ := hg.loads hS ((mapGet_eq_some (hg.sorted hS)).2 h1) h2
      simp only [h3, h4 _ (hR _), Res.ok_bind]
      rfl

theorem mem_groupsOf {o : Opts} {u : Tree} {x : Str} {g : FileGroup} (h : g ∈ groupsOf o u x) :
    ∃ gs, listFileGroups o u x = .ok gs ∧ g ∈ gs := by
  unfold groupsOf at h
  split at h
  · exact ⟨_, by assumption, h⟩
  · simp at h

open Classical in
/-- What has been collected is, up to order, what a read collects that lists each partition at the moment it was. -/
theorem collected_view {A : Arrow} {o : Opts} {t : Tree} {ts : Str} {P : Tree → Prop} (hS : SeenUpTo o t ts P)
    {p : Plan} (hts : p.ts = ts) {vis : List Str} {src : Str → Tree} {ss : List FileSlice}
    (hvis : ∀ x, x ∈ vis ↔ Wanted A o t p x) (hc : Collected o t P p vis src [] ss) {R : Race} {depth : Nat}
    (hd : ∀ x, P (R.dirs x)) (hf : ∀ x, P (R.files x)) (hz : ∀ x, P (R.sizes x)) (hsrc : ∀ x ∈ vis, R.files x = src x)
    {ss0 : List FileSlice} (h : viewSlicesAsOfR A o depth R ts p.pruner p.excl = .ok ss0) : ss0.Perm ss := by
  obtain ⟨m, r, hm, hr, rfl⟩ := viewSlicesAsOfR_ok h
  obtain ⟨hn, Found, hfound, hpath, h1, h2⟩ := listRelevantR_ok (t := t) (fun x => hS.wf _ (hd x))
    (fun x hx y => hS.part _ (hd y) x hx) hm
  rw [show hmExtend [] m = m from hmOfList_eq hn] at hr
  obtain ⟨r1, hr1, rfl⟩ := hc.picked
  rw [List.append_nil, hts] at hr1
  have hin : ∀ e ∈ m, Found e.1 ∧ (Partitioned o → p.pruner.shouldInclude A e.1 = true) ∧
      listFileGroups o (R.files e.1) e.1 = .ok e.2 := fun e he => (h1 e.1 e.2).1 ((hmGet_eq_some hn).2 he)
  let l := m.filter (fun e => p.pruner.shouldInclude A e.1)
  let q : Str × List FileGroup → Bool := fun e => decide (PartitionOf o t e.1)
  have hl : ∀ e ∈ l, e ∈ m ∧ p.pruner.shouldInclude A e.1 = true := fun e he => by
    have := List.mem_filter.1 he
    exact ⟨this.1, by simpa using this.2⟩
  have hsplit : (included A p.pruner m).Perm
      ((l.filter q).flatMap Prod.snd ++ (l.filter (fun e => !q e)).flatMap Prod.snd) := by
    rw [← List.flatMap_append]
    exact ((List.filter_append_perm q l).symm).flatMap_right _
  have hkeys : ((l.filter q).map Prod.fst).Perm vis := by
    refine (List.perm_ext_iff_of_nodup ?_ hc.nodup).2 fun x => ?_
    · exact (((List.filter_sublist).trans List.filter_sublist).map _).nodup hn
    · rw [hvis]
      constructor
      · intro hx
        obtain ⟨e, he, rfl⟩ := List.mem_map.1 hx
        obtain ⟨he, hq⟩ := List.mem_filter.1 he
        exact ⟨by simpa [q] using hq, (hl e he).2⟩
      · rintro ⟨hx, hi⟩
        obtain ⟨gs, hgs⟩ := h2 x (hfound x hx) (fun _ => hi)
        refine List.mem_map.2 ⟨(x, gs), List.mem_filter.2 ⟨List.mem_filter.2
          ⟨hmGet_mem ((h1 x gs).2 ⟨hfound x hx, fun _ => hi, hgs⟩), hi⟩, ?_⟩, rfl⟩
        simpa [q] using hx
  have hfirst : ((l.filter q).flatMap Prod.snd).Perm (vis.flatMap (fun x => groupsOf o (src x) x)) := by
    have e : (l.filter q).flatMap Prod.snd = ((l.filter q).map Prod.fst).flatMap (fun x => groupsOf o (src x) x) := by
      rw [List.flatMap_map]
      refine List.flatMap_congr fun e he => ?_
      have hv : e.1 ∈ vis := hkeys.subset (List.mem_map.2 ⟨e, he, rfl⟩)
      obtain ⟨_, _, h3⟩ := hin e (hl e (List.mem_filter.1 he).1).1
      rw [hsrc _ hv] at h3
      simp only [groupsOf, h3]
    rw [e]
    exact hkeys.flatMap_right _
  have hlisted : ∀ g ∈ vis.flatMap (fun x => groupsOf o (src x) x), ∃ x, ListedGroup o P x g := fun g hg => by
    obtain ⟨x, hx, hg⟩ := List.mem_flatMap.1 hg
    obtain ⟨gs, h3, h4⟩ := mem_groupsOf hg
    exact ⟨x, hS.path x ((hvis x).1 hx).1, src x, gs, (hc.listed x hx).1, h3, h4⟩
  have hr1' : Res.mapL (pickGroupR R ts p.excl) (vis.flatMap (fun x => groupsOf o (src x) x)) = .ok r1 := by
    rw [← hr1]
    refine Res.mapL_congr fun g hg => ?_
    obtain ⟨x, hx⟩ := hlisted g hg
    exact pickGroup_eqR hS hx hz _
  obtain ⟨b', hb', hf'⟩ := flatten_mapL_nothing (f := pickGroupR R ts p.excl)
    (l := (l.filter (fun e => !q e)).flatMap Prod.snd) (by
    intro g hg
    obtain ⟨e, he, hg⟩ := List.mem_flatMap.1 hg
    obtain ⟨he, hq⟩ := List.mem_filter.1 he
    obtain ⟨h3, _, h4⟩ := hin e (hl e he).1
    have hgl : ListedGroup o P e.1 g := ⟨hpath _ h3, _, _, hf e.1, h4, hg⟩
    have : mapLastLe ts g.slices = none := by
      cases hk : mapLastLe ts g.slices with
      | none => rfl
      | some ks =>
        obtain ⟨k, s⟩ := ks
        obtain ⟨g1, g2, _⟩ := (mapLastLe_eq_some (hgl.sorted hS)).1 hk
        have := (hgl.loads hS ((mapGet_eq_some (hgl.sorted hS)).2 g1) g2).1
        simp [q, this] at hq
    unfold pickGroupR
    rw [this]
    split <;> rfl)
  obtain ⟨r2, hr2, hpr2⟩ := mapL_perm (hsplit.trans (hfirst.append_right _)) hr
  rw [Res.mapL_append_ok.2 ⟨r1, b', hr1', hb', rfl⟩] at hr2
  cases hr2
  have e2 := hpr2.flatten
  rwa [List.flatten_append, hf', List.append_nil] at e2

/-! ## The plan of a query as of a commit -/

/-- A plan made at some moments between `s0` and `w`. -/
def PlannedBy (E : Env) (A : Arrow) (S : Setting) (tb : Table) (depth : Nat) (s0 w : Work) (ts : Str)
    (filters : List (Str × Str × Str)) (p : Plan) : Prop :=
  ∃ m, Between S s0 w m ∧ tb.planAsOfR E A depth m.race ts filters = .ok p

theorem Spec.Between.later {S : Setting} {s0 w w' : Work} (hw : Works S w w') {m : Moments} (h : Between S s0 w m) :
    Between S s0 w' m :=
  ⟨fun i => ⟨(h.replaced i).1, works_after (h.replaced i).2 hw⟩, ⟨h.latest.1, works_after h.latest.2 hw⟩,
    ⟨h.schema.1, works_after h.schema.2 hw⟩, fun i => ⟨(h.dirs i).1, works_after (h.dirs i).2 hw⟩,
    fun i => ⟨(h.files i).1, works_after (h.files i).2 hw⟩⟩

theorem planAsOfR_ok {E : Env} {A : Arrow} {tb : Table} {depth : Nat} {R : Race} {ts : Str}
    {filters : List (Str × Str × Str)} {p : Plan} (h : tb.planAsOfR E A depth R ts filters = .ok p) :
    p.ts = ts ∧ listRelevantR A tb.opts depth R p.pruner = .ok p.listed := by
  unfold Table.planAsOfR at h
  obtain ⟨fs, h1, h⟩ := Res.bind_eq_ok.1 h
  obtain ⟨excl, h2, h⟩ := Res.bind_eq_ok.1 h
  obtain ⟨schema, h3, h⟩ := Res.bind_eq_ok.1 h
  obtain ⟨pruner, h4, h⟩ := Res.bind_eq_ok.1 h
  obtain ⟨listed, h5, h⟩ := Res.bind_eq_ok.1 h
  cases h
  exact ⟨rfl, h5⟩

/-! ## Termination, whatever the storage answers -/

/-- What a query looks at is in the shard it holds. -/
def InShard (R : Runtime) : Pc → Prop
  | .visiting _ k rest _ _ => ∀ x ∈ rest, R.shard x = k
  | _ => True

/-- What a query looks at is in the shard it holds, and no two hold the same. -/
structure Exclusive (R : Runtime) (s : Conc) : Prop where
  place : ∀ (i : Nat) (tk : QTask), s.tasks[i]? = some tk → InShard R tk.pc ∧ tk.pc.Within R
  locks : ∀ (i j : Nat) (tk tk' : QTask) (k : Nat), i ≠ j → s.tasks[i]? = some tk → s.tasks[j]? = some tk' →
    tk.pc.holds = some k → tk'.pc.holds ≠ some k

/-- How far a query is from returning. -/
def Pc.rankIn (c : Cache) (R : Runtime) : Pc → Nat × Nat × Nat
  | .start => (2 * R.shards + 3, 0, 0)
  | .inserting _ rest => (2 * R.shards + 2, rest.length, 0)
  | .next _ k _ => (2 * (R.shards - k) + 1, 0, 0)
  | .visiting _ k rest j _ => (2 * (R.shards - k), rest.length,
      match rest with
      | [] => 0
      | x :: _ => ((hmGet x c).getD []).length - j)
  | .finished _ => (0, 0, 0)

theorem pcStep_shard {A : Arrow} {plan : Ask → Res (Option Plan)} {v : Tree} {R : Runtime} {free : Nat → Bool}
    {keysIn : Nat → List Str} {ks : List Str} {ask : Ask} {c c' : Cache} {pc pc' : Pc}
    (hkeys : ∀ k, ∀ x ∈ keysIn k, R.shard x = k) (hin : InShard R pc) (hw : pc.Within R)
    (h : pcStepWith A plan v R free keysIn ks ask c pc = some (c', pc')) :
    InShard R pc' ∧ rankLt (pc'.rankIn c' R) (pc.rankIn c R) ∧
      ∀ x, hmGet x c' = hmGet x c ∨ free (R.shard x) = true ∨ pc.holds = some (R.shard x) := by
  cases pc with
  | start =>
    simp only [pcStepWith] at h
    split at h
    · cases h; exact ⟨trivial, .left _ _ (by omega), fun x => .inl rfl⟩
    · split at h
      · cases h; exact ⟨trivial, .left _ _ (by omega), fun x => .inl rfl⟩
      · cases h
    · cases h; exact ⟨trivial, .left _ _ (by omega), fun x => .inl rfl⟩
    · cases h; exact ⟨trivial, .left _ _ (by omega), fun x => .inl rfl⟩
  | inserting p rest =>
    cases rest with
    | nil => cases h; exact ⟨trivial, .left _ _ (by omega), fun x => .inl rfl⟩
    | cons e rest =>
      simp only [pcStepWith] at h
      split at h
      · rename_i hf
        cases h
        refine ⟨trivial, .right _ (.left _ _ (by simp)), fun x => ?_⟩
        by_cases he : x = e.1
        · exact .inr (.inl (he ▸ hf))
        · exact .inl (by rw [hmGet_hmInsert, if_neg he])
      · cases h
  | next p k acc =>
    simp only [pcStepWith] at h
    split at h
    · cases h; exact ⟨trivial, .left _ _ (by omega), fun x => .inl rfl⟩
    · split at h
      · split at h
        · rename_i hp
          cases h
          exact ⟨fun x hx => hkeys k x ((List.isPerm_iff.1 hp).subset hx), .left _ _ (by omega), fun x => .inl rfl⟩
        · cases h
      · cases h
  | visiting p k rest j acc =>
    have hlt : k < R.shards := hw
    cases rest with
    | nil => cases h; exact ⟨trivial, .left _ _ (by omega), fun x => .inl rfl⟩
    | cons x rest =>
      have hskip : InShard R (.visiting p k rest 0 acc) := fun y hy => hin y (by simp [hy])
      simp only [pcStepWith] at h
      split at h
      · cases h; exact ⟨hskip, .right _ (.left _ _ (by simp)), fun x => .inl rfl⟩
      · split at h
        · cases h; exact ⟨hskip, .right _ (.left _ _ (by simp)), fun x => .inl rfl⟩
        · rename_i gs hget
          split at h
          · cases h; exact ⟨hskip, .right _ (.left _ _ (by simp)), fun x => .inl rfl⟩
          · rename_i g hg
            split at h <;> cases h
            · refine ⟨fun y hy => hin y hy, .right _ (.right _ ?_), fun y => ?_⟩
              · have hj : j < gs.length := (List.getElem?_eq_some_iff.1 hg).1
                simp only [hmGet_hmInsert, if_true, hget, Option.getD_some, List.length_set]
                omega
              · by_cases he : y = x
                · exact .inr (.inr (by rw [he, hin x (by simp)]; rfl))
                · exact .inl (by rw [hmGet_hmInsert, if_neg he])
            · exact ⟨trivial, .left _ _ (by omega), fun x => .inl rfl⟩
            · exact ⟨trivial, .left _ _ (by omega), fun x => .inl rfl⟩
  | finished r => cases h

/-- The rank of a query does not depend on shards it does not hold. -/
theorem rankIn_other {R : Runtime} {c c' : Cache} {pc : Pc} (hin : InShard R pc)
    (h : ∀ x, pc.holds = some (R.shard x) → hmGet x c' = hmGet x c) : pc.rankIn c' R = pc.rankIn c R := by
  cases pc with
  | visiting p k rest j acc =>
    cases rest with
    | nil => rfl
    | cons x rest =>
      simp only [Pc.rankIn]
      rw [h x (by rw [hin x (by simp)]; rfl)]
  | _ => rfl

/-- The distances of all queries from returning. -/
def Conc.ranksIn (R : Runtime) (s : Conc) : Multiset (Nat × Nat × Nat) :=
  (s.tasks.map (fun tk => tk.pc.rankIn s.cache R) : List (Nat × Nat × Nat))

/-- One query comes closer to returning, and the others stay as far. -/
theorem ranksIn_set {R : Runtime} {s : Conc} {c' : Cache} {i : Nat} {tk tk' : QTask} (hi : s.tasks[i]? = some tk)
    (hlt : rankLt (tk'.pc.rankIn c' R) (tk.pc.rankIn s.cache R))
    (hother : ∀ (j : Nat) (tk1 : QTask), j ≠ i → s.tasks[j]? = some tk1 → tk1.pc.rankIn c' R = tk1.pc.rankIn s.cache R) :
    Relation.CutExpand rankLt (Conc.ranksIn R ⟨c', s.tasks.set i tk'⟩) (s.ranksIn R) := by
  refine ⟨{tk'.pc.rankIn c' R}, tk.pc.rankIn s.cache R, fun a ha => by rw [Multiset.mem_singleton] at ha; rw [ha]; exact hlt, ?_⟩
  have e0 : Conc.ranksIn R ⟨c', s.tasks.set i tk'⟩ =
      (((s.tasks.map (fun tk => tk.pc.rankIn s.cache R)).set i (tk'.pc.rankIn c' R) : List _) : Multiset _) := by
    unfold Conc.ranksIn
    congr 1
    refine List.ext_getElem? fun j => ?_
    simp only [List.getElem?_map, List.getElem?_set, List.length_map]
    by_cases hj : i = j
    · subst hj
      simp only [if_true]
      split <;> rfl
    · simp only [if_neg hj]
      cases hs : s.tasks[j]? with
      | none => rfl
      | some tk1 => simp only [Option.map_some, hother j tk1 (Ne.symm hj) hs]
  rw [e0]
  unfold Conc.ranksIn
  have hl : (s.tasks.map (fun tk => tk.pc.rankIn s.cache R))[i]? = some (tk.pc.rankIn s.cache R) := by
    rw [List.getElem?_map, hi]; rfl
  generalize s.tasks.map (fun tk => tk.pc.rankIn s.cache R) = l at hl
  obtain ⟨hlt', he⟩ := List.getElem?_eq_some_iff.1 hl
  rw [← he]
  have e1 : l = l.take i ++ l[i] :: l.drop (i + 1) := by
    rw [List.getElem_cons_drop hlt', List.take_append_drop]
  rw [List.set_eq_take_append_cons_drop, if_pos hlt']
  conv_rhs => rw [e1]
  rw [← Multiset.coe_singleton, ← Multiset.coe_singleton, Multiset.coe_add, Multiset.coe_add, Multiset.coe_eq_coe]
  simp only [List.append_assoc, List.cons_append]
  refine List.Perm.append_left _ ?_
  refine (List.Perm.cons _ (List.perm_append_singleton _ _)).trans ?_
  refine (List.Perm.swap _ _ _).trans ?_
  exact (List.Perm.cons _ (List.perm_append_singleton _ _).symm)

theorem Exclusive.init (R : Runtime) (c : Cache) (asks : List Ask) : Exclusive R (.init c asks) := by
  have h : ∀ (i : Nat) (tk : QTask), (Conc.init c asks).tasks[i]? = some tk → tk.pc = .start := by
    intro i tk h
    unfold Conc.init at h
    simp only [List.getElem?_map] at h
    obtain ⟨a, ha, rfl⟩ := Option.map_eq_some_iff.1 h
    rfl
  refine ⟨fun i tk hi => ?_, fun i j tk tk' k _ hi _ hk => ?_⟩
  · rw [h i tk hi]; exact ⟨trivial, trivial⟩
  · rw [h i tk hi] at hk; cases hk

theorem Exclusive.stepR {E : Env} {A : Arrow} {tb : Table} {depth : Nat} {R : Runtime} {race : Race} {v : Tree} {i : Nat}
    {ks : List Str} {s s' : Conc} (h : Exclusive R s) (hs : s.stepR E A tb depth R race v i ks = some s') :
    Exclusive R s' ∧ Relation.CutExpand rankLt (s'.ranksIn R) (s.ranksIn R) := by
  unfold Conc.stepR at hs
  split at hs
  · cases hs
  · rename_i tk htk
    split at hs
    · split at hs
      · rename_i c' pc' hp
        cases hs
        have hfree : ∀ k, s.free i k = true → ∀ j tk', s.tasks[j]? = some tk' → j ≠ i → tk'.pc.holds ≠ some k :=
          fun k hk => free_iff.1 hk
        obtain ⟨h1, h2, h3⟩ := pcStep_shard (fun k x hx => by
          unfold Conc.keysIn at hx
          rw [List.mem_filter] at hx
          simpa using hx.2) (h.place i tk htk).1 (h.place i tk htk).2 hp
        refine ⟨⟨fun j tk1 hj => ?_, fun j j' tk1 tk2 k hne hj hj' hk => ?_⟩, ranksIn_set htk h2 fun j tk1 hne hj => ?_⟩
        · rcases set_get htk hj with ⟨rfl, rfl⟩ | ⟨_, hj⟩
          · exact ⟨h1, pcStep_within (h.place _ tk htk).2 hp⟩
          · exact h.place j tk1 hj
        · rcases set_get htk hj with ⟨rfl, rfl⟩ | ⟨hne1, hj1⟩
          · rcases set_get htk hj' with ⟨rfl, rfl⟩ | ⟨hne2, hj'⟩
            · exact absurd rfl hne
            · rcases pcStep_holds hp hk with h4 | h4
              · exact h.locks _ _ _ _ k hne htk hj' h4
              · exact hfree k h4 _ _ hj' hne2
          · rcases set_get htk hj' with ⟨rfl, rfl⟩ | ⟨_, hj'⟩
            · intro hk'
              rcases pcStep_holds hp hk' with h4 | h4
              · exact h.locks _ _ _ _ k hne hj1 htk hk h4
              · exact hfree k h4 _ _ hj1 hne1 hk
            · exact h.locks _ _ _ _ k hne hj1 hj' hk
        · refine rankIn_other (h.place j tk1 hj).1 fun x hx => ?_
          rcases h3 x with h4 | h4 | h4
          · exact h4
          · exact absurd hx (hfree _ h4 _ _ hj hne)
          · exact absurd h4 (h.locks _ _ _ _ _ hne hj htk hx)
      · cases hs
    · cases hs

theorem Exclusive.fail {A : Arrow} {R : Runtime} {i : Nat} {e : ErrKind} {s s' : Conc} (h : Exclusive R s)
    (hs : s.fail A R i e = some s') : Exclusive R s' ∧ Relation.CutExpand rankLt (s'.ranksIn R) (s.ranksIn R) := by
  unfold Conc.fail at hs
  split at hs
  · cases hs
  · rename_i tk htk
    split at hs
    · split at hs
      · rename_i pc' hp
        cases hs
        have hfin : pc' = .finished (.err e) ∧ rankLt (0, 0, 0) (tk.pc.rankIn s.cache R) := by
          have hw := (h.place i tk htk).2
          cases hpc : tk.pc with
          | start => rw [hpc] at hp; cases hp; exact ⟨rfl, .left _ _ (by omega)⟩
          | visiting p k rest j acc =>
            rw [hpc] at hp hw
            simp only [Pc.fail] at hp
            split at hp
            · cases hp
              have : k < R.shards := hw
              exact ⟨rfl, .left _ _ (by omega)⟩
            · cases hp
          | inserting p rest => rw [hpc] at hp; cases hp
          | next p k acc => rw [hpc] at hp; cases hp
          | finished r => rw [hpc] at hp; cases hp
        obtain ⟨rfl, hrank⟩ := hfin
        refine ⟨⟨fun j tk1 hj => ?_, fun j j' tk1 tk2 k hne hj hj' hk => ?_⟩, ranksIn_set htk hrank fun _ _ _ _ => rfl⟩
        · rcases set_get htk hj with ⟨rfl, rfl⟩ | ⟨_, hj⟩
          · exact ⟨trivial, trivial⟩
          · exact h.place j tk1 hj
        · rcases set_get htk hj with ⟨rfl, rfl⟩ | ⟨hne1, hj1⟩
          · cases hk
          · rcases set_get htk hj' with ⟨rfl, rfl⟩ | ⟨_, hj'⟩
            · exact fun h => nomatch h
            · exact h.locks _ _ _ _ k hne hj1 hj' hk
      · cases hs
    · cases hs

end Hudi
