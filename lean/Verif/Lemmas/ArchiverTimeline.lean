import Verif.Lemmas.Archiver
import Verif.Props.Writer
import Verif.Props.Instants

/-! # Timelines from which instants have been taken -/

namespace Hudi
open Spec

/-- Two lists in strict order of time that have the same instants are the same. -/
theorem strict_unique : ∀ {l l' : List Instant}, l.Pairwise (fun a b => a.epochMillis < b.epochMillis) →
    l'.Pairwise (fun a b => a.epochMillis < b.epochMillis) → (∀ i, i ∈ l ↔ i ∈ l') → l = l'
  | [], [], _, _, _ => rfl
  | [], b :: _, _, _, h => nomatch (h b).2 List.mem_cons_self
  | a :: _, [], _, _, h => nomatch (h a).1 List.mem_cons_self
  | a :: l, b :: l', h1, h2, h => by
    have g1 := List.pairwise_cons.1 h1
    have g2 := List.pairwise_cons.1 h2
    have e : a = b := by
      rcases List.mem_cons.1 ((h a).1 List.mem_cons_self) with e | e
      · exact e
      · rcases List.mem_cons.1 ((h b).2 List.mem_cons_self) with e' | e'
        · exact e'.symm
        · have := g2.1 a e; have := g1.1 b e'; omega
    subst e
    rw [strict_unique g1.2 g2.2 (fun i => ?_)]
    constructor
    · intro hi
      rcases List.mem_cons.1 ((h i).1 (List.mem_cons_of_mem _ hi)) with rfl | h'
      · have := g1.1 _ hi; omega
      · exact h'
    · intro hi
      rcases List.mem_cons.1 ((h i).2 (List.mem_cons_of_mem _ hi)) with rfl | h'
      · have := g2.1 _ hi; omega
      · exact h'

/-- The loaded timeline of commits whose timestamps increase is in strict order of time. -/
theorem timeline_strict {E : Env} (hmono : MonotoneTz E.ltz) {o : Opts} {t : Tree} {tl : Timeline}
    (hload : Timeline.load E o t = .ok tl) (hnames : (timelineNames t).Nodup)
    {tz : Str} (htz : timezoneOf tl.opts = .ok tz) {h : History} {n : Nat} (hw : h.WF n)
    (hst : ∀ name, ((∃ m ∈ listFiles t c!".hoodie", m.name = name) ∧
      ∃ i, CompletedFile E.ltz tz [.commit, .deltaCommit, .replaceCommit] name i) ↔
      ∃ c ∈ h, name = c.ts ++ c!"." ++ suffix c.action .completed) :
    tl.completed.Pairwise (fun a b => a.epochMillis < b.epochMillis) := by
  obtain ⟨t1, t2, t3⟩ := timeline_of hload htz hw hst
  have hnd : tl.completed.Nodup := by
    obtain ⟨tz', htz', hopts, ⟨f, hf, hp⟩, _⟩ := C05_loaded_timeline E o t tl hload
    rw [hopts, htz'] at htz; cases htz
    rw [hp.nodup_iff, List.nodup_iff_pairwise_ne, List.pairwise_filterMap]
    refine List.Pairwise.imp_of_mem ?_ (List.nodup_iff_pairwise_ne.1 hnames)
    intro m m' hm hm' hne i hi i' hi' e
    subst e
    refine hne ?_
    have key : ∀ m ∈ timelineNames t, f m = some i → m = i.timestamp ++ c!"." ++ suffix i.action .completed := by
      intro m hm hi
      obtain ⟨fm, h3, h4⟩ := List.mem_map.1 hm
      have h2 := (hf m i).1 hi
      obtain ⟨c, hc, he⟩ := (hst m).1 ⟨⟨fm, h3, h4⟩, i, h2⟩
      obtain ⟨ts, a, d, _, hd, hn, hpd, rfl⟩ := h2
      rw [he] at hn
      obtain ⟨rfl, rfl⟩ := completed_name (digits_part (hw.times c hc).1).2.2.1 hd hn
      exact he
    rw [key m hm hi, key m' hm' hi']
  refine List.Pairwise.imp_of_mem ?_ (t3.and (List.nodup_iff_pairwise_ne.1 hnd))
  rintro i i' hi hi' ⟨hle, hne⟩
  obtain ⟨c, hc, d, hd, rfl⟩ := t1 i hi
  obtain ⟨c', hc', d', hd', rfl⟩ := t1 i' hi'
  by_contra hlt
  have he : DateTime.epochMillis d = DateTime.epochMillis d' := by
    change DateTime.epochMillis d ≤ DateTime.epochMillis d' at hle
    change ¬ DateTime.epochMillis d < DateTime.epochMillis d' at hlt
    omega
  obtain ⟨q1, q2⟩ := hw.times c hc
  obtain ⟨r1, r2⟩ := hw.times c' hc'
  have hcmp := C04_same_width_partial E.ltz hmono tz _ _ _ _ q1 r1 (by rw [q2, r2]) hd hd'
  rw [he, Std.ReflCmp.compare_self (cmp := (compare : Int → Int → Ordering))] at hcmp
  have hts : c.ts = c'.ts := Std.LawfulEqCmp.eq_of_compare hcmp
  have hcc : c = c' := by
    rcases List.pairwise_iff_getElem.1 hw.ordered with hord
    obtain ⟨a, ha, rfl⟩ := List.getElem_of_mem hc
    obtain ⟨b, hb, rfl⟩ := List.getElem_of_mem hc'
    rcases Nat.lt_trichotomy a b with hab | rfl | hab
    · have := hord a b ha hb hab
      rw [hts, Std.ReflCmp.compare_self (cmp := (compare : Str → Str → Ordering))] at this
      cases this
    · rfl
    · have := hord b a hb ha hab
      rw [hts, Std.ReflCmp.compare_self (cmp := (compare : Str → Str → Ordering))] at this
      cases this
  subst hcc
  rw [hd] at hd'
  cases hd'
  exact hne rfl

theorem wf_filter {h : History} {n : Nat} (hw : h.WF n) (p : HCommit → Bool) : History.WF (h.filter p) n where
  ordered := hw.ordered.filter _
  times := fun c hc => hw.times c (List.mem_filter.1 hc).1
  once := fun c hc => hw.once c (List.mem_filter.1 hc).1
  replaces := fun c hc => hw.replaces c (List.mem_filter.1 hc).1
  gone := hw.gone.filter _
  ids := fun c hc => hw.ids c (List.mem_filter.1 hc).1
  tokens := fun c hc => hw.tokens c (List.mem_filter.1 hc).1
  logs := fun c hc => hw.logs c (List.mem_filter.1 hc).1

/-- The commits whose timeline files are there. -/
def leftOf (v : Work) (gone : List (List Str)) : History := v.history.filter (fun c => decide (instantAt c ∉ gone))

theorem sweep_timeline {S : Setting} {v : Work} (hi : Inv S v) (gone : List (List Str)) (name : Str) :
    ((∃ m ∈ listFiles (sweep v gone).tree c!".hoodie", m.name = name) ∧
      ∃ i, CompletedFile S.ltz S.tz [.commit, .deltaCommit, .replaceCommit] name i) ↔
    ∃ c ∈ leftOf v gone, name = c.ts ++ c!"." ++ suffix c.action .completed := by
  have hsegs : inPartition c!".hoodie" name = [c!".hoodie", name] := by
    unfold inPartition; rw [show pathSegs c!".hoodie" = [c!".hoodie"] by decide]; rfl
  have hfile : (∃ m ∈ listFiles (sweep v gone).tree c!".hoodie", m.name = name) ↔
      (∃ m ∈ listFiles v.tree c!".hoodie", m.name = name) ∧ [c!".hoodie", name] ∉ gone := by
    rw [← hsegs]
    constructor
    · rintro ⟨m, hm, rfl⟩
      obtain ⟨⟨n, size⟩, he, rfl⟩ := List.mem_map.1 hm
      obtain ⟨h1, h2⟩ := (sweep_files hi).1 he
      exact ⟨⟨_, List.mem_map.2 ⟨_, h1, rfl⟩, rfl⟩, h2⟩
    · rintro ⟨⟨m, hm, rfl⟩, h2⟩
      obtain ⟨⟨n, size⟩, he, rfl⟩ := List.mem_map.1 hm
      exact ⟨_, List.mem_map.2 ⟨_, (sweep_files hi).2 ⟨he, h2⟩, rfl⟩, rfl⟩
  have hi' := hi.timeline name
  rw [hfile, and_right_comm, hi']
  constructor
  · rintro ⟨⟨c, hc, rfl⟩, h⟩
    exact ⟨c, List.mem_filter.2 ⟨hc, by simpa [instantAt] using h⟩, rfl⟩
  · rintro ⟨c, hc, rfl⟩
    obtain ⟨h1, h2⟩ := List.mem_filter.1 hc
    exact ⟨⟨c, h1, rfl⟩, by simpa [instantAt] using h2⟩

theorem sweep_names {S : Setting} {v : Work} (hi : Inv S v) (gone : List (List Str)) :
    (timelineNames (sweep v gone).tree).Nodup := by
  have h := ((wf_treeOf (sweep_paths hi (gone := gone))).at (pathSegs c!".hoodie")).files_nodup
  simp only [timelineNames, listFiles, List.map_map]
  exact h

/-- Everything that may be archived. -/
def archivable (r : Str) (v : Work) : List (List Str) :=
  (v.done.filter (fun j => decide (compare j.commit.ts r = .lt ∧ j.commit.action ≠ .replaceCommit))).map
    (fun j => instantAt j.commit)

theorem archivable_trimmed (r : Str) (v : Work) : Trimmed r v (archivable r v) := by
  intro p hp
  obtain ⟨j, hj, rfl⟩ := List.mem_map.1 hp
  obtain ⟨h1, h2⟩ := List.mem_filter.1 hj
  exact ⟨j, h1, (of_decide_eq_true h2).1, (of_decide_eq_true h2).2, rfl⟩

/-- The replacecommits and the latest commit are there. -/
structure KeepsLast (v : Work) (gone : List (List Str)) : Prop where
  replaced : ∀ c ∈ v.history, c.action = .replaceCommit → instantAt c ∉ gone
  last : ∀ c, v.history.getLast? = some c → instantAt c ∉ gone

/-- Two timelines that reads of snapshots cannot tell apart. -/
structure Alike (tl tl' : Timeline) : Prop where
  opts : tl.opts = tl'.opts
  last : tl.completed.getLast? = tl'.completed.getLast?
  replaced : tl.completed.filter (fun i => decide (i.action = .replaceCommit)) =
    tl'.completed.filter (fun i => decide (i.action = .replaceCommit))
  state : ∀ i ∈ tl.completed, i.state = .completed
  state' : ∀ i ∈ tl'.completed, i.state = .completed
  sorted : tl.completed.Pairwise (fun a b => a.epochMillis ≤ b.epochMillis)
  sorted' : tl'.completed.Pairwise (fun a b => a.epochMillis ≤ b.epochMillis)

theorem Alike.symm {tl tl' : Timeline} (h : Alike tl tl') : Alike tl' tl :=
  ⟨h.opts.symm, h.last.symm, h.replaced.symm, h.state', h.state, h.sorted', h.sorted⟩

theorem last_left {v : Work} {gone : List (List Str)} (hk : KeepsLast v gone) :
    (leftOf v gone).getLast? = v.history.getLast? := by
  unfold leftOf
  rcases List.eq_nil_or_concat v.history with e | ⟨l, c, e⟩
  · rw [e]; rfl
  · have := hk.last c (by rw [e]; simp)
    rw [e, List.concat_eq_append, List.filter_append]
    simp [this]

theorem alike_sweep {S : Setting} {E : Env} (hclock : E.ltz = S.ltz) (hmono : MonotoneTz E.ltz) {v : Work} (hi : Inv S v)
    {o : Opts} {gone gone' : List (List Str)} (hk : KeepsLast v gone) (hk' : KeepsLast v gone') {tl tl' : Timeline}
    (hload : Timeline.load E o (sweep v gone).tree = .ok tl) (hload' : Timeline.load E o (sweep v gone').tree = .ok tl')
    (hzone : timezoneOf tl.opts = .ok S.tz) : Alike tl tl' := by
  have ho : tl.opts = o := by obtain ⟨_, _, h, _⟩ := C05_loaded_timeline E o _ _ hload; exact h
  have ho' : tl'.opts = o := by obtain ⟨_, _, h, _⟩ := C05_loaded_timeline E o _ _ hload'; exact h
  have hzone' : timezoneOf tl'.opts = .ok S.tz := by rw [ho', ← ho]; exact hzone
  have hst := fun g => (sweep_timeline hi g)
  rw [← hclock] at hst
  have hw := fun (g : List (List Str)) => wf_filter hi.wf (fun c => decide (instantAt c ∉ g))
  obtain ⟨t1, t2, t3⟩ := timeline_of hload hzone (hw gone) (hst gone)
  obtain ⟨u1, u2, u3⟩ := timeline_of hload' hzone' (hw gone') (hst gone')
  have s1 := timeline_strict hmono hload (sweep_names hi gone) hzone (hw gone) (hst gone)
  have s2 := timeline_strict hmono hload' (sweep_names hi gone') hzone' (hw gone') (hst gone')
  refine ⟨by rw [ho, ho'], ?_, ?_, ?_, ?_, t3, u3⟩
  · rcases timeline_last hmono (hw gone) t1 t2 t3 with ⟨h1, h2⟩ | ⟨c, d, h1, h2, _⟩
    · rcases timeline_last hmono (hw gone') u1 u2 u3 with ⟨g1, g2⟩ | ⟨c', d', g1, g2, _⟩
      · rw [h2, g2]
      · have e1 := last_left hk
        have e2 := last_left hk'
        unfold leftOf at e1 e2
        rw [h1] at e1; rw [g1, ← e1] at e2; cases e2
    · rcases timeline_last hmono (hw gone') u1 u2 u3 with ⟨g1, g2⟩ | ⟨c', d', g1, g2, _⟩
      · have e1 := last_left hk
        have e2 := last_left hk'
        unfold leftOf at e1 e2
        rw [h1] at e1; rw [g1, ← e1] at e2; cases e2
      · have e1 := last_left hk
        have e2 := last_left hk'
        unfold leftOf at e1 e2
        rw [h1] at e1; rw [g1, ← e1] at e2; cases e2
        rw [h2, g2]
        obtain ⟨c1, _, d1, p1, q1⟩ := t1 _ (List.mem_of_getLast? h2)
        obtain ⟨c2, _, d2, p2, q2⟩ := u1 _ (List.mem_of_getLast? g2)
        simp only [Instant.mk.injEq, true_and] at q1 q2
        rw [← q1.1] at p1; rw [← q2.1, p1] at p2; cases p2
        rw [q1.2.2, q2.2.2]
  · refine strict_unique (s1.filter _) (s2.filter _) (fun i => ?_)
    simp only [List.mem_filter, decide_eq_true_eq]
    constructor
    · rintro ⟨h1, h2⟩
      obtain ⟨c, hc, d, hd, rfl⟩ := t1 i h1
      obtain ⟨d', hd', h3⟩ := u2 c (List.mem_filter.2 ⟨(List.mem_filter.1 hc).1,
        decide_eq_true (hk'.replaced c (List.mem_filter.1 hc).1 h2)⟩)
      rw [hd] at hd'; cases hd'
      exact ⟨h3, h2⟩
    · rintro ⟨h1, h2⟩
      obtain ⟨c, hc, d, hd, rfl⟩ := u1 i h1
      obtain ⟨d', hd', h3⟩ := t2 c (List.mem_filter.2 ⟨(List.mem_filter.1 hc).1,
        decide_eq_true (hk.replaced c (List.mem_filter.1 hc).1 h2)⟩)
      rw [hd] at hd'; cases hd'
      exact ⟨h3, h2⟩
  · intro i h1
    obtain ⟨_, _, _, _, rfl⟩ := t1 i h1; rfl
  · intro i h1
    obtain ⟨_, _, _, _, rfl⟩ := u1 i h1; rfl

theorem Alike.select {tl tl' : Timeline} (h : Alike tl tl') {s : Selector} (hst : s.states = [.completed])
    (ha : s.actions = [.replaceCommit]) : s.select tl.completed = s.select tl'.completed := by
  have hne : s.actions ≠ [] := by rw [ha]; simp
  have key : ∀ (a b : Option Int) (l : List Instant), Spec.inRange s.actions a b l =
      Spec.inRange s.actions a b (l.filter (fun i => decide (i.action = .replaceCommit))) := by
    intro a b l
    unfold Spec.inRange
    rw [List.filter_filter]
    refine List.filter_congr (fun i _ => ?_)
    rw [ha]
    by_cases h1 : i.action = .replaceCommit <;> simp [h1]
  rw [select_eq hst hne h.state h.sorted, select_eq hst hne h.state' h.sorted', key, h.replaced, ← key]

theorem Alike.range {tl tl' : Timeline} (h : Alike tl tl') {E : Env} {ts : Str} {s : Selector}
    (hs : completedActionsInRange E.ltz [.replaceCommit] tl.opts none (some ts) = .ok s) :
    s.select tl.completed = s.select tl'.completed := by
  unfold completedActionsInRange at hs
  obtain ⟨_, _, h1⟩ := Res.bind_eq_ok.1 hs
  obtain ⟨_, _, h2⟩ := Res.bind_eq_ok.1 h1
  obtain ⟨_, _, h3⟩ := Res.bind_eq_ok.1 h2
  cases h3
  exact h.select rfl rfl

theorem Alike.replacedAsOf {tl tl' : Timeline} (h : Alike tl tl') (E : Env) (t : Tree) (ts : Str) :
    tl.replacedAsOf E t ts = tl'.replacedAsOf E t ts := by
  unfold Timeline.replacedAsOf
  rw [← h.opts]
  cases hs : completedActionsInRange E.ltz [.replaceCommit] tl.opts none (some ts) with
  | ok s => simp only [Res.ok_bind]; rw [h.range hs]
  | err e => rfl
  | panic => rfl

theorem Alike.replacedAsOfR {tl tl' : Timeline} (h : Alike tl tl') (E : Env) (R : Race) (ts : Str) :
    tl.replacedAsOfR E R ts = tl'.replacedAsOfR E R ts := by
  unfold Timeline.replacedAsOfR
  rw [← h.opts]
  cases hs : completedActionsInRange E.ltz [.replaceCommit] tl.opts none (some ts) with
  | ok s => simp only [Res.ok_bind]; rw [h.range hs]
  | err e => rfl
  | panic => rfl

theorem Alike.latestMetadata {tl tl' : Timeline} (h : Alike tl tl') (t : Tree) :
    tl.latestMetadata t = tl'.latestMetadata t := by
  unfold Timeline.latestMetadata; rw [h.last]

theorem Alike.slices {tb : Table} {tl : Timeline} (h : Alike tb.timeline tl) (E : Env) (A : Arrow) (t : Tree) (ts : Str)
    (fs : List Filter) :
    tb.fileSlicesInternal E A t ts fs = Table.fileSlicesInternal E A { tb with timeline := tl } t ts fs := by
  unfold Table.fileSlicesInternal Table.partitionSchema Table.schema Timeline.latestSchema
  rw [h.replacedAsOf, h.latestMetadata]

theorem Alike.slicesR {tb : Table} {tl : Timeline} (h : Alike tb.timeline tl) (E : Env) (A : Arrow) (depth : Nat)
    (R : Race) (ts : Str) (fs : List Filter) :
    tb.fileSlicesInternalR E A depth R ts fs = Table.fileSlicesInternalR E A { tb with timeline := tl } depth R ts fs := by
  unfold Table.fileSlicesInternalR Table.partitionSchemaR
  rw [h.replacedAsOfR, h.latestMetadata]

theorem Alike.reads {tb : Table} {tl : Timeline} (h : Alike tb.timeline tl) (E : Env) (A : Arrow) (C : Codec)
    (M : MergeEnv A) (t : Tree) (ts : Str) (filters : List (Str × Str × Str)) :
    tb.readSnapshotAsOf E A C M t ts filters =
      Table.readSnapshotAsOf E A C M { tb with timeline := tl } t ts filters := by
  unfold Table.readSnapshotAsOf Table.readSnapshotInternal
  simp only [h.slices]
  rfl

theorem Alike.readsR {tb : Table} {tl : Timeline} (h : Alike tb.timeline tl) (E : Env) (A : Arrow) (C : Codec)
    (M : MergeEnv A) (depth : Nat) (R : Race) (ts : Str) (filters : List (Str × Str × Str)) :
    tb.readSnapshotAsOfR E A C M depth R ts filters =
      Table.readSnapshotAsOfR E A C M { tb with timeline := tl } depth R ts filters := by
  unfold Table.readSnapshotAsOfR Table.readSnapshotInternalR
  simp only [h.slicesR]
  rfl

/-- A timeline can be loaded if a larger one can be, and the missing files are those of commits. -/
theorem load_other {S : Setting} {E : Env} {v : Work} (hi : Inv S v) {o : Opts} {r q : Str}
    {g gone gone' : List (List Str)} (hg : Swept S r v g) (ht : Trimmed q v gone) {tl : Timeline}
    (hload : Timeline.load E o (sweep v (g ++ gone)).tree = .ok tl) :
    ∃ tl', Timeline.load E o (sweep v gone').tree = .ok tl' := by
  obtain ⟨h1, h2⟩ := C03_load_never_crashes_partial E o (sweep v gone').tree
  cases hl : Timeline.load E o (sweep v gone').tree with
  | ok tl' => exact ⟨tl', rfl⟩
  | err e => exact absurd hl (h1 e)
  | panic =>
    exfalso
    have hnot : Timeline.load E o (sweep v (g ++ gone)).tree ≠ .panic := by rw [hload]; simp
    obtain ⟨m, hm, ts, a, hd, hname, hbad⟩ := h2.1 hl
    apply hnot
    refine (C03_load_never_crashes_partial E o _).2.2 ?_
    refine ⟨m, ?_, ts, a, hd, hname, hbad⟩
    obtain ⟨⟨n, size⟩, he, rfl⟩ := List.mem_map.1 hm
    refine List.mem_map.2 ⟨(n, size), (sweep_files hi).2 ⟨((sweep_files hi).1 he).1, ?_⟩, rfl⟩
    have hsegs : inPartition c!".hoodie" n = [c!".hoodie", n] := by
      unfold inPartition; rw [show pathSegs c!".hoodie" = [c!".hoodie"] by decide]; rfl
    rw [hsegs]
    intro hmem
    rcases List.mem_append.1 hmem with hmem | hmem
    · obtain ⟨j, hj, k, token, hk, _, h | ⟨l, hl, h⟩⟩ := hg.each _ hmem
      · obtain ⟨d1, hjob⟩ := hi.jobOf hj
        exact inPartition_apart (hjob.sites _ hk) h.symm
      · obtain ⟨d1, hjob⟩ := hi.jobOf hj
        exact inPartition_apart (hjob.sites _ hk) h.symm
    · obtain ⟨j, hj, _, _, e⟩ := ht _ hmem
      simp only [instantAt, List.cons.injEq, and_true, true_and] at e
      obtain ⟨d1, hjob⟩ := hi.jobOf hj
      change n = _ ∨ n = _ at hname
      rw [e] at hname
      obtain ⟨rfl, _⟩ := completed_name (digits_part hjob.time.1).2.2.1 hd hname
      obtain ⟨d, hp⟩ := hjob.parses
      have : parseDatetime S.ltz j.commit.ts S.tz ≠ .panic := by rw [hp]; simp
      rw [Ne, parseDatetime_panic, splitAtByte_none] at this
      exact this hbad

/-- Commits from `r` on and replacecommits are not archived. -/
theorem trimmed_spares {S : Setting} {r : Str} {v : Work} {a : List (List Str)} (hi : Inv S v) (ht : Trimmed r v a)
    {c : HCommit} (hc : WriterTimestamp c.ts) (h : c.action = .replaceCommit ∨ (compare r c.ts).isLE) :
    instantAt c ∉ a := by
  intro hm
  obtain ⟨j, hj, h1, h2, e⟩ := ht _ hm
  obtain ⟨d1, hjob⟩ := hi.jobOf hj
  obtain ⟨e1, e2⟩ := instantAt_inj hc hjob.time.1 e
  rcases h with h | h
  · exact h2 (by rw [← e2, h])
  · rw [← e1] at h1
    rw [Std.OrientedCmp.eq_swap (cmp := (compare : Str → Str → Ordering)), h1] at h
    cases h

theorem keeps_trimmed {S : Setting} {r q : Str} {v : Work} {g a : List (List Str)} (hi : Inv S v) (hg : Swept S r v g)
    (ht : Trimmed q v a) (hq : ∀ c, v.history.getLast? = some c → (compare q c.ts).isLE) : KeepsLast v (g ++ a) := by
  constructor
  · intro c hc h hm
    rcases List.mem_append.1 hm with hm | hm
    · exact old_instant (c := c) hi (hg.old hm)
    · exact trimmed_spares hi ht (hi.wf.times c hc).1 (.inl h) hm
  · intro c hc hm
    rcases List.mem_append.1 hm with hm | hm
    · exact old_instant (c := c) hi (hg.old hm)
    · exact trimmed_spares hi ht (hi.wf.times c (List.mem_of_getLast? hc)).1 (.inr (hq c hc)) hm

/-- What has been cleaned and archived is what has been cleaned, outside the timeline. -/
theorem trim_files {S : Setting} {r : Str} {v : Work} {g a : List (List Str)} (hi : Inv S v) (ht : Trimmed r v a)
    {x : Str} (hx : PartitionPath S.o x) {f : Str × Nat} :
    f ∈ filesOf (sweep v (g ++ a)).tree x ↔ f ∈ filesOf (sweep v g).tree x := by
  rw [sweep_files hi, sweep_files hi]
  constructor
  · rintro ⟨h1, h2⟩; exact ⟨h1, fun h => h2 (List.mem_append_left _ h)⟩
  · rintro ⟨h1, h2⟩
    refine ⟨h1, fun h => ?_⟩
    rcases List.mem_append.1 h with h | h
    · exact h2 h
    · obtain ⟨j, _, _, _, e⟩ := ht _ h
      exact inPartition_apart (site_of_path hi hx h1) e

theorem trim_base {S : Setting} {r : Str} {v : Work} {g a : List (List Str)} (hi : Inv S v) (ht : Trimmed r v a)
    {x : Str} (hx : PartitionPath S.o x) {b : BaseFile} :
    BaseIn (filesOf (sweep v (g ++ a)).tree x) b ↔ BaseIn (filesOf (sweep v g).tree x) b := by
  unfold BaseIn; simp only [trim_files hi ht hx]

theorem trim_log {S : Setting} {r : Str} {v : Work} {g a : List (List Str)} (hi : Inv S v) (ht : Trimmed r v a)
    {x : Str} (hx : PartitionPath S.o x) {l : LogFile} :
    LogIn (filesOf (sweep v (g ++ a)).tree x) l ↔ LogIn (filesOf (sweep v g).tree x) l := by
  unfold LogIn; simp only [trim_files hi ht hx]

theorem trim_fileAt {S : Setting} {v : Work} {g a : List (List Str)} (hi : Inv S v) {p : List Str} (hp : p ∉ a) :
    (sweep v (g ++ a)).tree.fileAt p = (sweep v g).tree.fileAt p := by
  by_cases h : p = []
  · subst h; rfl
  · show (treeOf _).fileAt p = (treeOf _).fileAt p
    rw [fileAt_treeOf (sweep_paths hi).nonempty h, fileAt_treeOf (sweep_paths hi).nonempty h]
    by_cases hg : p ∈ g
    · have e1 : (sweep v (g ++ a)).store.get p = none := by
        show (without v.store _).get p = _
        rw [get_without, if_pos (List.mem_append_left _ hg)]
      have e2 : (sweep v g).store.get p = none := by
        show (without v.store _).get p = _
        rw [get_without, if_pos hg]
      rw [e1, e2]
    · rw [get_sweep hg, get_sweep (fun h => (List.mem_append.1 h).elim hg hp)]

end Hudi
