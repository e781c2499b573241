import Verif.Lemmas.Faults
import Verif.Lemmas.Handout

/-! # Lemmas: what a handle's cache holds -/

namespace Hudi
open Spec

/-- Every cached slice is that of a base file which was listed in its partition at one of the moments. -/
def Sourced (o : Opts) (ts : List Tree) (c : Cache) : Prop :=
  ∀ x gs, (x, gs) ∈ c → ∀ g ∈ gs, ∀ k ∈ g.slices.map Prod.fst,
    ∃ t ∈ ts, PartitionOf o t x ∧ ∃ b, BaseIn (filesOf t x) b ∧ b.commitTimestamp = k

theorem Sourced.more {o : Opts} {ts : List Tree} {c : Cache} (h : Sourced o ts c) (t : Tree) :
    Sourced o (t :: ts) c := fun x gs hm g hg k hk => by
  obtain ⟨t', ht, r⟩ := h x gs hm g hg k hk
  exact ⟨t', by simp [ht], r⟩

theorem collectGroupF_keys {t : Tree} {ts : Str} {excl : List FileGroup} {g g' : FileGroup} {s : Option FileSlice}
    {F : Faults} {n n' : Nat} (h : collectGroupF t ts excl g F n = (n', .ok (g', s))) :
    ∀ k ∈ g'.slices.map Prod.fst, k ∈ g.slices.map Prod.fst := by
  unfold collectGroupF at h
  split at h
  · cases h; exact fun k hk => hk
  · cases hl : mapLastLe ts g.slices with
    | none => rw [hl] at h; cases h; exact fun k hk => hk
    | some e =>
      obtain ⟨k0, s0⟩ := e
      rw [hl] at h
      have hk0 : k0 ∈ g.slices.map Prod.fst := by
        unfold mapLastLe at hl
        exact List.mem_map.2 ⟨_, (List.mem_filter.1 (List.mem_of_getLast? hl)).1, rfl⟩
      replace h : Io.bind (s0.loadMetadataF t) (fun s' => Io.lift (.ok
        (({ g with slices := mapInsert k0 s' g.slices } : FileGroup), some s'))) F n = (n', .ok (g', s)) := h
      unfold Io.bind at h
      split at h
      · cases h
        intro k hk
        obtain ⟨e, he, rfl⟩ := List.mem_map.1 hk
        rcases mapInsert_keys_sub _ _ _ e he with he | he
        · rw [Std.LawfulEqOrd.eq_of_compare he]; exact hk0
        · exact List.mem_map.2 ⟨e, he, rfl⟩
      · cases h
      · cases h

theorem collectGroupsF_keys (t : Tree) (ts : Str) (excl : List FileGroup) (gs : List FileGroup) (F : Faults) (n : Nat) :
    ∀ g' ∈ (collectGroupsF t ts excl gs F n).2.1, ∃ g ∈ gs, ∀ k ∈ g'.slices.map Prod.fst, k ∈ g.slices.map Prod.fst := by
  induction gs generalizing n with
  | nil => intro g' hg; cases hg
  | cons g gs ih =>
    unfold collectGroupsF
    split
    · rename_i n' g1 s hg1
      intro g' hg'
      rcases List.mem_cons.1 hg' with rfl | hg'
      · exact ⟨g, by simp, collectGroupF_keys hg1⟩
      · obtain ⟨g2, h2, h3⟩ := ih n' g' hg'
        exact ⟨g2, by simp [h2], h3⟩
    · exact fun g' hg' => ⟨g', hg', fun k hk => hk⟩
    · exact fun g' hg' => ⟨g', hg', fun k hk => hk⟩

theorem collectSlicesF_entries (A : Arrow) (t : Tree) (ts : Str) (p : Pruner) (excl : List FileGroup) (F : Faults)
    (n : Nat) (c : Cache) : ∀ x gs', (x, gs') ∈ (collectSlicesF A t ts p excl F n c).2.1 → ∃ gs, (x, gs) ∈ c ∧
      ∀ g' ∈ gs', ∃ g ∈ gs, ∀ k ∈ g'.slices.map Prod.fst, k ∈ g.slices.map Prod.fst := by
  induction c generalizing n with
  | nil => intro x gs' h; cases h
  | cons e rest ih =>
    obtain ⟨path, gs⟩ := e
    have hsame : ∀ x gs', (x, gs') ∈ rest → ∃ gs1, (x, gs1) ∈ (path, gs) :: rest ∧
        ∀ g' ∈ gs', ∃ g ∈ gs1, ∀ k ∈ g'.slices.map Prod.fst, k ∈ g.slices.map Prod.fst :=
      fun x gs' h => ⟨gs', by simp [h], fun g' hg' => ⟨g', hg', fun k hk => hk⟩⟩
    have hlater : ∀ n x gs', (x, gs') ∈ (collectSlicesF A t ts p excl F n rest).2.1 → ∃ gs1, (x, gs1) ∈ (path, gs) :: rest ∧
        ∀ g' ∈ gs', ∃ g ∈ gs1, ∀ k ∈ g'.slices.map Prod.fst, k ∈ g.slices.map Prod.fst := by
      intro n x gs' h
      obtain ⟨gs1, h1, h2⟩ := ih n x gs' h
      exact ⟨gs1, by simp [h1], h2⟩
    unfold collectSlicesF
    split
    · intro x gs' h
      rcases List.mem_cons.1 h with h | h
      · cases h
        exact ⟨gs, by simp, fun g' hg' => ⟨g', hg', fun k hk => hk⟩⟩
      · exact hlater _ x gs' h
    · simp only
      split
      all_goals
        intro x gs' h
        rcases List.mem_cons.1 h with h | h
        · cases h
          exact ⟨gs, by simp, collectGroupsF_keys t ts excl gs F n⟩
        · first
          | exact hlater _ x gs' h
          | exact hsame x gs' h

theorem hmExtend_mem {c m : Cache} {e : Str × List FileGroup} (h : e ∈ hmExtend c m) : e ∈ m ∨ e ∈ c := by
  unfold hmExtend at h
  induction m generalizing c with
  | nil => exact .inr h
  | cons a m ih =>
    rcases ih h with h | h
    · exact .inl (by simp [h])
    · rcases hmInsert_mem h with h | h
      · exact .inl (by simp [h])
      · exact .inr h

theorem sourced_view {A : Arrow} {o : Opts} {t : Tree} {hist : List Tree} (hwf : TreeWF t) (ts : Str) (p : Pruner)
    (excl : List FileGroup) (F : Faults) (n : Nat) (c : Cache) (hc : Sourced o (t :: hist) c) :
    Sourced o (t :: hist) (viewSlicesAsOfF A o t ts p excl F n c).2.1 := by
  unfold viewSlicesAsOfF
  split
  · rename_i n' m hm
    have hm := (faithful_listRelevant A o t p).ok hm
    obtain ⟨hn, h1, _⟩ := listRelevant_ok hwf hm
    intro x gs' hx g' hg' k hk
    obtain ⟨gs, hgs, hkeys⟩ := collectSlicesF_entries A t ts p excl F n' _ x gs' hx
    obtain ⟨g, hg, hsub⟩ := hkeys g' hg'
    have hk := hsub k hk
    rcases hmExtend_mem hgs with hgs | hgs
    · obtain ⟨hpart, _, hlist⟩ := (h1 x gs).1 ((hmGet_eq_some hn).2 hgs)
      obtain ⟨_, hspec, _⟩ := listFileGroups_spec (hwf.at (pathSegs x)).files_nodup hlist
      obtain ⟨_, hsorted, hsl⟩ := hspec g hg
      obtain ⟨e, he, rfl⟩ := List.mem_map.1 hk
      obtain ⟨b, hb, _, hts, _⟩ := (hsl e.1 e.2).1 ((mapGet_eq_some hsorted).2 he)
      exact ⟨t, by simp, hpart, b, hb, hts⟩
    · exact hc x gs hgs g hg k hk
  · exact hc
  · exact hc

/-- The cache has `P` after the query if it has before. -/
def KeepsCache (P : Cache → Prop) {α : Type} (x : IoQuery α) : Prop := ∀ F n c, P c → P (x F n c).2.1

theorem keeps_lift {P : Cache → Prop} {α : Type} (x : Io α) : KeepsCache P (IoQuery.lift x) := fun _ _ _ h => h

theorem keeps_bind {P : Cache → Prop} {α β : Type} {x : IoQuery α} {f : α → IoQuery β} (hx : KeepsCache P x)
    (hf : ∀ a, KeepsCache P (f a)) : KeepsCache P (x >>= f) := by
  intro F n c hc
  show P (IoQuery.bind x f F n c).2.1
  have h := hx F n c hc
  unfold IoQuery.bind
  split
  · rename_i n' c' a he; rw [he] at h; exact hf _ _ _ _ h
  · rename_i n' c' e he; rw [he] at h; exact h
  · rename_i n' c' he; rw [he] at h; exact h

theorem keeps_internal {P : Cache → Prop} {E : Env} {A : Arrow} {tb : Table} {t : Tree}
    (hv : ∀ ts p excl, KeepsCache P (viewSlicesAsOfF A tb.opts t ts p excl)) (ts : Str) (fs : List Filter) :
    KeepsCache P (tb.fileSlicesInternalF E A t ts fs) :=
  keeps_bind (keeps_lift _) (fun _ => keeps_bind (keeps_lift _) (fun _ => keeps_bind (keeps_lift _) (fun _ => hv _ _ _)))

theorem keeps_query {P : Cache → Prop} {α : Type} {x : IoQuery α} {q : Query α} (h : KeepsCache P x) (hq : FaithfulQ x q)
    (c : Cache) (hc : P c) : P (q c).1 := by
  obtain ⟨m, _, h1, _⟩ := hq c 0
  have h2 := h noFaults 0 c hc
  have h1 : x noFaults 0 c = _ := h1 noFaults (fun _ _ _ => rfl)
  rw [h1] at h2
  exact h2

theorem keeps_latest {P : Cache → Prop} {tb : Table} {α : Type} (f : Str → IoQuery α) (d : α) (h : ∀ ts, KeepsCache P (f ts)) :
    KeepsCache P (match tb.timeline.latestTimestamp with
      | some ts => f ts
      | none => (pure d : IoQuery α)) := by
  cases tb.timeline.latestTimestamp with
  | none => exact fun _ _ _ h => h
  | some ts => exact h ts

/-- What every load of the cache keeps, every call keeps. -/
theorem run_keeps {E : Env} {A : Arrow} {C : Codec} {M : MergeEnv A} {tb : Table} {t : Tree} {P : Cache → Prop}
    (hv : ∀ ts p excl, KeepsCache P (viewSlicesAsOfF A tb.opts t ts p excl))
    (call : TableCall) (F : Faults) (c : Cache) (hc : P c) : P (call.run E A C M tb t F c).2.1 := by
  have hint := keeps_internal (E := E) hv
  have hs : ∀ {α : Type} (g : List Filter → IoQuery α) (fs : List (Str × Str × Str)),
      (∀ l, KeepsCache P (g l)) → KeepsCache P (IoQuery.lift (Io.lift (fromStrTuples fs)) >>= g) :=
    fun g fs h => keeps_bind (keeps_lift _) h
  cases call with
  | slices fs => exact keeps_latest _ [] (fun ts => hs _ fs (fun l => hint ts l)) F 0 c hc
  | slicesAsOf ts fs => exact hs _ fs (fun l => hint ts l) F 0 c hc
  | splits k fs =>
    exact keeps_latest _ [] (fun ts => hs (tb.fileSlicesSplitsInternalF E A t k ts) fs
      (fun l => keeps_bind (hint ts l) (fun _ => keeps_lift _))) F 0 c hc
  | splitsAsOf k ts fs =>
    exact hs (tb.fileSlicesSplitsInternalF E A t k ts) fs (fun l => keeps_bind (hint ts l) (fun _ => keeps_lift _)) F 0 c hc
  | slicesBetween start stop => exact hc
  | snapshot fs =>
    exact keeps_latest _ [] (fun ts => hs (tb.readSnapshotInternalF E A C M t ts) fs
      (fun l => keeps_bind (hint ts l) (fun _ => keeps_lift _))) F 0 c hc
  | snapshotAsOf ts fs =>
    exact hs (tb.readSnapshotInternalF E A C M t ts) fs (fun l => keeps_bind (hint ts l) (fun _ => keeps_lift _)) F 0 c hc
  | incremental start stop => exact hc
  | schema => exact hc
  | partitionSchema => exact hc
  | avroSchema => exact hc
  | readSlice options s => exact hc

theorem sourced_calls {E : Env} {A : Arrow} {C : Codec} {M : MergeEnv A} {tb : Table} {hist : List Tree}
    {c : Cache} (h : CacheAfterCalls E A C M tb hist c) (hwf : ∀ t ∈ hist, TreeWF t) : Sourced tb.opts hist c := by
  induction h with
  | opened => intro x gs hx; cases hx
  | call t call F _ ih =>
    exact run_keeps (P := Sourced tb.opts _) (fun ts p excl F n c hc => sourced_view (hwf t (by simp)) ts p excl F n c hc) call F _
      ((ih (fun t ht => hwf t (by simp [ht]))).more t)

theorem sourced_queries {E : Env} {A : Arrow} {tb : Table} {hist : List Tree} {c : Cache}
    (h : CacheAfter E A tb hist c) (hwf : ∀ t ∈ hist, TreeWF t) : Sourced tb.opts hist c := by
  induction h with
  | opened => intro x gs hx; cases hx
  | @query hist c t q _ ih =>
    have hc := (ih (fun t ht => hwf t (by simp [ht]))).more t
    have hint := keeps_internal (P := Sourced tb.opts (t :: hist)) (E := E) (A := A) (tb := tb) (t := t)
      (fun ts p excl F n c hc => sourced_view (hwf t (by simp)) ts p excl F n c hc)
    have hs : ∀ {α : Type} (g : List Filter → IoQuery α) (fs : List (Str × Str × Str)),
        (∀ l, KeepsCache (Sourced tb.opts (t :: hist)) (g l)) →
        KeepsCache (Sourced tb.opts (t :: hist)) (IoQuery.lift (Io.lift (fromStrTuples fs)) >>= g) :=
      fun g fs h => keeps_bind (keeps_lift _) h
    cases q with
    | latest fs =>
      exact keeps_query (keeps_latest _ [] (fun ts => hs _ fs (fun l => hint ts l))) (faithful_fileSlices E A tb t fs) c hc
    | asOf ts fs => exact keeps_query (hs _ fs (fun l => hint ts l)) (faithful_fileSlicesAsOf E A tb t ts fs) c hc
    | splits k fs =>
      exact keeps_query (keeps_latest _ [] (fun ts => hs (tb.fileSlicesSplitsInternalF E A t k ts) fs
        (fun l => keeps_bind (hint ts l) (fun _ => keeps_lift _)))) (faithful_splits E A tb t k fs) c hc
    | splitsAsOf k ts fs =>
      exact keeps_query (hs (tb.fileSlicesSplitsInternalF E A t k ts) fs
        (fun l => keeps_bind (hint ts l) (fun _ => keeps_lift _))) (faithful_splitsAsOf E A tb t k ts fs) c hc

/-- A cached partition is on the storage, or has no base file up to `ts`. -/
def NoStale (o : Opts) (t : Tree) (ts : Str) (c : Cache) : Prop :=
  ∀ x gs, (x, gs) ∈ c → PartitionOf o t x ∨ ∀ g ∈ gs, mapLastLe ts g.slices = none

theorem noStale_nil {o : Opts} {t : Tree} {ts : Str} : NoStale o t ts [] := fun _ _ h => nomatch h

/-- When the partitions in which a base file up to `ts` was seen are still there, nothing in the cache is stale. -/
theorem Sourced.noStale {o : Opts} {hist : List Tree} {c : Cache} (h : Sourced o hist c) {t : Tree} {ts : Str}
    (hkeep : StillThere o hist t ts) : NoStale o t ts c := by
  intro x gs hx
  by_cases hp : PartitionOf o t x
  · exact .inl hp
  · refine .inr (fun g hg => mapLastLe_eq_none.2 (fun e he => ?_))
    obtain ⟨t', ht', hp', b, hb, hk⟩ := h x gs hx g hg e.1 (List.mem_map.2 ⟨e, he, rfl⟩)
    cases hc : compare e.1 ts with
    | gt => rfl
    | lt => exact absurd (hkeep t' ht' x hp' b hb (by rw [hk, hc]; rfl)) hp
    | eq => exact absurd (hkeep t' ht' x hp' b hb (by rw [hk, hc]; rfl)) hp

theorem flatten_mapL_nothing {α β : Type} {f : α → Res (List β)} {l : List α} (h : ∀ a ∈ l, f a = .ok []) :
    ∃ r, Res.mapL f l = .ok r ∧ r.flatten = [] := by
  induction l with
  | nil => exact ⟨[], rfl, rfl⟩
  | cons a l ih =>
    obtain ⟨r, h1, h2⟩ := ih (fun b hb => h b (by simp [hb]))
    exact ⟨[] :: r, Res.mapL_cons_ok.2 ⟨[], r, h a (by simp), h1, rfl⟩, by simpa using h2⟩

open Classical in
/-- The file groups looked at are those just listed, and others with the property, if it holds of the cached file groups
of the partitions that have not been listed. -/
theorem included_others {A : Arrow} (Q : FileGroup → Prop) {p : Pruner} {m c : Cache} (hn : HmNodup m) (hc : HmNodup c)
    (hk : ∀ x gs, (x, gs) ∈ c → p.shouldInclude A x = true → (∃ gs', (x, gs') ∈ m) ∨
      ∀ g ∈ gs, Q g) :
    ∃ stale, (included A p (hmExtend c m)).Perm (included A p m ++ stale) ∧
      ∀ g ∈ stale, Q g := by
  have hnd' : ((hmExtend c m).filter (fun e => p.shouldInclude A e.1)).Nodup :=
    (List.Nodup.of_map Prod.fst (hmExtend_nodup hc)).filter _
  have hget : ∀ x gs, (x, gs) ∈ m → hmGet x (hmExtend c m) = some gs := by
    intro x gs hx
    have hrev : HmNodup m.reverse := by
      unfold HmNodup
      rw [List.map_reverse]
      exact List.nodup_reverse.2 hn
    rw [hmGet_hmExtend, (hmGet_eq_some hrev).2 (List.mem_reverse.2 hx)]
    rfl
  refine ⟨(((hmExtend c m).filter (fun e => p.shouldInclude A e.1)).filter (fun e => !decide (e ∈ m))).flatMap Prod.snd,
    ?_, ?_⟩
  · unfold included
    rw [← List.flatMap_append]
    refine List.Perm.flatMap_right _ ?_
    refine (List.filter_append_perm (fun e => decide (e ∈ m)) _).symm.trans (List.Perm.append_right _ ?_)
    refine (List.perm_ext_iff_of_nodup (hnd'.filter _) ((List.Nodup.of_map Prod.fst hn).filter _)).2 (fun e => ?_)
    obtain ⟨x, gs⟩ := e
    simp only [List.mem_filter, decide_eq_true_eq]
    constructor
    · rintro ⟨⟨_, h4⟩, h5⟩; exact ⟨h5, h4⟩
    · rintro ⟨h5, h4⟩; exact ⟨⟨(hmGet_eq_some (hmExtend_nodup hc)).1 (hget x gs h5), h4⟩, h5⟩
  · intro g hg
    obtain ⟨⟨x, gs⟩, he, hg⟩ := List.mem_flatMap.1 hg
    simp only [List.mem_filter, Bool.not_eq_true', decide_eq_false_iff_not] at he
    obtain ⟨⟨he, hi⟩, hnm⟩ := he
    rcases hmExtend_mem he with he' | he'
    · exact absurd he' hnm
    · rcases hk x gs he' hi with ⟨gs', hx⟩ | hp
      · have := hget x gs' hx
        rw [(hmGet_eq_some (hmExtend_nodup hc)).2 he] at this
        cases this
        exact absurd hx hnm
      · exact hp g hg

/-- The file groups looked at are those just listed, and others of which no slice is up to `ts`. -/
theorem included_stale {A : Arrow} {ts : Str} {p : Pruner} {m c : Cache} (hn : HmNodup m) (hc : HmNodup c)
    (hk : ∀ x gs, (x, gs) ∈ c → p.shouldInclude A x = true → (∃ gs', (x, gs') ∈ m) ∨
      ∀ g ∈ gs, mapLastLe ts g.slices = none) :
    ∃ stale, (included A p (hmExtend c m)).Perm (included A p m ++ stale) ∧
      ∀ g ∈ stale, mapLastLe ts g.slices = none :=
  included_others (fun g => mapLastLe ts g.slices = none) hn hc hk

/-- The file groups looked at are those on the storage, and others of which no slice is up to `ts`. -/
theorem included_harmless {A : Arrow} {o : Opts} {t : Tree} {ts : Str} {p : Pruner} {m c : Cache} (h : TreeWF t)
    (hm : listRelevant A o t p = .ok m) (hc : HmNodup c) (hk : NoStale o t ts c) :
    ∃ stale, (included A p (hmExtend c m)).Perm (included A p m ++ stale) ∧
      ∀ g ∈ stale, mapLastLe ts g.slices = none := by
  obtain ⟨hn, h1, h2⟩ := listRelevant_ok h hm
  refine included_stale hn hc (fun x gs hx hi => (hk x gs hx).imp_left (fun hp => ?_))
  obtain ⟨gs', hgs'⟩ := h2 x hp (fun _ => hi)
  exact ⟨gs', hmGet_mem ((h1 x gs').2 ⟨hp, fun _ => hi, hgs'⟩)⟩

/-- What a query sees does not depend on the cache when nothing in it is stale. -/
theorem internal_cache_harmless {E : Env} {A : Arrow} {tb : Table} {t : Tree} {ts : Str}
    {fs : List Filter} {c c' : Cache} (hwf : TreeWF t) (hc : HmNodup c) (hc' : HmNodup c')
    (hk : NoStale tb.opts t ts c) (hk' : NoStale tb.opts t ts c') {ss : List FileSlice}
    (hq : (tb.fileSlicesInternal E A t ts fs c).2 = .ok ss) :
    ∃ ss', (tb.fileSlicesInternal E A t ts fs c').2 = .ok ss' ∧ ss.Perm ss' := by
  obtain ⟨excl, schema, p, h1, h2, h3, h4⟩ := fileSlicesInternal_ok.1 hq
  obtain ⟨m, r, hm, hr, rfl⟩ := viewSlicesAsOf_ok.1 h4
  have hnone : ∀ stale : List FileGroup, (∀ g ∈ stale, mapLastLe ts g.slices = none) →
      ∀ g ∈ stale, pickGroup t ts excl g = .ok [] := by
    intro stale hst g hg
    unfold pickGroup collectGroup
    rw [hst g hg]
    split <;> rfl
  obtain ⟨st, hp, hst⟩ := included_harmless hwf hm hc hk
  obtain ⟨st', hp', hst'⟩ := included_harmless hwf hm hc' hk'
  obtain ⟨r1, hr1, hpr1⟩ := mapL_perm hp hr
  obtain ⟨a, b, ha, hb, rfl⟩ := Res.mapL_append_ok.1 hr1
  obtain ⟨b0, hb0, hf0⟩ := flatten_mapL_nothing (hnone st hst)
  rw [hb] at hb0; cases hb0
  obtain ⟨b', hb', hf'⟩ := flatten_mapL_nothing (hnone st' hst')
  obtain ⟨r2, hr2, hpr2⟩ := mapL_perm hp'.symm (Res.mapL_append_ok.2 ⟨a, b', ha, hb', rfl⟩)
  refine ⟨r2.flatten, fileSlicesInternal_ok.2 ⟨excl, schema, p, h1, h2, h3,
    viewSlicesAsOf_ok.2 ⟨m, r2, hm, hr2, rfl⟩⟩, ?_⟩
  have e1 := hpr1.flatten
  have e2 := hpr2.flatten
  rw [List.flatten_append, hf0, List.append_nil] at e1
  rw [List.flatten_append, hf', List.append_nil] at e2
  exact e1.trans e2

end Hudi
