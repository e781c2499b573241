import Verif.Spec.Serial
import Verif.Lemmas.Service
import Verif.Lemmas.Objects

/-! # Lemmas for C100 -/

namespace Hudi
open Spec

/-- The requests of a write that is alone, one after the other. -/
theorem requests_alone {S : Setting} (j : Job) (qs : List Request) :
    ∀ (s : Work) (ran : List Request), s.current = [⟨j, ran, none, []⟩] → (∀ q ∈ qs, q ∈ j.requests s.history) →
      Works S s { s with store := qs.foldl (fun st q => q.run st) s.store,
                         current := [⟨j, qs.reverse ++ ran, none, []⟩] } := by
  induction qs with
  | nil =>
    intro s ran hc _
    have e : s = { s with store := s.store, current := [⟨j, [] ++ ran, none, []⟩] } := by cases s; cases hc; rfl
    exact e ▸ .refl s
  | cons q qs ih =>
    intro s ran hc hq
    have h1 : WorkStep S s { s with store := q.run s.store, current := [⟨j, q :: ran, none, []⟩] } :=
      alone_request s ⟨j, ran, none, []⟩ q hc rfl (hq q (by simp))
    have h2 := ih { s with store := q.run s.store, current := [⟨j, q :: ran, none, []⟩] } (q :: ran) rfl
      (fun q' h => hq q' (by simp [h]))
    have h3 := works_then (.step (.refl s) h1) h2
    simpa using h3

/-- A write that nobody interrupts. -/
theorem make_works {S : Setting} {s : Work} {j : Job} (hc : s.current = []) (hf : Fresh s j.commit.ts)
    (hj : JobOk S s.done j) : Works S s (s.make j) := by
  have h1 := alone_begin s j hc hf hj
  have h2 := requests_alone (S := S) j (j.requests s.history)
    { s with current := [⟨j, [], none, []⟩], used := j.commit.ts :: s.used } [] rfl (fun q h => h)
  have h3 := alone_complete (S := S)
    { s with store := (j.requests s.history).foldl (fun st q => q.run st) s.store,
             current := [⟨j, (j.requests s.history).reverse ++ [], none, []⟩], used := j.commit.ts :: s.used }
    ⟨j, (j.requests s.history).reverse ++ [], none, []⟩ rfl rfl (fun q h => by
      have h' : q ∈ j.requests s.history := h
      simp [h'])
  have h4 : Works S s _ := .step (works_then (.step (.refl s) h1) h2) h3
  unfold Work.make
  rw [hc]
  exact h4

/-- Blocks in log files are of writes that have completed. -/
def LogsDone (st : Objects) (js : List Job) : Prop :=
  ∀ p ws w, st.get p = some (.log ws) → w ∈ ws → ∃ j ∈ js, WrittenBy w j.commit.ts

theorem logsDone_run {st : Objects} {js : List Job} {q : Request} (h : LogsDone st js)
    (hq : ∀ p ws, q = .append p ws → ∀ w ∈ ws, ∃ j ∈ js, WrittenBy w j.commit.ts) : LogsDone (q.run st) js := by
  intro p ws w hg hw
  rw [get_run] at hg
  split at hg
  · cases q with
    | put p' c => cases hg
    | delete p' => cases hg
    | append p' ws' =>
      simp only [Request.result, Option.some.injEq, Stored.log.injEq] at hg
      rw [← hg] at hw
      rcases List.mem_append.1 hw with h' | h'
      · cases ho : st.get (Request.append p' ws').path with
        | none => rw [ho] at h'; cases h'
        | some x =>
          rw [ho] at h'
          cases x with
          | file c => cases h'
          | log ws'' => exact h _ _ _ ho h'
      · exact hq _ _ rfl w h'
  · exact h _ _ _ hg hw

/-- One writer that makes the writes one after the other. -/
theorem oneByOne_works {S : Setting} (js : List Job) :
    (∀ d1 j d2, js = d1 ++ j :: d2 → JobOk S d1 j) →
    Works S nothingYet (oneByOne js) ∧ (oneByOne js).done = js ∧ (oneByOne js).current = [] ∧
      (∀ u ∈ (oneByOne js).used, ∃ j ∈ js, j.commit.ts = u) ∧ LogsDone (oneByOne js).store js := by
  induction js using List.reverseRecOn with
  | nil =>
    intro _
    refine ⟨.refl _, rfl, rfl, ?_, ?_⟩
    · intro u hu
      cases hu
    · intro p ws w h
      cases h
  | append_singleton js j ih =>
    intro h
    obtain ⟨h1, h2, h3, h4, h5⟩ := ih (fun d1 j' d2 e => h d1 j' (d2 ++ [j]) (by rw [e]; simp))
    have hj := h js j [] rfl
    have e : oneByOne (js ++ [j]) = (oneByOne js).make j := by simp [oneByOne]
    rw [e]
    refine ⟨works_then h1 (make_works h3 ?_ (h2.symm ▸ hj)), ?_, h3, ?_, ?_⟩
    · intro u hu
      obtain ⟨j', hj', rfl⟩ := h4 u hu
      exact hj.later j' hj'
    · show (oneByOne js).done ++ [j] = _
      rw [h2]
    · intro u hu
      rcases List.mem_cons.1 hu with rfl | hu
      · exact ⟨j, by simp, rfl⟩
      · obtain ⟨j', hj', e'⟩ := h4 u hu
        exact ⟨j', by simp [hj'], e'⟩
    · have h0 : LogsDone (oneByOne js).store (js ++ [j]) := fun p ws w hg hw => by
        obtain ⟨j', a, b⟩ := h5 p ws w hg hw
        exact ⟨j', by simp [a], b⟩
      refine logsDone_run ?_ (fun p ws e => nomatch e)
      have hh : (oneByOne js).history = commitsOf js := by unfold Work.history; rw [h2]
      rw [hh]
      have hqs : ∀ q ∈ j.requests (commitsOf js), ∀ p ws, q = Request.append p ws → ∀ w ∈ ws,
          ∃ j' ∈ js ++ [j], WrittenBy w j'.commit.ts := by
        intro q hq p ws e w hw
        unfold Job.requests at hq
        obtain ⟨⟨k, ch⟩, hk, hq⟩ := List.mem_flatMap.1 hq
        cases ch with
        | write token => simp only [List.mem_singleton] at hq; rw [hq] at e; cases e
        | replace => cases hq
        | append ls =>
          dsimp only at hq
          split at hq
          · rename_i v hv
            obtain ⟨l, hl, rfl⟩ := List.mem_map.1 hq
            cases e
            exact ⟨j, by simp, (hj.blocks k ls v hk hv l hl w hw).2.1⟩
          · cases hq
      generalize (oneByOne js).store = st at h0
      generalize j.requests (commitsOf js) = qs at hqs
      induction qs generalizing st with
      | nil => exact h0
      | cons q qs ih =>
        exact ih (q.run st) (logsDone_run h0 (hqs q (by simp))) (fun q' h' => hqs q' (by simp [h']))

/-- What is read is determined, up to the order. -/
theorem batches_perm {A : Arrow} {pre : Str} {keys : GroupKey → Prop} {table : GroupKey → Option Version}
    {cols : Columns} {rowOf : Schema → GroupKey → List Cell → Prop} {ks ks' : List GroupKey} {outs outs' : List Batch}
    (hn : ks.Nodup) (hn' : ks'.Nodup) (hk : ∀ k, k ∈ ks ↔ keys k) (hk' : ∀ k, k ∈ ks' ↔ keys k)
    (h : List.Forall₂ (fun k out => ∃ v rows, table k = some v ∧ out.schema = cols v.base k ∧
      (∀ r, r ∈ rows ↔ rowOf (cols v.base k) k r) ∧ LatestVersions A (cols v.base k) pre rows out.rows) ks outs)
    (h' : List.Forall₂ (fun k out => ∃ v rows, table k = some v ∧ out.schema = cols v.base k ∧
      (∀ r, r ∈ rows ↔ rowOf (cols v.base k) k r) ∧ LatestVersions A (cols v.base k) pre rows out.rows) ks' outs')
    (hu : ∀ k v, table k = some v → ∀ r r', rowOf (cols v.base k) k r → rowOf (cols v.base k) k r' →
      keyOf (cols v.base k) r = keyOf (cols v.base k) r' → VersionLE A (cols v.base k) pre r r' →
      VersionLE A (cols v.base k) pre r' r → r = r') :
    (rowsWithColumns outs).Perm (rowsWithColumns outs') := by
  obtain ⟨f, rfl, hf⟩ := forall₂_function h hn ⟨[], []⟩
  obtain ⟨f', rfl, hf'⟩ := forall₂_function h' hn' ⟨[], []⟩
  have hp : ks.Perm ks' := by
    rw [List.perm_ext_iff_of_nodup hn hn']
    exact fun k => (hk k).trans (hk' k).symm
  unfold rowsWithColumns
  rw [List.flatMap_map, List.flatMap_map]
  refine (List.Perm.flatMap_left ks fun k hk => ?_).trans (hp.flatMap_right _)
  obtain ⟨v, rows, a1, a2, a3, a4⟩ := hf k hk
  obtain ⟨v', rows', b1, b2, b3, b4⟩ := hf' k (hp.mem_iff.1 hk)
  rw [a1] at b1
  cases b1
  rw [a2, b2]
  exact (latest_unique a4 b4 (fun r => (a3 r).trans (b3 r).symm)
    (fun r hr r' hr' => hu k v a1 r r' ((a3 r).1 hr) ((a3 r').1 hr'))).map _

end Hudi
