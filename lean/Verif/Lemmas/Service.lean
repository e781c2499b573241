import Verif.Spec.Service
import Verif.Lemmas.Mirror
import Verif.Lemmas.Tail
import Verif.Lemmas.Writer
import Mathlib.Data.List.Perm.Basic
import Mathlib.Tactic.Common

/-! # Lemmas for C99 -/

namespace Hudi
open Spec

/-- The latest versions are determined. -/
theorem latest_unique {A : Arrow} {schema : Schema} {pre : Str} {rows rows' a b : List (List Cell)}
    (ha : LatestVersions A schema pre rows a) (hb : LatestVersions A schema pre rows' b)
    (he : ∀ r, r ∈ rows ↔ r ∈ rows')
    (hu : ∀ r ∈ rows, ∀ r' ∈ rows, keyOf schema r = keyOf schema r' → VersionLE A schema pre r r' →
      VersionLE A schema pre r' r → r = r') : a.Perm b := by
  rw [List.perm_ext_iff_of_nodup (List.Nodup.of_map _ ha.one) (List.Nodup.of_map _ hb.one)]
  intro r
  constructor
  · intro h
    obtain ⟨r', h1, h2⟩ := hb.all r ((he r).1 (ha.sound r h))
    have h3 := (he r').2 (hb.sound r' h1)
    rw [hu r (ha.sound r h) r' h3 h2.symm (hb.latest r' h1 r ((he r).1 (ha.sound r h)) h2.symm)
      (ha.latest r h r' h3 h2)]
    exact h1
  · intro h
    have h0 := (he r).2 (hb.sound r h)
    obtain ⟨r', h1, h2⟩ := ha.all r h0
    have h3 := ha.sound r' h1
    rw [hu r h0 r' h3 h2.symm (ha.latest r' h1 r h0 h2.symm) (hb.latest r h r' ((he r').1 h3) h2)]
    exact h1

theorem forall₂_function {α β : Type} {R : α → β → Prop} {ks : List α} {os : List β} (h : List.Forall₂ R ks os)
    (hn : ks.Nodup) (d : β) : ∃ f : α → β, os = ks.map f ∧ ∀ k ∈ ks, R k (f k) := by
  classical
  induction h with
  | nil => exact ⟨fun _ => d, rfl, by simp⟩
  | @cons k o ks os h _ ih =>
    obtain ⟨f, h1, h2⟩ := ih (List.nodup_cons.1 hn).2
    have hne : ∀ k' ∈ ks, k' ≠ k := fun k' hk e => (List.nodup_cons.1 hn).1 (e ▸ hk)
    refine ⟨fun x => if x = k then o else f x, ?_, ?_⟩
    · rw [List.map_cons, if_pos rfl, h1]
      exact congrArg _ (List.map_congr_left fun k' hk => (if_neg (hne k' hk)).symm)
    · intro k' hk
      rcases List.mem_cons.1 hk with rfl | hk
      · simpa using h
      · simpa [hne k' hk] using h2 k' hk

theorem forall₂_right {α β : Type} {R : α → β → Prop} {ks : List α} {os : List β} (h : List.Forall₂ R ks os) {o : β}
    (ho : o ∈ os) : ∃ k, R k o := by
  induction h with
  | nil => cases ho
  | cons h _ ih =>
    rcases List.mem_cons.1 ho with rfl | ho
    · exact ⟨_, h⟩
    · exact ih ho

/-- The latest versions of all records in the partitions `parts`. -/
def Contents (A : Arrow) (pre : Str) (js : List Job) (parts : Str → Prop) (l : List (Str × Schema × List Cell)) : Prop :=
  ∃ (ks : List GroupKey) (latest : GroupKey → List (List Cell)), ks.Nodup ∧
    (∀ k, k ∈ ks ↔ parts k.1 ∧ versionAfter (commitsOf js) k ≠ none) ∧
    (∀ k ∈ ks, LatestVersions A (columnsNow js k) pre (recordsNow js k) (latest k)) ∧
    l = ks.flatMap (fun k => tagged k.1 (columnsNow js k) (latest k))

theorem contents_of_read {A : Arrow} {pre : Str} {js : List Job} {parts : Str → Prop} {outs : List Batch}
    (h : ReadsEvolving A (columnsBy js) pre (versionAfter (commitsOf js)) parts
      (fun k r => r ∈ recordsAfter (rowsOf js) (commitsOf js) k) outs) :
    ∃ l, Contents A pre js parts l ∧ rowsWithColumns outs = l.map Prod.snd := by
  obtain ⟨ks, h1, h2, h3⟩ := h
  obtain ⟨f, rfl, h4⟩ := forall₂_function h3 h1 ⟨[], []⟩
  have hcol : ∀ k ∈ ks, (f k).schema = columnsNow js k ∧
      LatestVersions A (columnsNow js k) pre (recordsNow js k) (f k).rows := by
    intro k hk
    obtain ⟨v, rows, e1, e2, e3, e4⟩ := h4 k hk
    have e : columnsNow js k = columnsBy js v.base k := by unfold columnsNow; rw [e1]; rfl
    rw [e]
    refine ⟨e2, fun r hr => (e3 r).1 (e4.sound r hr), e4.one, fun r hr => e4.all r ((e3 r).2 hr),
      fun r hr r' hr' => e4.latest r hr r' ((e3 r').2 hr')⟩
  refine ⟨_, ⟨ks, fun k => (f k).rows, h1, h2, fun k hk => (hcol k hk).2, rfl⟩, ?_⟩
  unfold rowsWithColumns
  clear h1 h2 h3 h4
  induction ks with
  | nil => rfl
  | cons k ks ih =>
    simp only [List.map_cons, List.flatMap_cons, List.map_append]
    rw [ih (fun k hk => hcol k (by simp [hk])), (hcol k (by simp)).1]
    simp [tagged, Function.comp_def]

theorem contents_unique {A : Arrow} {pre : Str} {js : List Job} {parts : Str → Prop}
    {l l' : List (Str × Schema × List Cell)} (hu : NoTies A pre js) (h : Contents A pre js parts l)
    (h' : Contents A pre js parts l') : l.Perm l' := by
  obtain ⟨ks, f, h1, h2, h3, rfl⟩ := h
  obtain ⟨ks', f', h1', h2', h3', rfl⟩ := h'
  have hp : ks.Perm ks' := by
    rw [List.perm_ext_iff_of_nodup h1 h1']
    exact fun k => (h2 k).trans (h2' k).symm
  refine (List.Perm.flatMap_left ks fun k hk => ?_).trans (hp.flatMap_right _)
  exact (latest_unique (h3 k hk) (h3' k (hp.mem_iff.1 hk)) (fun _ => Iff.rfl) (hu k)).map _

/-- What later writes have written does not show in what was there before. -/
theorem recordsNow_append {js more : List Job} (k : GroupKey) :
    recordsAfter (rowsOf (js ++ more)) (commitsOf js) k = recordsNow js k := by
  refine recordsAfter_same fun c hc => ?_
  obtain ⟨j, hj, rfl⟩ := mem_commitsOf.1 hc
  unfold rowsOf
  simp only [jobAt_append ⟨j, hj, rfl⟩, and_self]

theorem jobAt_last {S : Setting} {js : List Job} {j : Job} (hj : JobOk S js j) : jobAt (js ++ [j]) j.commit.ts = some j := by
  unfold jobAt
  rw [List.find?_append, List.find?_eq_none.2]
  · simp
  · intro j' h
    simp only [decide_eq_true_eq]
    intro e
    have := hj.later j' h
    rw [e, Std.ReflOrd.compare_self] at this
    cases this

theorem works_then {S : Setting} {a b c : Work} (h1 : Works S a b) (h2 : Works S b c) : Works S a c := by
  induction h2 with
  | refl => exact h1
  | step _ hs ih => exact .step ih hs

theorem upto_last {h : History} {n : Nat} (hw : h.WF n) {c c' : HCommit} (hl : h.getLast? = some c) (hc : c' ∈ h) :
    (compare c'.ts c.ts).isLE := by
  obtain ⟨h0, rfl⟩ : ∃ h0, h = h0 ++ [c] := List.getLast?_eq_some_iff.1 hl
  rcases List.mem_append.1 hc with hc | hc
  · rw [(List.pairwise_append.1 hw.ordered).2.2 c' hc c (by simp)]; rfl
  · rw [List.mem_singleton.1 hc, Std.ReflCmp.compare_self (cmp := (compare : Str → Str → Ordering))]; rfl

/-! ## One more write -/

theorem now_other (js : List Job) {j : Job} {k : GroupKey} (h : ∀ ch, (k, ch) ∉ j.commit.changes) :
    versionAfter (commitsOf (js ++ [j])) k = versionAfter (commitsOf js) k ∧ columnsNow (js ++ [j]) k = columnsNow js k ∧
      recordsNow (js ++ [j]) k = recordsNow js k := by
  have hc : j.commit.changeOf k = none := by
    cases hc : j.commit.changeOf k with
    | none => rfl
    | some ch => exact absurd (changeOf_mem hc) (h ch)
  have hv : versionAfter (commitsOf (js ++ [j])) k = versionAfter (commitsOf js) k := by
    rw [commitsOf_append, show commitsOf [j] = [j.commit] from rfl, versionAfter_snoc, hc]
  refine ⟨hv, ?_, ?_⟩
  · unfold columnsNow
    rw [hv]
    cases hv' : versionAfter (commitsOf js) k with
    | none => rfl
    | some v =>
      obtain ⟨j', h1, _, h2⟩ := version_job hv'
      exact columnsBy_append ⟨j', h1, h2⟩
  · conv_lhs => unfold recordsNow
    rw [commitsOf_append, show commitsOf [j] = [j.commit] from rfl, recordsAfter_concat, hc]
    exact recordsNow_append k

section step
variable {S : Setting} {js : List Job} {j : Job} (hj : JobOk S js j) {k : GroupKey}
include hj

theorem now_written {token : Str} (h : (k, Change.write token) ∈ j.commit.changes) :
    versionAfter (commitsOf (js ++ [j])) k ≠ none ∧ columnsNow (js ++ [j]) k = (j.base k).schema ∧
      recordsNow (js ++ [j]) k = (j.base k).rows := by
  have hc := (changeOf_iff hj.once).2 h
  have hv : versionAfter (commitsOf (js ++ [j])) k = some ⟨j.commit.ts, token, []⟩ := by
    rw [commitsOf_append, show commitsOf [j] = [j.commit] from rfl, versionAfter_snoc, hc]
    rfl
  refine ⟨by rw [hv]; simp, ?_, ?_⟩
  · unfold columnsNow columnsBy
    rw [hv]
    simp [jobAt_last hj]
  · unfold recordsNow
    rw [commitsOf_append, show commitsOf [j] = [j.commit] from rfl, recordsAfter_concat, hc]
    simp [rowsOf, jobAt_last hj]

theorem now_replaced (h : (k, Change.replace) ∈ j.commit.changes) :
    versionAfter (commitsOf (js ++ [j])) k = none ∧ recordsNow (js ++ [j]) k = [] := by
  have hc := (changeOf_iff hj.once).2 h
  constructor
  · rw [commitsOf_append, show commitsOf [j] = [j.commit] from rfl, versionAfter_snoc, hc]
    rfl
  · unfold recordsNow
    rw [commitsOf_append, show commitsOf [j] = [j.commit] from rfl, recordsAfter_concat, hc]

end step

/-- The three cases of a file group under a write that rewrites. -/
theorem rewrites_cases {A : Arrow} {pre : Str} {js : List Job} {j : Job} (hr : Rewrites A pre js j) (k : GroupKey) :
    (∀ ch, (k, ch) ∉ j.commit.changes) ∨ (∃ token, (k, Change.write token) ∈ j.commit.changes) ∨
      (k, Change.replace) ∈ j.commit.changes := by
  by_cases h : ∀ ch, (k, ch) ∉ j.commit.changes
  · exact .inl h
  · push Not at h
    obtain ⟨ch, h⟩ := h
    cases ch with
    | write token => exact .inr (.inl ⟨token, h⟩)
    | append ls => exact absurd h (hr.noAppends k ls)
    | replace => exact .inr (.inr h)

theorem mem_tagged {x : Str} {schema : Schema} {rows : List (List Cell)} {e : Str × Schema × List Cell} :
    e ∈ tagged x schema rows ↔ ∃ r ∈ rows, e = (x, schema, r) := by
  simp [tagged, eq_comm]

/-- A row of a new base file was a row of the table. -/
theorem rewritten_row {A : Arrow} {pre : Str} {js : List Job} {j : Job} (hr : Rewrites A pre js j) {k : GroupKey}
    {token : Str} (h : (k, Change.write token) ∈ j.commit.changes) {r : List Cell} (hm : r ∈ (j.base k).rows) :
    ∃ k0, k0.1 = k.1 ∧ columnsNow js k0 = (j.base k).schema ∧ r ∈ recordsNow js k0 := by
  obtain ⟨olds, news, f, _, _, _, h4, h5, h6⟩ := hr.rows
  have : (k.1, (j.base k).schema, r) ∈ news.flatMap (fun k => tagged k.1 (j.base k).schema (j.base k).rows) :=
    List.mem_flatMap.2 ⟨k, (h4 k).2 ⟨token, h⟩, mem_tagged.2 ⟨r, hm, rfl⟩⟩
  obtain ⟨k0, hk0, ht⟩ := List.mem_flatMap.1 (h6.mem_iff.2 this)
  obtain ⟨r', hr', e⟩ := mem_tagged.1 ht
  simp only [Prod.mk.injEq] at e
  obtain ⟨e1, e2, rfl⟩ := e
  exact ⟨k0, e1.symm, e2.symm, (h5 k0 hk0).sound r hr'⟩

theorem noTies_step {A : Arrow} {S : Setting} (hov : OverwritesWithLatest S.o) {js : List Job} {j : Job} (hj : JobOk S js j)
    (hr : Rewrites A S.pre js j) (hu : NoTies A S.pre js) : NoTies A S.pre (js ++ [j]) := by
  intro k r hm r' hm' hk h1 h2
  rcases rewrites_cases hr k with h | ⟨token, h⟩ | h
  · obtain ⟨_, e1, e2⟩ := now_other js h
    rw [e1] at hk h1 h2
    rw [e2] at hm hm'
    exact hu k r hm r' hm' hk h1 h2
  · obtain ⟨_, e1, e2⟩ := now_written hj h
    rw [e1] at hk
    rw [e2] at hm hm'
    exact List.inj_on_of_nodup_map ((hj.batches k token h).2 hov).1 hm hm' hk
  · rw [(now_replaced hj h).2] at hm
    cases hm

theorem committedBy_step {A : Arrow} {S : Setting} {js : List Job} {j : Job} (hj : JobOk S js j)
    (hr : Rewrites A S.pre js j) {ts : Str} (hu : CommittedBy js ts) : CommittedBy (js ++ [j]) ts := by
  intro k r hm c hc
  rcases rewrites_cases hr k with h | ⟨token, h⟩ | h
  · obtain ⟨_, e1, e2⟩ := now_other js h
    rw [e1] at hc
    rw [e2] at hm
    exact hu k r hm c hc
  · obtain ⟨_, e1, e2⟩ := now_written hj h
    rw [e1] at hc
    rw [e2] at hm
    obtain ⟨k0, _, e3, h3⟩ := rewritten_row hr h hm
    exact hu k0 r h3 c (e3 ▸ hc)
  · rw [(now_replaced hj h).2] at hm
    cases hm

theorem filter_flatMap_tagged (parts : Str → Bool) (ks : List GroupKey) (cols : GroupKey → Schema)
    (f : GroupKey → List (List Cell)) :
    (ks.flatMap (fun k => tagged k.1 (cols k) (f k))).filter (fun e => parts e.1) =
      (ks.filter (fun k => parts k.1)).flatMap (fun k => tagged k.1 (cols k) (f k)) := by
  induction ks with
  | nil => rfl
  | cons k ks ih =>
    simp only [List.flatMap_cons, List.filter_append, ih, List.filter_cons]
    cases h : parts k.1 <;> simp [tagged, h]

theorem contents_step {A : Arrow} {S : Setting} (hov : OverwritesWithLatest S.o) {js : List Job} {j : Job} (hj : JobOk S js j)
    (hr : Rewrites A S.pre js j) (hu : NoTies A S.pre js) {parts : Str → Prop} {l : List (Str × Schema × List Cell)}
    (h : Contents A S.pre js parts l) : ∃ l', Contents A S.pre (js ++ [j]) parts l' ∧ l.Perm l' := by
  classical
  obtain ⟨ks, f, h1, h2, h3, rfl⟩ := h
  obtain ⟨olds, news, g, n1, n2, h4, h5, h6, h7⟩ := hr.rows
  -- the file groups that stay as they are
  let stay := ks.filter (fun k => decide (∀ ch, (k, ch) ∉ j.commit.changes))
  have hstay : ∀ k, k ∈ stay ↔ k ∈ ks ∧ ∀ ch, (k, ch) ∉ j.commit.changes := fun k => by simp [stay]
  have hks : ks.Perm (stay ++ olds.filter (fun k => decide (parts k.1))) := by
    rw [List.perm_ext_iff_of_nodup h1 (List.Nodup.append (h1.filter _) (n1.filter _) ?_)]
    · intro k
      simp only [List.mem_append, List.mem_filter, decide_eq_true_eq, h4, h2]
      by_cases hch : ∃ ch, (k, ch) ∈ j.commit.changes
      · have : ¬ ∀ ch, (k, ch) ∉ j.commit.changes := by push Not; exact hch
        simp only [this, hch]
        tauto
      · have : ∀ ch, (k, ch) ∉ j.commit.changes := fun ch hc => hch ⟨ch, hc⟩
        simp only [hch]
        tauto
    · intro k ha hb
      obtain ⟨ch, hc⟩ := ((h4 k).1 (List.mem_filter.1 hb).1).1
      exact ((hstay k).1 ha).2 ch hc
  let f' : GroupKey → List (List Cell) := fun k => if k ∈ news then (j.base k).rows else f k
  have hnot : ∀ k ∈ stay, k ∉ news := fun k hk hn => by
    obtain ⟨token, hc⟩ := (h5 k).1 hn
    exact ((hstay k).1 hk).2 _ hc
  refine ⟨_, ⟨stay ++ news.filter (fun k => decide (parts k.1)), f', ?_, ?_, ?_, rfl⟩, ?_⟩
  · refine List.Nodup.append (h1.filter _) (n2.filter _) fun k ha hb => ?_
    exact hnot k ha (List.mem_filter.1 hb).1
  · intro k
    simp only [List.mem_append, hstay, List.mem_filter, decide_eq_true_eq, h5, h2]
    rcases rewrites_cases hr k with h | ⟨token, h⟩ | h
    · obtain ⟨e0, _, _⟩ := now_other js h
      have : ¬ ∃ token, (k, Change.write token) ∈ j.commit.changes := fun ⟨t, ht⟩ => h _ ht
      simp only [this, e0]
      tauto
    · have e0 := (now_written hj h).1
      have h' : ¬ ∀ ch, (k, ch) ∉ j.commit.changes := fun hn => hn _ h
      have : ∃ token, (k, Change.write token) ∈ j.commit.changes := ⟨token, h⟩
      simp only [this]
      tauto
    · have e0 := (now_replaced hj h).1
      have h' : ¬ ∀ ch, (k, ch) ∉ j.commit.changes := fun hn => hn _ h
      have : ¬ ∃ token, (k, Change.write token) ∈ j.commit.changes := fun ⟨t, ht⟩ => by
        have a1 := (changeOf_iff hj.once).2 ht
        rw [(changeOf_iff hj.once).2 h] at a1
        cases a1
      simp only [this, e0]
      tauto
  · intro k hk
    rcases List.mem_append.1 hk with hk | hk
    · obtain ⟨_, e1, e2⟩ := now_other js ((hstay k).1 hk).2
      rw [e1, e2, show f' k = f k from if_neg (hnot k hk)]
      exact h3 k ((hstay k).1 hk).1
    · have hn := (List.mem_filter.1 hk).1
      obtain ⟨token, hc⟩ := (h5 k).1 hn
      obtain ⟨_, e1, e2⟩ := now_written hj hc
      rw [e1, e2, show f' k = (j.base k).rows from if_pos hn]
      exact latest_self ((hj.batches k token hc).2 hov).1
  · refine (hks.flatMap_right _).trans ?_
    rw [List.flatMap_append, List.flatMap_append]
    refine List.Perm.append ?_ ?_
    · refine List.Perm.flatMap_left _ fun k hk => ?_
      rw [(now_other js ((hstay k).1 hk).2).2.1, show f' k = f k from if_neg (hnot k hk)]
    · have hold : ((olds.filter (fun k => decide (parts k.1))).flatMap (fun k => tagged k.1 (columnsNow js k) (f k))).Perm
          ((olds.filter (fun k => decide (parts k.1))).flatMap (fun k => tagged k.1 (columnsNow js k) (g k))) := by
        refine List.Perm.flatMap_left _ fun k hk => ?_
        have hk' : k ∈ ks := hks.mem_iff.2 (List.mem_append_right _ hk)
        exact (latest_unique (h3 k hk') (h6 k (List.mem_filter.1 hk).1) (fun _ => Iff.rfl) (hu k)).map _
      refine hold.trans ?_
      have hf := h7.filter (fun e => decide (parts e.1))
      rw [filter_flatMap_tagged (fun x => decide (parts x)) olds (columnsNow js) g,
        filter_flatMap_tagged (fun x => decide (parts x)) news (fun k => (j.base k).schema) (fun k => (j.base k).rows)] at hf
      refine hf.trans (List.Perm.flatMap_left _ fun k hk => ?_)
      have hn := (List.mem_filter.1 hk).1
      obtain ⟨token, hc⟩ := (h5 k).1 hn
      rw [(now_written hj hc).2.1, show f' k = (j.base k).rows from if_pos hn]

/-- Many writes that rewrite. -/
theorem rewrites_all {A : Arrow} {S : Setting} (hov : OverwritesWithLatest S.o) {js more : List Job}
    (hj : ∀ d1 j d2, js ++ more = d1 ++ j :: d2 → JobOk S d1 j) (hr : AllRewrite A S.pre js more)
    (hu : NoTies A S.pre js) :
    NoTies A S.pre (js ++ more) ∧ (∀ ts, CommittedBy js ts → CommittedBy (js ++ more) ts) ∧
      ∀ parts l, Contents A S.pre js parts l → ∃ l', Contents A S.pre (js ++ more) parts l' ∧ l.Perm l' := by
  induction more using List.reverseRec with
  | nil => exact ⟨by simpa using hu, by simp, fun parts l h => ⟨l, by simpa using h, .refl _⟩⟩
  | append_singleton more j ih =>
    obtain ⟨i1, i2, i3⟩ := ih (fun d1 j' d2 e => hj d1 j' (d2 ++ [j]) (by rw [← List.append_assoc, e]; simp))
      (fun d1 j' d2 e => hr d1 j' (d2 ++ [j]) (by rw [e]; simp))
    have hj' := hj (js ++ more) j [] (by simp)
    have hr' := hr more j [] rfl
    rw [← List.append_assoc]
    refine ⟨noTies_step hov hj' hr' i1, fun ts h => committedBy_step hj' hr' (i2 ts h), fun parts l h => ?_⟩
    obtain ⟨l1, a1, a2⟩ := i3 parts l h
    obtain ⟨l2, b1, b2⟩ := contents_step hov hj' hr' i1 a1
    exact ⟨l2, b1, a2.trans b2⟩

end Hudi
