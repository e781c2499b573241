import Verif.Spec.Archiver
import Verif.Lemmas.Cleaner

/-! # An archiver beside writers and a cleaner -/

namespace Hudi
open Spec

/-- What has been taken out of the timeline are files of commits before `r` that are not replacecommits. -/
def Trimmed (r : Str) (v : Work) (a : List (List Str)) : Prop :=
  ∀ p ∈ a, ∃ j ∈ v.done, compare j.commit.ts r = .lt ∧ j.commit.action ≠ .replaceCommit ∧ p = instantAt j.commit

theorem trimmed_nothing (r : Str) (v : Work) : Trimmed r v [] := fun _ h => nomatch h

section
variable {S : Setting} {r : Str} {v : Work} {a : List (List Str)} (hi : Inv S v) (ht : Trimmed r v a)
include hi ht

theorem base_kept {k : GroupKey} {token ts : Str} (hk : KeyOk S k) : baseAt k token ts ∉ a := by
  intro h
  obtain ⟨j, _, _, _, e⟩ := ht _ h
  exact base_ne_instant hk e

theorem log_kept {k : GroupKey} {ts : Str} {l : Str × Str} (hk : KeyOk S k) : logAt k ts l ∉ a := by
  intro h
  obtain ⟨j, _, _, _, e⟩ := ht _ h
  exact log_ne_instant hk e

theorem unread_kept {p : List Str} (h : Unread S p) : p ∉ a := by
  intro hp
  obtain ⟨j, hj, _, _, rfl⟩ := ht _ hp
  rcases h with ⟨name, e, _, hn⟩ | ⟨x, name, e, hx, _⟩
  · simp only [instantAt, List.cons.injEq, and_true, true_and] at e
    exact hn (((hi.timeline name).2 ⟨_, mem_commitsOf.2 ⟨j, hj, rfl⟩, e.symm⟩).2)
  · exact inPartition_apart hx e.symm

theorem work_trim {g : List (List Str)} {s' : Work} (h : WorkStep S (sweep (sweep v g) a) s') :
    ∃ c, WorkStep S (sweep v g) c ∧ s' = sweep c a := by
  cases h with
  | aside q hq => exact ⟨_, .aside _ q hq, by rw [sweep_run q (unread_kept hi ht hq)]; rfl⟩
  | begin j hc hf hj => exact ⟨_, .begin _ j hc hf hj, rfl⟩
  | request b q hc hu hq =>
    have hold : q.path ∉ a := by
      rcases mem_requests hq with ⟨k, token, hk, rfl⟩ | ⟨k, ls, w, l, hk, hw, hl, rfl⟩
      · exact base_kept hi ht (job_key (hi.attempt b hc) hk)
      · exact log_kept hi ht (job_key (hi.attempt b hc) hk)
    exact ⟨_, .request _ b q hc hu hq, by rw [sweep_run q hold]; rfl⟩
  | complete b hc hu hq ho =>
    have hold : b.job.completion.path ∉ a := by
      intro hm
      obtain ⟨j, hj, _, _, e⟩ := ht _ hm
      obtain ⟨d1, hjob⟩ := hi.jobOf hj
      have h1 := (hi.attempt b hc).later j hj
      rw [← (instantAt_inj (hi.attempt b hc).time.1 hjob.time.1 e).1, Std.ReflCmp.compare_self (cmp := (compare : Str → Str → Ordering))] at h1
      cases h1
    exact ⟨_, .complete _ b hc hu hq ho, by rw [sweep_run _ hold]; rfl⟩
  | rollback b r' hc hf ht hp ho => exact ⟨_, .rollback _ b r' hc hf ht hp ho, rfl⟩
  | delete b r' k token hc hu hk =>
    have hold : (Request.delete (baseAt k token b.job.commit.ts)).path ∉ a :=
      base_kept hi ht (job_key (hi.attempt b hc) hk)
    exact ⟨_, .delete _ b r' k token hc hu hk, by rw [sweep_run _ hold]; rfl⟩
  | block b r' k ls w l wb hc hu hk hw hl hgd hwr hr =>
    have hold : (Request.append (logAt k w.base l) [wb]).path ∉ a :=
      log_kept hi ht (job_key (hi.attempt b hc) hk)
    exact ⟨_, .block _ b r' k ls w l wb hc hu hk hw hl hgd hwr hr, by rw [sweep_run _ hold]; rfl⟩
  | recovered b r' hc hu hd hb =>
    refine ⟨_, .recovered _ b r' hc hu ?_ hb, rfl⟩
    intro k token hk
    have := hd k token hk
    change (without (sweep v g).store a).get _ = none at this
    rwa [get_without, if_neg (base_kept hi ht (job_key (hi.attempt b hc) hk))] at this

theorem clean_trim {r' : Str} {g : List (List Str)} {s' : Work} (h : CleanStep S r' (sweep (sweep v g) a) s') :
    ∃ c, CleanStep S r' (sweep v g) c ∧ s' = sweep c a := by
  cases h with
  | work _ h =>
    obtain ⟨c, h1, rfl⟩ := work_trim hi ht h
    exact ⟨c, .work _ _ h1, rfl⟩
  | log j k token l hj hk hs hl =>
    obtain ⟨d1, hjob⟩ := hi.jobOf hj
    exact ⟨_, .log _ j k token l hj hk hs hl, by rw [sweep_run _ (log_kept hi ht (job_key hjob hk))]; rfl⟩
  | base j k token hj hk hs hl =>
    obtain ⟨d1, hjob⟩ := hi.jobOf hj
    refine ⟨_, .base _ j k token hj hk hs ?_, by rw [sweep_run _ (base_kept hi ht (job_key hjob hk))]; rfl⟩
    intro l hn
    have := hl l hn
    change (without (sweep v g).store a).get _ = none at this
    rwa [get_without, if_neg (log_kept hi ht (job_key hjob hk))] at this

end

/-- Whatever writers, a cleaner and an archiver do, writers alone could have done, but for the files of superseded versions
and the timeline files that are gone. -/
theorem archives_sweep {S : Setting} {r q : Str} {s s' : Work} (h : Archives S r q s s') :
    ∀ {v : Work} {g a : List (List Str)}, Inv S v → Swept S r v g → Trimmed q v a → s = sweep (sweep v g) a →
    ∃ v' g' a', Works S v v' ∧ Inv S v' ∧ Swept S r v' g' ∧ Trimmed q v' a' ∧ s' = sweep (sweep v' g') a' := by
  induction h with
  | refl => exact fun hi hg ht e => ⟨_, _, _, .refl _, hi, hg, ht, e⟩
  | step _ hstep ih =>
    intro v g a hi hg ht e
    obtain ⟨v1, g1, a1, w1, hi1, hg1, ht1, rfl⟩ := ih hi hg ht e
    cases hstep with
    | clean _ h =>
      obtain ⟨c, h1, rfl⟩ := clean_trim hi1 ht1 h
      obtain ⟨v2, g2, h2 | h2, h3, rfl⟩ := clean_sweep hi1 hg1 h1
      · rw [h2] at h3 ⊢
        exact ⟨v1, g2, a1, w1, hi1, h3, ht1, rfl⟩
      · refine ⟨v2, g2, a1, .step w1 h2, inv_step hi1 h2, h3, ?_, rfl⟩
        obtain ⟨more, hd⟩ := done_works (.step (.refl _) h2)
        intro p hp
        obtain ⟨j, hj, h⟩ := ht1 p hp
        exact ⟨j, by rw [hd]; simp [hj], h⟩
    | archive j hj hr ha =>
      refine ⟨v1, g1, instantAt j.commit :: a1, w1, hi1, hg1, ?_, ?_⟩
      · intro p hp
        rcases List.mem_cons.1 hp with rfl | hp
        · exact ⟨j, hj, hr, ha, rfl⟩
        · exact ht1 p hp
      · show _ = ({ sweep v1 g1 with store := without (sweep v1 g1).store _ } : Work)
        rw [← delete_without]
        rfl

theorem sweep_sweep (v : Work) (g a : List (List Str)) : sweep (sweep v g) a = sweep v (g ++ a) := by
  unfold sweep without
  simp only [Work.mk.injEq, and_true]
  rw [List.filter_filter]
  refine List.filter_congr (fun e _ => ?_)
  by_cases h1 : e.1 ∈ g <;> by_cases h2 : e.1 ∈ a <;> simp [h1, h2]

end Hudi
