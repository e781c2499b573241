import Verif.Spec.CleanerKept
import Verif.Lemmas.Cleaner
import Verif.Lemmas.RacingFaults

/-! # Lemmas: what a kept handle has cached while writers and a cleaner work -/

namespace Hudi
open Spec

theorem baseIn_cons {e : Str × Nat} {files : List (Str × Nat)} {b : BaseFile} :
    BaseIn (e :: files) b ↔ BaseIn [e] b ∨ BaseIn files b := by
  constructor
  · rintro ⟨name, size, h, h'⟩
    rcases List.mem_cons.1 h with h | h
    · exact .inl ⟨name, size, by simp [h], h'⟩
    · exact .inr ⟨name, size, h, h'⟩
  · rintro (⟨name, size, h, h'⟩ | ⟨name, size, h, h'⟩)
    · exact ⟨name, size, by simp_all, h'⟩
    · exact ⟨name, size, by simp [h], h'⟩

theorem baseIn_one {e : Str × Nat} {b b' : BaseFile} (h : BaseIn [e] b) (h' : BaseIn [e] b') : b' = b := by
  obtain ⟨n, z, h1, _, _, h2⟩ := h
  obtain ⟨n', z', h3, _, _, h4⟩ := h'
  cases List.mem_singleton.1 h1
  cases List.mem_singleton.1 h3
  rw [h2] at h4
  cases h4
  rfl

/-- Of the base files with a property there is a latest. -/
theorem latest_base {Q : BaseFile → Prop} : ∀ (files : List (Str × Nat)) {b : BaseFile}, BaseIn files b → Q b →
    ∃ b1, BaseIn files b1 ∧ Q b1 ∧ ∀ b', BaseIn files b' → Q b' → (compare b'.commitTimestamp b1.commitTimestamp).isLE
  | [], b, ⟨_, _, h, _⟩, _ => nomatch h
  | e :: files, b, hb, hq => by
    by_cases h1 : ∃ b, BaseIn files b ∧ Q b
    · obtain ⟨b2, hb2, hq2⟩ := h1
      obtain ⟨b1, g1, g2, g3⟩ := latest_base files hb2 hq2
      by_cases h2 : ∃ b', BaseIn [e] b' ∧ Q b' ∧ ¬ (compare b'.commitTimestamp b1.commitTimestamp).isLE
      · obtain ⟨b3, h3, h4, h5⟩ := h2
        have h6 : compare b1.commitTimestamp b3.commitTimestamp = .lt := by
          rw [Std.OrientedCmp.eq_swap (cmp := (compare : Str → Str → Ordering))]
          cases h : compare b3.commitTimestamp b1.commitTimestamp with
          | lt => rw [h] at h5; exact absurd rfl h5
          | eq => rw [h] at h5; exact absurd rfl h5
          | gt => rfl
        refine ⟨b3, baseIn_cons.2 (.inl h3), h4, fun b' hb' hq' => ?_⟩
        rcases baseIn_cons.1 hb' with hb' | hb'
        · rw [baseIn_one h3 hb', Std.ReflCmp.compare_self (cmp := (compare : Str → Str → Ordering))]
          rfl
        · exact Std.TransCmp.isLE_trans (g3 b' hb' hq') (by rw [h6]; rfl)
      · refine ⟨b1, baseIn_cons.2 (.inr g1), g2, fun b' hb' hq' => ?_⟩
        rcases baseIn_cons.1 hb' with hb' | hb'
        · exact Decidable.not_not.1 (fun h => h2 ⟨b', hb', hq', h⟩)
        · exact g3 b' hb' hq'
    · refine ⟨b, hb, hq, fun b' hb' hq' => ?_⟩
      rcases baseIn_cons.1 hb with hb | hb
      · rcases baseIn_cons.1 hb' with hb' | hb'
        · rw [baseIn_one hb hb', Std.ReflCmp.compare_self (cmp := (compare : Str → Str → Ordering))]
          rfl
        · exact absurd ⟨b', hb', hq'⟩ h1
      · exact absurd ⟨b, hb, hq⟩ h1

/-- A file group with a base file up to `ts` has one that a read as of `ts` wants, or has been replaced by then. -/
theorem wanted_or_replaced {ltz : LocalTz} {o : Opts} {ts : Str} {tl : Timeline} {t : Tree} {x : Str} {b : BaseFile}
    (hp : PartitionOf o t x) (hb : BaseIn (filesOf t x) b) (hle : (compare b.commitTimestamp ts).isLE) :
    (∃ b', Wanted ltz o ts tl t x b') ∨ ∃ tz d, timezoneOf tl.opts = .ok tz ∧ parseDatetime ltz ts tz = .ok d ∧
      ReplacedBy tl t d.epochMillis x b.fileId := by
  obtain ⟨b1, h1, ⟨h2, h3⟩, h4⟩ := latest_base (Q := fun b' => b'.fileId = b.fileId ∧ (compare b'.commitTimestamp ts).isLE)
    _ hb ⟨rfl, hle⟩
  by_cases hr : ∃ tz d, timezoneOf tl.opts = .ok tz ∧ parseDatetime ltz ts tz = .ok d ∧
      ReplacedBy tl t d.epochMillis x b.fileId
  · exact .inr hr
  · exact .inl ⟨b1, hp, h1, h3, fun b' hb' hf hle' => h4 b' hb' ⟨hf.trans h2, hle'⟩,
      fun tz d h5 h6 h7 => hr ⟨tz, d, h5, h6, h2 ▸ h7⟩⟩

/-- The cache holds no partition twice, and every cached slice is that of a base file of its file group, which was at
one of the moments where a partition can be. -/
def SourcedAs (o : Opts) (P : Tree → Prop) (c : Cache) : Prop := HmNodup c ∧
  ∀ x gs, (x, gs) ∈ c → ∀ g ∈ gs, g.partitionPath = x ∧ ∀ k ∈ g.slices.map Prod.fst,
    PartitionPath o x ∧ ∃ u, P u ∧ ∃ b, BaseIn (filesOf u x) b ∧ b.fileId = g.fileId ∧ b.commitTimestamp = k

theorem sourcedAs_view {A : Arrow} {o : Opts} {depth : Nat} {R : Race} {P : Tree → Prop}
    (hP : ∀ u, P u → TreeWF u) (hR : AllSeen P R) (ts : Str) (p : Pruner) (excl : List FileGroup) :
    KeepsCache (SourcedAs o P) (viewSlicesAsOfRF A o depth R ts p excl) := by
  intro F n c hc
  unfold viewSlicesAsOfRF
  split
  · rename_i n' m hm
    have hm := (faithful_listRelevantRF A o depth R p).ok hm
    obtain ⟨hn, Found, _, hpath, h1, _⟩ := listRelevantR_found (P := fun _ => False) (fun x => hP _ (hR.dirs x))
      (fun _ h => h.elim) hm
    refine ⟨?_, fun x gs' hx g' hg' => ?_⟩
    · unfold HmNodup
      rw [collectSlicesRF_keys]
      exact hmExtend_nodup hc.1
    obtain ⟨gs, hgs, hkeys⟩ := collectSlicesRF_entries A R ts p excl F n' _ x gs' hx
    obtain ⟨g, hg, hid, hpp, hsub⟩ := hkeys g' hg'
    rw [hid, hpp]
    rcases hmExtend_mem hgs with hgs | hgs
    · obtain ⟨hf, _, hlist⟩ := (h1 x gs).1 ((hmGet_eq_some hn).2 hgs)
      obtain ⟨_, hspec, _⟩ := listFileGroups_spec ((hP _ (hR.files x)).at (pathSegs x)).files_nodup hlist
      obtain ⟨hpart, hsorted, hsl⟩ := hspec g hg
      refine ⟨hpart, fun k hk => ?_⟩
      obtain ⟨e, he, rfl⟩ := List.mem_map.1 (hsub k hk)
      obtain ⟨b, hb, hbf, hts, _⟩ := (hsl e.1 e.2).1 ((mapGet_eq_some hsorted).2 he)
      exact ⟨hpath x hf, _, hR.files x, b, hb, hbf, hts⟩
    · obtain ⟨h2, h3⟩ := hc.2 x gs hgs g hg
      exact ⟨h2, fun k hk => h3 k (hsub k hk)⟩
  · exact hc
  · exact hc

/-- The storage at some moment since writers and cleaner had come to `s0`. -/
def AfterCleaned (S : Setting) (r : Str) (s0 : Work) (u : Tree) : Prop := ∃ s, Cleans S r s0 s ∧ u = s.tree

theorem since_cleaned_data {S : Setting} {r : Str} {s0 : Work} {m : Moments} (hm : SinceCleaned S r s0 m) (p : Str) :
    Cleans S r s0 (m.data p) := by
  have h1 := hm.files []
  have h2 := hm.data [] p
  generalize m.data p = d at h2 ⊢
  induction h2 with
  | refl => exact h1
  | step _ hstep ih => exact .step ih hstep

theorem since_cleaned_seen {S : Setting} {r : Str} {s0 : Work} {m : Moments} (hm : SinceCleaned S r s0 m) :
    AllSeen (AfterCleaned S r s0) m.race :=
  ⟨fun i => ⟨_, hm.replaced i, rfl⟩, ⟨_, hm.latest, rfl⟩, ⟨_, hm.schema, rfl⟩, fun x => ⟨_, hm.dirs x, rfl⟩,
    fun x => ⟨_, hm.files x, rfl⟩, fun x => ⟨_, hm.sizes x, rfl⟩, fun x => ⟨_, since_cleaned_data hm x, rfl⟩⟩

theorem sourcedAs_kept {E : Env} {A : Arrow} {S : Setting} {M : MergeEnv A} {r : Str} {s0 : Work} {tb : Table}
    {depth : Nat} {c : Cache} (h : KeptCleaned E A S M r s0 tb depth c)
    (hwf : ∀ u, AfterCleaned S r s0 u → TreeWF u) : SourcedAs tb.opts (AfterCleaned S r s0) c := by
  induction h with
  | opened => exact ⟨.nil, fun _ _ h => nomatch h⟩
  | call m call F hm _ ih =>
    exact race_keeps (P := SourcedAs tb.opts (AfterCleaned S r s0))
      (fun ts p excl => sourcedAs_view hwf (since_cleaned_seen hm) ts p excl) call F _ ih

end Hudi
