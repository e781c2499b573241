import Verif.Spec.Remains
import Verif.Props.Records

/-! # Lemmas: storage with remains of writes that did not complete -/

namespace Hudi
open Spec

theorem base_not_ignored {f tok ts : Str} (hf : NamePart f) : ¬ Ignored (baseName f tok ts) := by
  rintro (⟨rest, h⟩ | ⟨stem, h⟩)
  · obtain ⟨h1, _, h3, _⟩ := hf
    cases f with
    | nil => exact h1 rfl
    | cons d f =>
      simp only [baseName, List.cons_append, List.cons.injEq] at h
      exact h3 (by rw [h.1]; simp)
  · have h1 : rsplitOnce '.' (baseName f tok ts) = some (f ++ c!"_" ++ tok ++ c!"_" ++ ts, c!"parquet") := by
      rw [rsplitOnce_eq_some]
      exact ⟨by simp [baseName], by decide⟩
    have h2 : rsplitOnce '.' (baseName f tok ts) = some (stem, c!"crc") := by
      rw [rsplitOnce_eq_some]
      exact ⟨h, by decide⟩
    rw [h1] at h2
    have h3 := (Prod.mk.inj (Option.some.inj h2)).2
    revert h3
    decide

/-- A base file that a commit up to `ts` wrote is there. -/
theorem Spec.FilesUpTo.base {ltz : LocalTz} {tz : Str} {o : Opts} {t0 t : Tree} {h : History} {ts : Str} {n : Nat}
    (hw : h.WF n) (hst : FilesUpTo ltz tz o t0 t h ts) {x f tok : Str} {c : HCommit} (hc : c ∈ h)
    (hle : (compare c.ts ts).isLE = true) (hch : c.changeOf (x, f) = some (.write tok)) :
    PartitionOf o t x ∧ ∃ b, BaseIn (filesOf t x) b ∧ b.fileId = f ∧ b.writeToken = tok ∧
      b.commitTimestamp = c.ts := by
  have hm := (hw.of_mem hc).1 hch
  obtain ⟨hx, size, h1⟩ := hst.written c hc hle x f tok hm
  exact ⟨hx, _, ⟨_, size, h1, base_not_ignored (hw.ids c hc _ hm), parquetName_base,
    fromMeta_baseName (hw.ids c hc _ hm) (hw.tokens c hc _ _ hm) (digits_part (hw.times c hc).1).2.1⟩, rfl, rfl, rfl⟩

/-- A snapshot shows the table of the completed commits. -/
theorem shows_upTo {E : Env} {o o' : Opts} {t0 t : Tree} {tl : Timeline}
    (hload : Timeline.load E o t0 = .ok tl) {tz : Str} (htz : timezoneOf tl.opts = .ok tz) {h : History}
    (hmono : MonotoneTz E.ltz) {n : Nat} (hw : h.WF n) {ts : Str} {T : Int}
    (hst : FilesUpTo E.ltz tz o' t0 t h ts)
    (hts : WriterTimestamp ts ∧ ts.length = n) (hT : Bound E.ltz tz (some ts) (some T))
    {kept : Str → Prop} {ss : List FileSlice}
    (hs : SnapshotOf t (fun x => PartitionOf o' t x ∧ kept x) (ReplacedBy tl t T) ts ss) :
    ShowsUpTo t h ts kept ss := by
  obtain ⟨t1, t2, _⟩ := timeline_of hload htz hw hst.timeline
  have hrep := replaced_of hmono hw t1 t2 (t := t) (ts := ts) (fun c hc hle ha => by
    obtain ⟨md, ⟨size, h1⟩, _, h2⟩ := hst.replaced c hc hle ha
    exact ⟨md, size, h1, h2⟩) hts hT
  have hsplit := history_split hw.ordered ts
  generalize hp : h.filter (fun c => (compare c.ts ts).isLE) = p at hsplit
  generalize hqe : h.filter (fun c => (compare c.ts ts).isGT) = q at hsplit
  have hpm : ∀ c, c ∈ p ↔ c ∈ h ∧ (compare c.ts ts).isLE = true := by
    intro c; rw [← hp, List.mem_filter]
  have htable : ∀ k, tableAt h ts k = versionAfter p k := by
    intro k; unfold tableAt; rw [hp]
  have hlive : ∀ x f c tok, c ∈ p → c.changeOf (x, f) = some (.write tok) → ¬ ReplacedBy tl t T x f →
      versionAfter p (x, f) ≠ none := by
    intro x f c tok hc hch hnr
    rw [hrep] at hnr
    have hno : ∀ c ∈ p, c.changeOf (x, f) ≠ some .replace := by
      intro c hc hr
      exact hnr ⟨c, ((hpm c).1 hc).1, ((hpm c).1 hc).2, hr⟩
    clear hs hpm hp hsplit hqe htable
    induction p using List.reverseRecOn with
    | nil => cases hc
    | append_singleton p d ih =>
      rw [versionAfter_snoc]
      have hrec : c ∈ p → versionAfter p (x, f) ≠ none := fun hc =>
        ih hc (fun c hc => hno c (List.mem_append_left _ hc))
      rcases List.mem_append.1 hc with hc | hc
      · cases hd : d.changeOf (x, f) with
        | none => exact hrec hc
        | some ch =>
          cases ch with
          | write _ => simp [Change.apply]
          | append ls => simpa [Change.apply] using hrec hc
          | replace => exact absurd hd (hno d (by simp))
      · rw [List.mem_singleton.1 hc] at hch
        rw [hch]
        simp [Change.apply]
  have hnrep : ∀ x f v, versionAfter p (x, f) = some v → ¬ ReplacedBy tl t T x f := by
    intro x f v hv hr
    obtain ⟨c, hc, hle, hch⟩ := (hrep x f).1 hr
    obtain ⟨a, d, b, he, e1, e2, e3, _⟩ := versionAfter_some.1 hv
    have hcp : c ∈ p := (hpm c).2 ⟨hc, hle⟩
    rw [he] at hcp
    rcases List.mem_append.1 hcp with hca | hcb
    · obtain ⟨a1, a2, rfl⟩ := List.append_of_mem hca
      have hd : d ∈ a2 ++ d :: b ++ q := by simp
      have hg := hw.gone
      rw [show h = a1 ++ c :: (a2 ++ d :: b ++ q) by rw [hsplit, he]; simp] at hg
      exact (List.pairwise_cons.1 (List.pairwise_append.1 hg).2.1).1 d hd _ ((hw.of_mem hc).1 hch) _
        (changeOf_mem e1)
    · rcases List.mem_cons.1 hcb with rfl | hcb
      · rw [e1] at hch; cases hch
      · rcases e3 c hcb with h' | ⟨ls, h'⟩ <;> rw [h'] at hch <;> cases hch
  -- the base file of a slice is that of a commit up to `ts`
  have hbase : ∀ s ∈ ss, ∃ c ∈ p, c.changeOf (sliceKey s) = some (.write s.baseFile.writeToken) ∧
      s.baseFile.commitTimestamp = c.ts ∧ s.baseFile.extension = c!"parquet" ∧ kept s.partitionPath ∧
      PartitionOf o' t s.partitionPath ∧ ¬ ReplacedBy tl t T s.partitionPath s.baseFile.fileId := by
    intro s hsm
    obtain ⟨⟨hx, hkept⟩, hnr, b, m, hb, hbe⟩ := hs.sound s hsm
    have hle := hs.notLater s hsm
    have e1 : s.baseFile.fileId = b.fileId := by rw [hbe]
    have e2 : s.baseFile.writeToken = b.writeToken := by rw [hbe]
    have e3 : s.baseFile.commitTimestamp = b.commitTimestamp := by rw [hbe]
    have e4 : s.baseFile.extension = b.extension := by rw [hbe]
    rw [e3] at hle
    obtain ⟨hext, c, hc, hch, hct⟩ := hst.bases _ b hx hb hle
    refine ⟨c, (hpm c).2 ⟨hc, by rw [← hct]; exact hle⟩, ?_, by rw [e3, hct], by rw [e4, hext], hkept, hx, hnr⟩
    unfold sliceKey
    rw [e1, e2]
    exact (hw.of_mem hc).2 hch
  refine ⟨hs.distinct, ?_, ?_⟩
  · rintro ⟨x, f⟩
    rw [htable]
    constructor
    · rintro ⟨s, hsm, hk⟩
      obtain ⟨c, hc, hch, _, _, hkept, _, hnr⟩ := hbase s hsm
      rw [← hk]
      exact ⟨hkept, hlive _ _ c _ hc hch hnr⟩
    · rintro ⟨hkept, hne⟩
      obtain ⟨v, hv⟩ := Option.ne_none_iff_exists'.1 hne
      obtain ⟨a, d, b, he, e1, e2, e3, _⟩ := versionAfter_some.1 hv
      have hd := (hpm d).1 (by rw [he]; simp)
      obtain ⟨hx, bf, k1, k2, k3, k4⟩ := hst.base hw hd.1 hd.2 e1
      obtain ⟨s, q1, q2, q3⟩ := hs.complete x ⟨hx, hkept⟩ bf k1 (by rw [k4]; exact hd.2)
        (by rw [k2]; exact hnrep _ _ v hv)
      exact ⟨s, q1, by unfold sliceKey; rw [q2, q3, k2]⟩
  · intro s hsm
    obtain ⟨c, hc, hch, hct, hext, _, hx, hnr⟩ := hbase s hsm
    obtain ⟨w, hw'⟩ := Option.ne_none_iff_exists'.1 (hlive _ _ c _ hc hch hnr)
    obtain ⟨a, d, r, he, e1, e2, e3, e4⟩ := versionAfter_some.1 hw'
    have hd := (hpm d).1 (by rw [he]; simp)
    have hcd : c.ts = d.ts := by
      obtain ⟨_, bf, k1, k2, k3, k4⟩ := hst.base hw hd.1 hd.2 e1
      have hle1 := hs.latest s hsm bf k1 k2 (by rw [k4]; exact hd.2)
      rw [k4, hct] at hle1
      refine str_le_antisymm ?_ hle1
      rw [he] at hc
      have hord : (a ++ d :: r).Pairwise (fun a b => compare a.ts b.ts = .lt) := by
        rw [← he, ← hp]; exact hw.ordered.filter _
      rcases List.mem_append.1 hc with hca | hcb
      · have := (List.pairwise_append.1 hord).2.2 c hca d (by simp)
        rw [this]; rfl
      · rcases List.mem_cons.1 hcb with rfl | hcb
        · rw [Std.ReflCmp.compare_self (cmp := (compare : Str → Str → Ordering))]; rfl
        · rcases e3 c hcb with h' | ⟨ls, h'⟩ <;> rw [show (s.partitionPath, s.baseFile.fileId) = sliceKey s from rfl,
            hch] at h' <;> cases h'
    have hsplit' : h = a ++ d :: (r ++ q) := by rw [hsplit, he]; simp
    obtain ⟨a', b', hc'⟩ := List.append_of_mem ((hpm c).1 hc).1
    obtain ⟨rfl, rfl, rfl⟩ := split_unique hw.ordered hc' hsplit' hcd
    have htok : s.baseFile.writeToken = w.token := by
      rw [show (s.partitionPath, s.baseFile.fileId) = sliceKey s from rfl, hch] at e1
      injection e1 with e1; injection e1
    refine ⟨w, by rw [htable]; exact hw', by rw [hct, e2], htok, hext, ?_⟩
    intro l
    rw [hs.logs s hsm l, hct, e2]
    rfl

end Hudi
