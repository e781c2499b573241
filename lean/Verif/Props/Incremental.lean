import Verif.Props.Commits
import Verif.Model.Table

/-! # Properties: file slices changed between two times -/

namespace Hudi
open Spec

/-- The latest slices of file groups that hold the writes `P`. -/
theorem latestWritten_of_holds {P : Write → Prop} {gs : List FileGroup} (h : HoldsAll gs P)
    (hw : ∀ g ∈ gs, GroupWF g) (hid : ∀ w, P w → w.base.fileId = w.fileId) (stop : Str) :
    LatestWritten P stop (gs.filterMap (fun g => g.sliceAsOf stop)) := by
  -- the slice of a group
  have key : ∀ g ∈ gs, ∀ s, g.sliceAsOf stop = some s →
      (s.partitionPath, s.baseFile.fileId) = groupId g ∧
      sliceAt g s.baseFile.commitTimestamp = some s ∧
      (∃ w, P w ∧ w.id = groupId g ∧ s.baseFile = w.base) ∧
      (compare s.baseFile.commitTimestamp stop).isLE ∧
      (∀ w, P w → w.id = groupId g → (compare w.base.commitTimestamp stop).isLE →
        (compare w.base.commitTimestamp s.baseFile.commitTimestamp).isLE) := by
    intro g hg s hs
    have hso := (hw g hg).sorted
    obtain ⟨⟨k, s'⟩, h1, rfl⟩ := Option.map_eq_some_iff.1 hs
    obtain ⟨e1, e2, e3⟩ := (mapLastLe_eq_some hso).1 h1
    have hat : sliceAt g k = some s' := by rw [sliceAt_eq]; exact (mapGet_eq_some hso).2 e1
    have hne : ¬ ∀ w, P w → w.id = groupId g → w.base.commitTimestamp ≠ k := by
      intro hc
      have := ((h.slices g hg).no_slice k).2 hc
      rw [hat] at this; cases this
    simp only [not_forall, not_not] at hne
    obtain ⟨w, hP, hwi, hwk⟩ := hne
    have hb := (h.slices g hg).base k s' hat w hP hwi hwk
    have hp := (h.slices g hg).partition k s' hat
    have hk : s'.baseFile.commitTimestamp = k := by rw [hb, hwk]
    simp only
    refine ⟨?_, by rw [hk]; exact hat, ⟨w, hP, hwi, hb⟩, by rw [hk]; exact e2, ?_⟩
    · rw [hp, hb, hid w hP]
      have : w.fileId = g.fileId := congrArg Prod.snd hwi
      rw [this]; rfl
    · intro w' hP' hwi' hle
      rw [hk]
      cases hs' : sliceAt g w'.base.commitTimestamp with
      | none => exact absurd rfl (((h.slices g hg).no_slice _).1 hs' w' hP' hwi')
      | some s'' =>
        rw [sliceAt_eq] at hs'
        exact e3 _ ((mapGet_eq_some hso).1 hs') hle
  have hmem : ∀ s, s ∈ gs.filterMap (fun g => g.sliceAsOf stop) ↔ ∃ g ∈ gs, g.sliceAsOf stop = some s := by
    intro s; rw [List.mem_filterMap]
  refine ⟨?_, ?_, ?_, ?_, ?_⟩
  · unfold List.Nodup
    rw [List.pairwise_map, List.pairwise_filterMap]
    refine h.distinct.imp_of_mem ?_
    intro a b ha hb hne s hs s' hs' he
    apply hne
    rw [← (key a ha s hs).1, ← (key b hb s' hs').1]
    exact he
  · intro w hP hle
    obtain ⟨g, hg, hgi⟩ := (h.groups w.id).2 ⟨w, hP, rfl⟩
    cases hs : g.sliceAsOf stop with
    | none =>
      exfalso
      have hso := (hw g hg).sorted
      have := Option.map_eq_none_iff.1 hs
      cases hs' : sliceAt g w.base.commitTimestamp with
      | none => exact absurd rfl (((h.slices g hg).no_slice _).1 hs' w hP hgi.symm)
      | some s'' =>
        rw [sliceAt_eq] at hs'
        have := (mapLastLe_eq_none.1 this) _ ((mapGet_eq_some hso).1 hs')
        rw [this] at hle
        cases hle
    | some s => exact ⟨s, (hmem s).2 ⟨g, hg, hs⟩, by rw [(key g hg s hs).1, hgi]⟩
  · intro s hs
    obtain ⟨g, hg, hs⟩ := (hmem s).1 hs
    obtain ⟨k1, k2, k3, k4, k5⟩ := key g hg s hs
    rw [k1]
    exact ⟨k3, k4⟩
  · intro s hs w hP hwi hle
    obtain ⟨g, hg, hs⟩ := (hmem s).1 hs
    obtain ⟨k1, k2, k3, k4, k5⟩ := key g hg s hs
    rw [k1] at hwi
    exact k5 w hP hwi hle
  · intro s hs l
    obtain ⟨g, hg, hs⟩ := (hmem s).1 hs
    obtain ⟨k1, k2, k3, k4, k5⟩ := key g hg s hs
    rw [k1]
    exact (h.slices g hg).logs _ s k2 l

/-- **C58, partial.**  On a loaded timeline, with the end of the range given or else the latest
completed instant, and the start given or else the beginning of 1970: suppose the metadata of every
instant in the range records the well-formed writes `ws i`, no two of one commit to one file group,
and that the replacecommits in the range list their replaced file groups, and that no two writes in
the range give one slice different base files.  Then the file slices returned are exactly the latest
versions, up to the end, of the file groups written in the range and not replaced in it.  Missing:
commits with several write stats for one file group (`C22_false`). -/
theorem C58_slices_between_partial (E : Env) (o : Opts) (t0 t : Tree) (tb : Table)
    (hload : Timeline.load E o t0 = .ok tb.timeline) (hwf : ∀ n ∈ timelineNames t0, Spec.NormalName n)
    (start stop : Option Str) (stop' tz : Str) (b e : Int)
    (htz : timezoneOf tb.timeline.opts = .ok tz)
    (hstop : stop = some stop' ∨
      stop = none ∧ ∃ i, tb.timeline.completed.getLast? = some i ∧ i.timestamp = stop')
    (hb : Bound E.ltz tz (some (start.getD c!"19700101000000000")) (some b))
    (he : Bound E.ltz tz (some stop') (some e)) (ws : Instant → List Write)
    (hd : ∀ i, Within tb.timeline (some b) (some e) i → ∃ md, docOf t i = some md ∧
      RecordsWrites md (ws i) ∧ (∀ w ∈ ws i, w.WF ∧ w.base.fileId = w.fileId) ∧
      ((ws i).map Write.id).Nodup ∧ (i.action = .replaceCommit → ReadableReplaced md))
    (hc : NoConflict (fun w => ∃ i, Within tb.timeline (some b) (some e) i ∧ w ∈ ws i)) :
    ∃ ss, tb.fileSlicesBetween E t start stop = .ok ss ∧
      LatestWritten (fun w => (∃ i, Within tb.timeline (some b) (some e) i ∧ w ∈ ws i) ∧
        ¬ ∃ i, Within tb.timeline (some b) (some e) i ∧ i.action = .replaceCommit ∧
          ∃ md, docOf t i = some md ∧ Replaces md w.partition w.fileId) stop' ss := by
  obtain ⟨h1, _⟩ := changedGroups (t := t) hload hwf htz hb he (ws := ws) (fun i hi => by
    obtain ⟨md, k1, k2, k3, k4⟩ := hd i hi
    exact ⟨md, k1, k2, fun w hw => (k3 w hw).1, k4⟩)
  obtain ⟨gs, h2, h3, h4⟩ := h1 hc
  have hor : stop.or tb.timeline.latestTimestamp = some stop' := by
    rcases hstop with rfl | ⟨rfl, i, hi, rfl⟩
    · rfl
    · unfold Timeline.latestTimestamp; rw [hi]; rfl
  refine ⟨_, ?_, latestWritten_of_holds h3 h4 ?_ stop'⟩
  · unfold Table.fileSlicesBetween
    rw [hor]
    simp only [Table.fileSlicesBetweenInternal, earliestStart, h2, Res.ok_bind]
    rfl
  · rintro w ⟨⟨i, hi, hw⟩, _⟩
    obtain ⟨md, _, _, k3, _⟩ := hd i hi
    exact (k3 w hw).2

/-- **C58, any commits.**  As `C58_slices_between_partial`, for commits with any number of write stats for one file
group, of which the first counts; and when two of these give one slice different base files, the query is an
error. -/
theorem C58_first_writes_show_up (E : Env) (o : Opts) (t0 t : Tree) (tb : Table)
    (hload : Timeline.load E o t0 = .ok tb.timeline) (hwf : ∀ n ∈ timelineNames t0, Spec.NormalName n)
    (start stop : Option Str) (stop' tz : Str) (b e : Int)
    (htz : timezoneOf tb.timeline.opts = .ok tz)
    (hstop : stop = some stop' ∨
      stop = none ∧ ∃ i, tb.timeline.completed.getLast? = some i ∧ i.timestamp = stop')
    (hb : Bound E.ltz tz (some (start.getD c!"19700101000000000")) (some b))
    (he : Bound E.ltz tz (some stop') (some e)) (ws : Instant → List Write)
    (hd : ∀ i, Within tb.timeline (some b) (some e) i → ∃ md, docOf t i = some md ∧
      RecordsWrites md (ws i) ∧ (∀ w ∈ ws i, w.WF ∧ w.base.fileId = w.fileId) ∧
      (i.action = .replaceCommit → ReadableReplaced md)) :
    (NoConflict (fun w => ∃ i, Within tb.timeline (some b) (some e) i ∧ FirstOf (ws i) w) →
      ∃ ss, tb.fileSlicesBetween E t start stop = .ok ss ∧
        LatestWritten (fun w => (∃ i, Within tb.timeline (some b) (some e) i ∧ FirstOf (ws i) w) ∧
          ¬ ∃ i, Within tb.timeline (some b) (some e) i ∧ i.action = .replaceCommit ∧
            ∃ md, docOf t i = some md ∧ Replaces md w.partition w.fileId) stop' ss) ∧
    (¬ NoConflict (fun w => ∃ i, Within tb.timeline (some b) (some e) i ∧ FirstOf (ws i) w) →
      ∃ k, tb.fileSlicesBetween E t start stop = .err k) := by
  obtain ⟨h1, h2⟩ := changedGroups_first (t := t) hload hwf htz hb he (ws := ws) (fun i hi => by
    obtain ⟨md, k1, k2, k3, k4⟩ := hd i hi
    exact ⟨md, k1, k2, fun w hw => (k3 w hw).1, k4⟩)
  have hor : stop.or tb.timeline.latestTimestamp = some stop' := by
    rcases hstop with rfl | ⟨rfl, i, hi, rfl⟩
    · rfl
    · simp [Timeline.latestTimestamp, hi]
  refine ⟨fun hc => ?_, fun hc => ?_⟩
  · obtain ⟨gs, h3, h4, h5⟩ := h1 hc
    refine ⟨_, ?_, latestWritten_of_holds h4 h5 (fun w hw => ?_) stop'⟩
    · unfold Table.fileSlicesBetween
      rw [hor]
      simp only [Table.fileSlicesBetweenInternal, earliestStart, h3, Res.ok_bind]
      rfl
    · obtain ⟨⟨i, hi, l, r, e, _⟩, _⟩ := hw
      obtain ⟨md, _, _, k3, _⟩ := hd i hi
      exact (k3 w (by rw [e]; simp)).2
  · obtain ⟨k, h3⟩ := h2 hc
    refine ⟨k, ?_⟩
    unfold Table.fileSlicesBetween
    rw [hor]
    simp only [Table.fileSlicesBetweenInternal, earliestStart, h3]
    rfl

open Demo in
/-- A commit with two write stats for one file group: the first is the first of its file group, the second is not. -/
example : FirstOf [write2, write3, write4] write2 ∧ ¬ FirstOf [write2, write3, write4] write3 ∧
    FirstOf [write2, write3, write4] write4 := by
  have h : ∀ w, FirstOf [write2, write3, write4] w ↔ w ∈ firstWrites [] [write2, write3, write4] := by
    intro w; rw [mem_firstWrites]; simp
  simp only [h]
  decide

/-- **C58.**  A table without completed instants has no file slices between any two times, if the end is
not given. -/
theorem C58_no_commits (E : Env) (tb : Table) (t : Tree) (start : Option Str)
    (h : tb.timeline.completed = []) : tb.fileSlicesBetween E t start none = .ok [] := by
  unfold Table.fileSlicesBetween Timeline.latestTimestamp
  rw [h]; rfl

/-- The hypotheses of C58 are met by the table of the C22 example: one slice, of the file group that was
written twice; the other one is replaced. -/
example : ∃ (tb : Table) (ws : Instant → List Write) (t : Tree),
    Timeline.load Demo.env [] t = .ok tb.timeline ∧
    (∀ i, Within tb.timeline (some 0) (some 1704295860000) i → ∃ md, docOf t i = some md ∧
      RecordsWrites md (ws i) ∧ (∀ w ∈ ws i, w.WF ∧ w.base.fileId = w.fileId) ∧
      ((ws i).map Write.id).Nodup ∧ (i.action = .replaceCommit → ReadableReplaced md)) ∧
    NoConflict (fun w => ∃ i, Within tb.timeline (some 0) (some 1704295860000) i ∧ w ∈ ws i) ∧
    Bound Demo.env.ltz Tz.utc.str (some c!"19700101000000000") (some 0) ∧
    Bound Demo.env.ltz Tz.utc.str (some c!"20240103153100000") (some 1704295860000) ∧
    ∃ ss, tb.fileSlicesBetween Demo.env t none none = .ok ss ∧
      ss.map (fun s => (s.partitionPath, s.baseFile.fileId, s.logFiles.length)) =
        [(c!"p1", c!"f1-0", 3)] := by
  refine ⟨⟨[], [], ⟨[], [Demo.inst1, Demo.inst2]⟩⟩,
    fun i => if i = Demo.inst1 then [Demo.write2, Demo.write4] else [Demo.write3],
    Demo.commitTree Demo.doc24 Demo.docReplace, rfl, ?_, ?_, ⟨_, rfl, rfl⟩, ⟨_, rfl, rfl⟩, _, rfl, by decide⟩
  · rintro i ⟨hi, _⟩
    simp only [List.mem_cons, List.not_mem_nil, or_false] at hi
    rcases hi with rfl | rfl
    · refine ⟨Demo.doc24, rfl, Demo.doc24_records, ?_, by decide, fun h => by cases h⟩
      simp only [if_true, List.mem_cons, List.not_mem_nil, or_false, forall_eq_or_imp, forall_eq]
      exact ⟨⟨Demo.write_wf.2.1, by decide⟩, ⟨Demo.write_wf.2.2.2, by decide⟩⟩
    · refine ⟨Demo.docReplace, rfl, Demo.docReplace_records, ?_, by decide,
        fun _ => (buildReplaced_ok_iff _).1 ⟨_, rfl⟩⟩
      intro w hw
      have : w = Demo.write3 := by simpa [Demo.inst1, Demo.inst2] using hw
      subst this
      exact ⟨Demo.write_wf.2.2.1, by decide⟩
  · have hw : ∀ w, (∃ i, Within ⟨[], [Demo.inst1, Demo.inst2]⟩ (some 0) (some 1704295860000) i ∧
        w ∈ (if i = Demo.inst1 then [Demo.write2, Demo.write4] else [Demo.write3])) →
        w = Demo.write2 ∨ w = Demo.write4 ∨ w = Demo.write3 := by
      rintro w ⟨i, _, h⟩
      split at h <;> simp at h <;> tauto
    intro w w' h h' hid _
    rcases hw w h with rfl | rfl | rfl <;> rcases hw w' h' with rfl | rfl | rfl <;>
      first | rfl | (exfalso; revert hid; decide)

end Hudi
