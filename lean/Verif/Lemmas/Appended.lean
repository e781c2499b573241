import Verif.Spec.Appended
import Verif.Props.Changes
import Verif.Lemmas.Handout
import Mathlib.Data.List.Perm.Basic

/-! # Lemmas on tables that keep every record appended -/

namespace Hudi
open Spec

/-! ## Lists -/

/-- Sorting the elements by the one group each belongs to. -/
theorem perm_groups {α β γ : Type} (f : α → List β) (p : γ → α → Bool) (cs : List γ) (L : List α)
    (hone : ∀ w ∈ L, f w = [] ∨ ∃ c ∈ cs, p c w = true)
    (hdis : ∀ w, cs.Pairwise (fun a b => ¬ (p a w = true ∧ p b w = true))) :
    (L.flatMap f).Perm (cs.flatMap (fun c => (L.filter (p c)).flatMap f)) := by
  induction L with
  | nil => simp
  | cons w L ih =>
    have ih := ih (fun x hx => hone x (by simp [hx]))
    have e : ∀ c, ((w :: L).filter (p c)).flatMap f =
        (if p c w = true then f w else []) ++ (L.filter (p c)).flatMap f := by
      intro c
      rw [List.filter_cons]
      by_cases h : p c w = true <;> simp [h]
    simp only [e]
    refine List.Perm.trans ?_ (List.flatMap_append_perm cs _ _)
    rw [List.flatMap_cons]
    refine List.Perm.append (List.Perm.of_eq ?_) ih
    have key : ∀ cs : List γ, (∃ c ∈ cs, p c w = true) →
        cs.Pairwise (fun a b => ¬ (p a w = true ∧ p b w = true)) →
        f w = cs.flatMap (fun c => if p c w = true then f w else []) := by
      intro cs
      induction cs with
      | nil => rintro ⟨c, h, _⟩; cases h
      | cons c cs ih =>
        rintro ⟨d, hd, hp⟩ hpw
        obtain ⟨h1, h2⟩ := List.pairwise_cons.1 hpw
        rw [List.flatMap_cons]
        by_cases hc : p c w = true
        · have : cs.flatMap (fun c => if p c w = true then f w else []) = [] := by
            rw [List.flatMap_eq_nil_iff]
            intro x hx
            rw [if_neg (fun h => h1 x hx ⟨hc, h⟩)]
          rw [this, if_pos hc, List.append_nil]
        · rw [if_neg hc, List.nil_append]
          refine ih ⟨d, ?_, hp⟩ h2
          rcases List.mem_cons.1 hd with rfl | hd
          · exact absurd hp hc
          · exact hd
    rcases hone w (by simp) with h | h
    · rw [h]
      symm
      rw [List.flatMap_eq_nil_iff]
      intro c _
      split <;> rfl
    · exact key cs h (hdis w)

/-- Leaving out elements that contribute nothing. -/
theorem perm_sub {α β : Type} {a b : List α} (g : α → List β) (ha : a.Nodup) (hb : b.Nodup)
    (hsub : ∀ x ∈ b, x ∈ a) (hnil : ∀ x ∈ a, x ∉ b → g x = []) : (a.flatMap g).Perm (b.flatMap g) := by
  classical
  have h1 : (a.filter (fun x => decide (x ∈ b))).Perm b := by
    rw [List.perm_ext_iff_of_nodup (ha.filter _) hb]
    intro x
    simp only [List.mem_filter, decide_eq_true_eq]
    exact ⟨fun h => h.2, fun h => ⟨hsub x h, h⟩⟩
  have h2 : a.flatMap g = (a.filter (fun x => decide (x ∈ b))).flatMap g := by
    have : ∀ l : List α, (∀ x ∈ l, x ∈ a) → l.flatMap g = (l.filter (fun x => decide (x ∈ b))).flatMap g := by
      intro l
      induction l with
      | nil => intro _; rfl
      | cons x l ih =>
        intro h
        rw [List.flatMap_cons, ih (fun y hy => h y (by simp [hy])), List.filter_cons]
        by_cases hx : x ∈ b
        · simp [hx]
        · simp [hx, hnil x (h x (by simp)) hx]
    exact this a (fun _ h => h)
  rw [h2]
  exact h1.flatMap_right g

/-! ## Records of blocks -/

open Classical in
/-- The records of a block. -/
noncomputable def recordsIn (C : Codec) (w : WBlock) : List (List Cell) :=
  if h : ∃ bs, Decodes C w bs then (Classical.choose h).flatMap Batch.rows else []

theorem recordsIn_eq {C : Codec} {w : WBlock} {bs : List Batch} (h : Decodes C w bs) :
    recordsIn C w = bs.flatMap Batch.rows := by
  unfold recordsIn
  rw [dif_pos ⟨bs, h⟩, decodes_det (Classical.choose_spec (⟨bs, h⟩ : ∃ bs, Decodes C w bs)) h]

theorem recordsOf_eq {C : Codec} {ws : List WBlock} {rows : List (List Cell)} (h : RecordsOf C ws rows) :
    rows = ws.flatMap (recordsIn C) := by
  obtain ⟨bss, h1, rfl⟩ := h
  induction h1 with
  | nil => rfl
  | cons h _ ih =>
    rw [List.flatten_cons, List.flatMap_append, ih, List.flatMap_cons, recordsIn_eq h]

theorem recordsOf_of {C : Codec} {ws : List WBlock} (h : ∀ w ∈ ws, ∃ bs, Decodes C w bs) :
    RecordsOf C ws (ws.flatMap (recordsIn C)) := by
  induction ws with
  | nil => exact ⟨[], .nil, rfl⟩
  | cons w ws ih =>
    obtain ⟨bs, hb⟩ := h w (by simp)
    obtain ⟨bss, h1, h2⟩ := ih (fun x hx => h x (by simp [hx]))
    refine ⟨bs :: bss, .cons hb h1, ?_⟩
    rw [List.flatten_cons, List.flatMap_append, List.flatMap_cons, recordsIn_eq hb, h2]

open Classical in
/-- The records of the blocks that survive in a range are those of the commits in the range, and those of the
other blocks that survive. -/
theorem surviving_appended {α : Type} {C : Codec} {ltz : LocalTz} {tz : Str} {r : InstantRange} {W : Written}
    {k : GroupKey} {held : α → List WBlock} {LF : List α} (hnd : LF.Nodup)
    {cs : List HCommit} (hcs : cs.Pairwise (fun a b => compare a.ts b.ts = .lt))
    (hrows : ∀ c ∈ cs, ∃ ls : List α, ls.Nodup ∧ (∀ l ∈ ls, l ∈ LF) ∧
      (∀ l ∈ LF, ∀ w ∈ held l, WrittenBy w c.ts → l ∈ ls) ∧
      ∃ rows, RecordsOf C (ls.flatMap (fun l => blocksBy c.ts (held l))) rows ∧
        rows.Perm (W.appended c.ts k))
    (hall : ∀ c ∈ cs, ∀ w ∈ LF.flatMap held, WrittenBy w c.ts → Survives ltz tz r (LF.flatMap held) w)
    {logRows : List (List Cell)} (hl : RecordsOf C (surviving ltz tz r (LF.flatMap held)) logRows) :
    logRows.Perm (cs.flatMap (fun c => W.appended c.ts k) ++
      ((surviving ltz tz r (LF.flatMap held)).filter
        (fun w => decide (¬ ∃ c ∈ cs, WrittenBy w c.ts))).flatMap (recordsIn C)) := by
  rw [recordsOf_eq hl]
  have hsplit := ((List.filter_append_perm (fun w => decide (∃ c ∈ cs, WrittenBy w c.ts))
    (surviving ltz tz r (LF.flatMap held))).flatMap_right (recordsIn C)).symm
  rw [List.flatMap_append] at hsplit
  refine hsplit.trans (List.Perm.append ?_ (List.Perm.of_eq (by simp only [decide_not])))
  refine (perm_groups (recordsIn C) (fun c w => decide (WrittenBy w c.ts)) cs _ ?_ ?_).trans ?_
  · intro w hw
    have := of_decide_eq_true (List.mem_filter.1 hw).2
    simpa using Or.inr this
  · intro w
    refine hcs.imp ?_
    rintro a b hab ⟨h1, h2⟩
    have h1 := of_decide_eq_true h1
    have h2 := of_decide_eq_true h2
    unfold WrittenBy at h1 h2
    rw [h1] at h2
    rw [Option.some.inj h2, Std.ReflCmp.compare_self (cmp := (compare : Str → Str → Ordering))] at hab
    cases hab
  · refine List.Perm.flatMap_left _ fun c hc => ?_
    obtain ⟨ls, h1, h2, h3, rows, h4, h5⟩ := hrows c hc
    refine List.Perm.trans ?_ h5
    rw [recordsOf_eq h4]
    have e : ((surviving ltz tz r (LF.flatMap held)).filter
          (fun w => decide (∃ c ∈ cs, WrittenBy w c.ts))).filter (fun w => decide (WrittenBy w c.ts)) =
        (LF.flatMap held).filter (fun w => decide (WrittenBy w c.ts)) := by
      unfold surviving
      rw [List.filter_filter, List.filter_filter]
      refine List.filter_congr fun w hw => ?_
      by_cases h : WrittenBy w c.ts
      · have h' : ∃ c ∈ cs, WrittenBy w c.ts := ⟨c, hc, h⟩
        simp only [h, h', hall c hc w hw h, decide_true, Bool.and_self]
      · simp [h]
    rw [e, List.filter_flatMap, List.flatMap_assoc, List.flatMap_assoc]
    refine perm_sub _ hnd h1 h2 ?_
    intro l hl hnot
    have : (held l).filter (fun w => decide (WrittenBy w c.ts)) = [] := by
      rw [List.filter_eq_nil_iff]
      intro w hw h
      exact hnot (h3 l hl w hw (of_decide_eq_true h))
    show List.flatMap _ (List.filter _ _) = []
    rw [this]; rfl

/-! ## Reading -/

/-- A read that merges nothing: the rows of the base file in the range, followed by those of the surviving
blocks. -/
theorem readFileSlice_every {C : Codec} {A : Arrow} (M : MergeEnv A) {ltz : LocalTz} {o : Opts} {t : Tree}
    {s : FileSlice} {b : Batch} {tz : Str} {held : LogFile → List WBlock} (hk : ¬ OverwritesWithLatest o)
    (hro : ¬ ReadOptimized o) (htz : timezoneOf o = .ok tz) (hr : RangeParses ltz (rangeOf o tz))
    (h : SliceFiles C ltz tz t (rangeOf o tz) s b (s.logFiles.map held))
    (htime : startOf o ≠ none → MetaFields o → HasCommitTime b.schema) :
    ∃ rows logRows, readFileSlice C A M ltz o t s = .ok ⟨b.schema, rows ++ logRows⟩ ∧ BaseRows o b rows ∧
      RecordsOf C (surviving ltz tz (rangeOf o tz) (s.logFiles.map held).flatten) logRows := by
  by_cases hl : s.logFiles = []
  · obtain ⟨rows, h1, h2⟩ := readBaseFile_eq (A := A) (o := o) h.base h.baseWf htime
    refine ⟨rows, [], ?_, h2, ?_⟩
    · unfold readFileSlice FileSlice.hasLogFile
      rw [if_pos (by simp [hl]), h1, List.append_nil]
    · rw [hl]
      exact ⟨[], .nil, rfl⟩
  · obtain ⟨rows, bss, h1, h2, h3⟩ := readMerged_eq (M := M) hl hro h.base h.baseWf htime htz hr h.logs
    have hsub := baseRows_sub h2
    have h4 := C38_append_only A M o b.schema (⟨b.schema, rows⟩ :: bss.flatten)
      (fun x hx => by
        rcases List.mem_cons.1 hx with rfl | hx
        · exact ⟨fun r hr => h.baseWf r (hsub r hr), rfl⟩
        · exact fit_all h.fit h3 x hx) hk
    exact ⟨rows, _, by rw [h1, h4]; simp, h2, ⟨bss, h3, rfl⟩⟩

theorem nodup_named {s : FileSlice} {v : Version} (hs : ShowsVersion s v)
    (hsort : SetSorted LogFile.cmp s.logFiles) :
    (s.logFiles.map (fun l => (l.version, l.writeToken))).Nodup := by
  unfold List.Nodup
  rw [List.pairwise_map]
  refine (List.Pairwise.and_mem.1 hsort).imp ?_
  rintro a b ⟨ha, hb, hab⟩ e
  have e1 : a.version = b.version := congrArg Prod.fst e
  have e2 : a.writeToken = b.writeToken := congrArg Prod.snd e
  unfold LogFile.cmp at hab
  rw [(hs.2.2.2.1 a ha).2.1, (hs.2.2.2.1 b hb).2.1, e1, e2] at hab
  simp only [Std.ReflCmp.compare_self (cmp := (compare : Str → Str → Ordering))] at hab
  cases hab

end Hudi
