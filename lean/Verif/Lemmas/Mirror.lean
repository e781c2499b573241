import Verif.Spec.Mirror
import Verif.Lemmas.Tail
import Verif.Lemmas.Records
import Mathlib.Tactic.Common

/-!
# The latest versions of records as a table changes
-/

namespace Hudi

open Spec

theorem rel_le {α : Type} [LT α] [LE α] {a b : α} : rel c!"<=" a b ↔ a ≤ b := by
  unfold rel
  simp

theorem relOrd_le {o : Ordering} : relOrd c!"<=" o ↔ o.isLE = true := by
  unfold relOrd
  cases o <;> simp

theorem cellLE_trans {A : Arrow} {a b c : Cell} (h1 : CellLE A a b) (h2 : CellLE A b c) : CellLE A a c := by
  have := A.cmpOther_trans
  rcases h1 with rfl | ⟨v, w, rfl, rfl, h1⟩
  · exact .inl rfl
  · rcases h2 with h | ⟨w', u, e, rfl, h2⟩
    · cases h
    · cases e
      refine .inr ⟨v, u, rfl, rfl, ?_⟩
      cases h1 with
      | int a b h => cases h2 with | int _ c h' => exact .int _ _ (rel_le.2 (Int.le_trans (rel_le.1 h) (rel_le.1 h')))
      | str a b h => cases h2 with | str _ c h' => exact .str _ _ (rel_le.2 (List.le_trans (rel_le.1 h) (rel_le.1 h')))
      | bool a b h => cases h2 with | bool _ c h' => exact .bool _ _ (rel_le.2 (Bool.le_trans (rel_le.1 h) (rel_le.1 h')))
      | opq a b h => cases h2 with | opq _ c h' =>
        exact .opq _ _ (relOrd_le.2 (Std.TransCmp.isLE_trans (relOrd_le.1 h) (relOrd_le.1 h')))

theorem versionLE_trans {A : Arrow} {schema : Schema} {pre : Str} {a b c : List Cell} (h1 : VersionLE A schema pre a b)
    (h2 : VersionLE A schema pre b c) : VersionLE A schema pre a c :=
  ⟨cellLE_trans h1.1 h2.1, fun h => cellLE_trans (h1.2 (cellLE_trans h2.1 h)) (h2.2 (cellLE_trans h h1.1))⟩

/-- What the copy becomes. -/
theorem copy_step {A : Arrow} {schema : Schema} {pre : Str} {V V' : List Cell → Prop} {C R C' : List (List Cell)}
    (hC : LatestOf A schema pre V C)
    (kept : ∀ r, V r → ∃ r', V' r' ∧ keyOf schema r' = keyOf schema r ∧ VersionLE A schema pre r r')
    (fresh : ∀ r, V' r → V r ∨ ∃ r'' ∈ R, keyOf schema r'' = keyOf schema r ∧ VersionLE A schema pre r r'')
    (hR : ∀ r ∈ R, V' r)
    (ties : ∀ r r', V r → V' r' → keyOf schema r = keyOf schema r' → VersionLE A schema pre r r' →
      VersionLE A schema pre r' r → r = r')
    (h : LatestVersions A schema pre (C ++ R) C') : LatestOf A schema pre V' C' := by
  have hlatest : ∀ r ∈ C', ∀ r', V' r' → keyOf schema r' = keyOf schema r → VersionLE A schema pre r' r := by
    intro r hr r' hr' hk
    rcases fresh r' hr' with hv | ⟨r'', h1, h2, h3⟩
    · obtain ⟨c, hc, e⟩ := hC.all r' hv
      exact versionLE_trans (hC.latest c hc r' hv e.symm) (h.latest r hr c (by simp [hc]) (e.trans hk))
    · exact versionLE_trans h3 (h.latest r hr r'' (by simp [h1]) (h2.trans hk))
  refine ⟨?_, h.one, ?_, hlatest⟩
  · intro r hr
    rcases List.mem_append.1 (h.sound r hr) with hc | hc
    · have hv := hC.sound r hc
      obtain ⟨r', h1, h2, h3⟩ := kept r hv
      rw [ties r r' hv h1 h2.symm h3 (hlatest r hr r' h1 h2)]
      exact h1
    · exact hR r hc
  · intro r hr
    rcases fresh r hr with hv | ⟨r'', h1, h2, h3⟩
    · obtain ⟨c, hc, e⟩ := hC.all r hv
      obtain ⟨c', hc', e'⟩ := h.all c (by simp [hc])
      exact ⟨c', hc', e'.trans e⟩
    · obtain ⟨c', hc', e'⟩ := h.all r'' (by simp [h1])
      exact ⟨c', hc', e'.trans h2⟩

/-- Latest versions, first of each part and then of all. -/
theorem latest_of_parts {A : Arrow} {schema : Schema} {pre : Str} {V : List Cell → Prop} {R C : List (List Cell)}
    (hR : ∀ r ∈ R, V r) (hV : ∀ r, V r → ∃ r' ∈ R, keyOf schema r' = keyOf schema r ∧ VersionLE A schema pre r r')
    (h : LatestVersions A schema pre R C) : LatestOf A schema pre V C := by
  refine ⟨fun r hr => hR r (h.sound r hr), h.one, fun r hr => ?_, fun r hr r' hr' hk => ?_⟩
  · obtain ⟨r', h1, h2, _⟩ := hV r hr
    obtain ⟨c, hc, e⟩ := h.all r' h1
    exact ⟨c, hc, e.trans h2⟩
  · obtain ⟨r'', h1, h2, h3⟩ := hV r' hr'
    exact versionLE_trans h3 (h.latest r hr r'' h1 (h2.trans hk))

theorem parts_of_latest {A : Arrow} {schema : Schema} {pre : Str} {V : List Cell → Prop} {R C : List (List Cell)}
    (hR : ∀ r ∈ R, V r) (hV : ∀ r, V r → ∃ r' ∈ R, keyOf schema r' = keyOf schema r ∧ VersionLE A schema pre r r')
    (ties : ∀ r r', V r → V r' → keyOf schema r = keyOf schema r' → VersionLE A schema pre r r' →
      VersionLE A schema pre r' r → r = r')
    (h : LatestOf A schema pre V C) : LatestVersions A schema pre R C := by
  refine ⟨fun r hr => ?_, h.one, fun r hr => h.all r (hR r hr), fun r hr r' hr' => h.latest r hr r' (hR r' hr')⟩
  obtain ⟨r', h1, h2, h3⟩ := hV r (h.sound r hr)
  rw [ties r r' (h.sound r hr) (hR r' h1) h2.symm h3 (h.latest r hr r' (hR r' h1) h2)]
  exact h1

/-! ## Tables after further writes -/

theorem upserts_kept {A : Arrow} {schema : Schema} {pre : Str} {js : List Job} (more : List Job)
    (h : AllUpserts A schema pre (js ++ more)) (r : List Cell) (hr : InTable js r) :
    ∃ r', InTable (js ++ more) r' ∧ keyOf schema r' = keyOf schema r ∧ VersionLE A schema pre r r' := by
  induction more using List.reverseRec with
  | nil => exact ⟨r, by simpa using hr, rfl, versionLE_refl A schema pre r⟩
  | append_singleton more j ih =>
    obtain ⟨r', h1, h2, h3⟩ := ih (by
      rintro d1 j' d2 e
      exact h d1 j' (d2 ++ [j]) (by rw [← List.append_assoc, e]; simp))
    obtain ⟨r'', h4, h5, h6⟩ := (h (js ++ more) j [] (by simp)).kept r' h1
    exact ⟨r'', by rw [← List.append_assoc]; exact h4, h5.trans h2, versionLE_trans h3 h6⟩

theorem upserts_dated {A : Arrow} {schema : Schema} {pre : Str} {js : List Job} (more : List Job)
    (h : AllUpserts A schema pre (js ++ more)) (r : List Cell) (hr : InTable (js ++ more) r) :
    InTable js r ∨ ∃ j ∈ more, commitTimeOf schema r = some j.commit.ts := by
  induction more using List.reverseRec with
  | nil => exact .inl (by simpa using hr)
  | append_singleton more j ih =>
    rw [← List.append_assoc] at hr
    rcases (h (js ++ more) j [] (by simp)).dated r hr with h1 | h1
    · rcases ih (by
        rintro d1 j' d2 e
        exact h d1 j' (d2 ++ [j]) (by rw [← List.append_assoc, e]; simp)) h1 with h2 | ⟨j', hj', h2⟩
      · exact .inl h2
      · exact .inr ⟨j', by simp [hj'], h2⟩
    · exact .inr ⟨j, by simp, h1⟩

theorem upserts_columns {A : Arrow} {schema : Schema} {pre : Str} {js : List Job} (h : AllUpserts A schema pre js)
    (hu : ∀ j ∈ js, ∀ j' ∈ js, j.commit.ts = j'.commit.ts → j = j') {k : GroupKey} {v : Version}
    (hv : versionAfter (commitsOf js) k = some v) : columnsBy js v.base k = schema := by
  obtain ⟨j, hj, h1, h2⟩ := version_job hv
  obtain ⟨d1, d2, e⟩ := List.append_of_mem hj
  unfold columnsBy
  rw [← h2, jobAt_mem hu hj]
  exact (h d1 j d2 e).columns k _ h1

theorem recordsAfter_concat {W : Written} {h : History} {c : HCommit} {k : GroupKey} :
    recordsAfter W (h ++ [c]) k = match c.changeOf k with
      | none => recordsAfter W h k
      | some (.write _) => W.base c.ts k
      | some (.append _) => recordsAfter W h k ++ W.appended c.ts k
      | some .replace => [] := by
  unfold recordsAfter
  rw [List.foldl_append]
  rfl

theorem versionAfter_concat {h : History} {c : HCommit} {k : GroupKey} :
    versionAfter (h ++ [c]) k = match c.changeOf k with
      | none => versionAfter h k
      | some ch => ch.apply c.ts (versionAfter h k) := by
  unfold versionAfter
  rw [List.foldl_append]
  rfl

/-- What file groups that are not in the table have held is not in it. -/
theorem records_version {S : Setting} {js : List Job} (hj : ∀ d1 j d2, js = d1 ++ j :: d2 → JobOk S d1 j) {W : Written}
    {k : GroupKey} {r : List Cell} (hr : r ∈ recordsAfter W (commitsOf js) k) : versionAfter (commitsOf js) k ≠ none := by
  induction js using List.reverseRec with
  | nil => cases hr
  | append_singleton js j ih =>
    have hj' : ∀ d1 j d2, js = d1 ++ j :: d2 → JobOk S d1 j := by
      rintro d1 j' d2 rfl
      exact hj d1 j' (d2 ++ [j]) (by simp)
    have hjob := hj js j [] rfl
    have e : commitsOf (js ++ [j]) = commitsOf js ++ [j.commit] := by simp [commitsOf]
    rw [e, recordsAfter_concat] at hr
    rw [e, versionAfter_concat]
    cases hc : j.commit.changeOf k with
    | none =>
      rw [hc] at hr
      exact ih hj' hr
    | some ch =>
      rw [hc] at hr
      cases ch with
      | write token => simp [Change.apply]
      | append ls =>
        have := hjob.live k ls (changeOf_mem hc)
        show Change.apply _ _ _ ≠ none
        cases hv : versionAfter (commitsOf js) k with
        | none => exact absurd hv this
        | some v => simp [Change.apply]
      | replace => cases hr

theorem recordsAfter_unchanged {W : Written} {h more : History} {k : GroupKey}
    (hn : ∀ c ∈ more, ∀ ch, (k, ch) ∉ c.changes) : recordsAfter W (h ++ more) k = recordsAfter W h k := by
  induction more using List.reverseRec with
  | nil => simp
  | append_singleton more c ih =>
    rw [← List.append_assoc, recordsAfter_concat]
    have : c.changeOf k = none := by
      cases hc : c.changeOf k with
      | none => rfl
      | some ch => exact absurd (changeOf_mem hc) (hn c (by simp) ch)
    rw [this]
    exact ih (fun c' hc' => hn c' (by simp [hc']))

/-- A version that is new in the table is in a file group that has changed. -/
theorem changed_of_new {js more : List Job} {k : GroupKey} {r : List Cell}
    (hr : r ∈ recordsAfter (rowsOf (js ++ more)) (commitsOf (js ++ more)) k) (hn : ¬ InTable js r) :
    ∃ j ∈ more, ∃ ch, (k, ch) ∈ j.commit.changes := by
  by_contra hno
  apply hn
  refine ⟨k, ?_⟩
  rw [commitsOf_append, recordsAfter_unchanged (fun c hc ch h => by
    obtain ⟨j, hj, rfl⟩ := mem_commitsOf.1 hc
    exact hno ⟨j, hj, ch, h⟩)] at hr
  rw [recordsAfter_same (W := rowsOf js) (W' := rowsOf (js ++ more))]
  · exact hr
  · intro c hc
    obtain ⟨j, hj, rfl⟩ := mem_commitsOf.1 hc
    have := jobAt_append (js := js) (more := more) (ts := j.commit.ts) ⟨j, hj, rfl⟩
    simp only [rowsOf, this, and_self]

end Hudi
