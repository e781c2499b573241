import Verif.Spec.Records
import Verif.Lemmas.Stored
import Verif.Props.TimeTravel

/-! # Lemmas on the records of commit histories -/

namespace Hudi
open Spec

/-! ## Times -/

/-- Of two timestamps of the same width, the earlier one as text is the earlier one as a time. -/
theorem writer_before {ltz : LocalTz} (hmono : MonotoneTz ltz) (hsec : WholeSecondsTz ltz)
    {tz a b : Str} {da db : DateTime} (ha : WriterTimestamp a) (hb : WriterTimestamp b)
    (hlen : a.length = b.length) (hpa : parseDatetime ltz a tz = .ok da)
    (hpb : parseDatetime ltz b tz = .ok db) :
    ((compare a b).isLE = true ↔ Before da db ∨ da = db) ∧ (compare a b = .lt ↔ Before da db) := by
  have hc := C04_same_width_partial ltz hmono tz a b da db ha hb hlen hpa hpb
  have frac : ∀ (x : Str) (d : DateTime), WriterTimestamp x → parseDatetime ltz x tz = .ok d →
      ∃ m, m < 1000 ∧ d.nanos = m * 1000000 := by
    intro x d hx hp
    obtain ⟨n, h1, h2⟩ := naive_of_datetime hp
    obtain ⟨H, T, dh, _, _, e2, _, _, e5, _, e7⟩ := writer_split hx h1
    refine ⟨natOfDigits T, tail_ms e2 e5, ?_⟩
    rcases h2 with ⟨_, h⟩ | ⟨_, h⟩
    · rw [h, e7]
    · rw [hsec _ _ h, e7]
  obtain ⟨m, m1, m2⟩ := frac a da ha hpa
  obtain ⟨m', m1', m2'⟩ := frac b db hb hpb
  have key : da.epochMillis < db.epochMillis ↔ Before da db := by
    unfold DateTime.epochMillis Before
    rw [m2, m2']
    have e : ∀ n : Nat, (n * 1000000 / 1000000 : Nat) = n := fun n => by omega
    rw [e, e]
    omega
  have key' : da.epochMillis = db.epochMillis ↔ da = db := by
    constructor
    · intro h
      unfold DateTime.epochMillis at h
      rw [m2, m2'] at h
      have e : ∀ n : Nat, (n * 1000000 / 1000000 : Nat) = n := fun n => by omega
      rw [e, e] at h
      have h1 : da.secs = db.secs := by omega
      have h2 : da.nanos = db.nanos := by omega
      cases da; cases db; simp_all
    · rintro rfl; rfl
  rw [hc, Int.isLE_compare, Int.compare_eq_lt, key, ← key', ← key]
  exact ⟨by omega, Iff.rfl⟩

theorem blockIn_upTo {ltz : LocalTz} {tz ts : Str} {w : WBlock} :
    BlockIn ltz tz ⟨tz, none, some ts, false, true⟩ w ↔ WrittenUpTo ltz tz ts w := by
  unfold BlockIn WrittenUpTo InRange BeforeEnd
  constructor
  · rintro ⟨i, d, h1, h2, _, h3⟩
    obtain ⟨e, h4, h5⟩ := h3 ts rfl
    exact ⟨i, d, e, h1, h2, h4, h5.imp_right fun h => h.2⟩
  · rintro ⟨i, d, e, h1, h2, h3, h4⟩
    refine ⟨i, d, h1, h2, (by intro s hs; cases hs), ?_⟩
    intro s hs
    cases hs
    exact ⟨e, h3, h4.imp_right fun h => ⟨rfl, h⟩⟩

theorem writtenUpTo_iff {ltz : LocalTz} (hmono : MonotoneTz ltz) (hsec : WholeSecondsTz ltz)
    {tz ts i : Str} {d : DateTime} {w : WBlock} (hi : WriterTimestamp i) (hts : WriterTimestamp ts)
    (hlen : i.length = ts.length) (hd : parseDatetime ltz ts tz = .ok d)
    (hgood : ∃ i d, WrittenBy w i ∧ parseDatetime ltz i tz = .ok d) (hw : WrittenBy w i) :
    WrittenUpTo ltz tz ts w ↔ (compare i ts).isLE = true := by
  obtain ⟨i', e, h1, h2⟩ := hgood
  unfold WrittenBy at h1 hw
  rw [hw] at h1; cases h1
  rw [(writer_before hmono hsec hi hts hlen h2 hd).1]
  constructor
  · rintro ⟨j, x, y, k1, k2, k3, k4⟩
    unfold WrittenBy at k1
    rw [hw] at k1; cases k1
    rw [h2] at k2; cases k2
    rw [hd] at k3; cases k3
    exact k4
  · intro h
    exact ⟨i, e, d, hw, h2, hd, h⟩

/-! ## Records after a history -/

theorem recordsAfter_quiet {W : Written} {k : GroupKey} {h2 : History} (hq : ∀ c ∈ h2, Quiet k c)
    (h1 : History) : recordsAfter W (h1 ++ h2) k = recordsAfter W h1 k ++
      h2.flatMap (fun c => match c.changeOf k with | none => [] | some _ => W.appended c.ts k) := by
  induction h2 using List.reverseRecOn with
  | nil => simp
  | append_singleton h2 c ih =>
    have ih := ih (fun c hc => hq c (by simp [hc]))
    rw [← List.append_assoc]
    unfold recordsAfter at ih ⊢
    rw [List.foldl_append, ih, List.flatMap_append]
    simp only [List.foldl_cons, List.foldl_nil, List.flatMap_cons, List.flatMap_nil, List.append_nil]
    rcases hq c (by simp) with h | ⟨ls, h⟩ <;> simp [h]

theorem mem_recordsAfter {W : Written} {k : GroupKey} {h1 h2 : History} {c0 : HCommit} {token : Str}
    (hc0 : c0.changeOf k = some (.write token)) (hq : ∀ c ∈ h2, Quiet k c) {r : List Cell} :
    r ∈ recordsAfter W (h1 ++ c0 :: h2) k ↔ r ∈ W.base c0.ts k ∨
      ∃ c ∈ h2, ∃ ls, c.changeOf k = some (.append ls) ∧ r ∈ W.appended c.ts k := by
  have e : h1 ++ c0 :: h2 = (h1 ++ [c0]) ++ h2 := by simp
  rw [e, recordsAfter_quiet hq, List.mem_append]
  have e1 : recordsAfter W (h1 ++ [c0]) k = W.base c0.ts k := by
    unfold recordsAfter
    rw [List.foldl_append]
    simp [hc0]
  rw [e1]
  refine or_congr_right ?_
  rw [List.mem_flatMap]
  refine exists_congr fun c => and_congr_right fun hc => ?_
  rcases hq c hc with h | ⟨ls, h⟩ <;> simp [h]

/-! ## Log files of a version -/

/-- The commits that appended against the base file that a commit wrote. -/
theorem appendsTo_iff {h : History} {n : Nat} (hw : h.WF n) {k : GroupKey} {h1 h2 : History} {c0 : HCommit}
    {token : Str} (he : h = h1 ++ c0 :: h2) (hc0 : c0.changeOf k = some (.write token)) {l : Str × Str}
    {c : HCommit} :
    AppendsTo h k c0.ts l c ↔ ∃ a b ls, h2 = a ++ c :: b ∧ (∀ c ∈ a, Quiet k c) ∧
      c.changeOf k = some (.append ls) ∧ l ∈ ls := by
  constructor
  · rintro ⟨a, b, ls, v, e1, e2, e3, e4, e5⟩
    obtain ⟨a1, d, a2, f1, f2, f3, f4, f5⟩ := versionAfter_some.1 e4
    subst f1
    have e1' : h = a1 ++ d :: (a2 ++ c :: b) := by rw [e1]; simp
    obtain ⟨rfl, rfl, rfl⟩ := split_unique hw.ordered he e1' (by rw [f3, e5])
    exact ⟨a2, b, ls, rfl, f4, (hw.of_mem (by rw [e1]; simp)).2 e2, e3⟩
  · rintro ⟨a, b, ls, rfl, e2, e3, e4⟩
    refine ⟨h1 ++ c0 :: a, b, ls, ⟨c0.ts, token, appendsUntilWrite a k⟩, by rw [he]; simp,
      changeOf_mem e3, e4, ?_, rfl⟩
    exact versionAfter_some.2 ⟨h1, c0, a, rfl, hc0, rfl, e2, rfl⟩

theorem versionLE_refl (A : Arrow) (schema : Schema) (pre : Str) (r : List Cell) :
    VersionLE A schema pre r r := by
  have : ∀ c : Cell, CellLE A c c := by
    intro c
    haveI := A.cmpOther_trans
    have hs : ∀ a, A.cmpOther a a ≠ .gt := by
      intro a; rw [Std.ReflCmp.compare_self (cmp := A.cmpOther)]; decide
    cases c with
    | none => exact .inl rfl
    | some v =>
      refine .inr ⟨v, v, rfl, rfl, ?_⟩
      cases v with
      | str a => exact .str _ _ (.inr (.inr (.inr (.inl ⟨rfl, List.le_refl _⟩))))
      | bool a => exact .bool _ _ (.inr (.inr (.inr (.inl ⟨rfl, Bool.le_refl _⟩))))
      | int a => exact .int _ _ (.inr (.inr (.inr (.inl ⟨rfl, Int.le_refl _⟩))))
      | opq a => exact .opq _ _ (.inr (.inr (.inr (.inl ⟨rfl, hs a⟩))))
  exact ⟨this _, fun _ => this _⟩

theorem latest_self {A : Arrow} {schema : Schema} {pre : Str} {rows : List (List Cell)}
    (hk : (rows.map (keyOf schema)).Nodup) : LatestVersions A schema pre rows rows where
  sound := fun _ h => h
  one := hk
  all := fun r hr => ⟨r, hr, rfl⟩
  latest := by
    intro r hr r' hr' e
    rw [List.inj_on_of_nodup_map hk hr' hr e]
    exact versionLE_refl _ _ _ _

theorem latest_congr {A : Arrow} {schema : Schema} {pre : Str} {rows rows' out : List (List Cell)}
    (h : ∀ r, r ∈ rows ↔ r ∈ rows') (hl : LatestVersions A schema pre rows out) :
    LatestVersions A schema pre rows' out where
  sound := fun r hr => (h r).1 (hl.sound r hr)
  one := hl.one
  all := fun r hr => hl.all r ((h r).2 hr)
  latest := fun r hr r' hr' => hl.latest r hr r' ((h r').2 hr')

theorem mem_surviving {ltz : LocalTz} {tz : Str} {r : InstantRange} {ws : List WBlock} {w : WBlock} :
    w ∈ surviving ltz tz r ws ↔ w ∈ ws ∧ Survives ltz tz r ws w := by
  unfold surviving
  simp only [List.mem_filter, decide_eq_true_eq]

theorem mem_recordsOf {C : Codec} {ws : List WBlock} {rows : List (List Cell)} (h : RecordsOf C ws rows)
    {r : List Cell} : r ∈ rows ↔ ∃ w ∈ ws, ∃ bs, Decodes C w bs ∧ r ∈ bs.flatMap Batch.rows := by
  obtain ⟨bss, h1, rfl⟩ := h
  induction h1 with
  | nil => simp
  | @cons w bs ws bss h _ ih =>
    rw [List.flatten_cons, List.flatMap_append, List.mem_append, ih]
    constructor
    · rintro (h' | ⟨w', h1, h2⟩)
      · exact ⟨w, by simp, bs, h, h'⟩
      · exact ⟨w', by simp [h1], h2⟩
    · rintro ⟨w', h1, bs', h2, h3⟩
      rcases List.mem_cons.1 h1 with rfl | h1
      · rw [decodes_det h2 h] at h3
        exact .inl h3
      · exact .inr ⟨w', h1, bs', h2, h3⟩

end Hudi
