import Verif.Spec.Counted
import Verif.Props.Writer
import Verif.Props.Appended

/-! # Reading tables that keep every record and hold remains of writes -/

namespace Hudi
open Spec

/-- The commits that appended to the version of a file group as of `ts`. -/
theorem EndsWith.appendedTo {h : History} {n : Nat} (hw : h.WF n) {ts : Str} {k : GroupKey} {h1 h2 h3 : History}
    {c0 : HCommit} {token : Str} (he : EndsWith h ts k h1 h2 h3 c0 token) {c : HCommit} :
    (AppendedTo h k c0.ts c ∧ (compare c.ts ts).isLE = true) ↔ ∃ ls, c ∈ h2 ∧ c.changeOf k = some (.append ls) := by
  constructor
  · rintro ⟨⟨a, b, ls, v', f1, f2, f3, f4⟩, hle⟩
    obtain ⟨a1, d', a2, g1, g2, g3, g4, _⟩ := versionAfter_some.1 f3
    subst g1
    have f1' : h = a1 ++ d' :: (a2 ++ c :: b) := by rw [f1]; simp
    obtain ⟨rfl, rfl, hrest⟩ := split_unique hw.ordered he.split f1' (by rw [g3, f4])
    refine ⟨ls, ?_, (hw.of_mem (by rw [f1]; simp)).2 f2⟩
    have hmem : c ∈ h2 ++ h3 := by rw [hrest]; simp
    rcases List.mem_append.1 hmem with hm | hm
    · exact hm
    · rw [he.late c hm] at hle
      cases hle
  · rintro ⟨ls, hc, hch⟩
    have hle := he.early c (by simp [hc])
    obtain ⟨a, b, rfl⟩ := List.append_of_mem hc
    refine ⟨⟨h1 ++ c0 :: a, b ++ h3, ls, ⟨c0.ts, token, appendsUntilWrite a k⟩, he.split.trans (by simp),
      changeOf_mem hch, ?_, rfl⟩, hle⟩
    exact versionAfter_some.2 ⟨h1, c0, a, rfl, he.write, rfl, fun c hc => he.quiet c (by simp [hc]), rfl⟩

/-- A block without records. -/
theorem recordsIn_rollback {C : Codec} {w : WBlock} (h : IsRollback w) : recordsIn C w = [] := by
  unfold recordsIn
  split
  · rename_i hx
    rw [rollback_decodes h (Classical.choose_spec hx)]
    rfl
  · rfl

open Classical in
/-- The records in the surviving blocks of a file group. -/
theorem counted_rows {C : Codec} {ltz : LocalTz} {tz ts : Str} {h : History} {n : Nat} (hw : h.WF n)
    (hmono : MonotoneTz ltz) (hsec : WholeSecondsTz ltz) (hts : WriterTimestamp ts ∧ ts.length = n)
    {d : DateTime} (hd : parseDatetime ltz ts tz = .ok d) {k : GroupKey} {v : Version}
    (hv : tableAt h ts k = some v) {t : Tree} {held : Str → List WBlock} {cols : Columns} {W : Written}
    (hr : CountedUpTo C ltz tz cols t h W held ts) (hset : Settled ltz tz ts t h held) {LF : List LogFile}
    (hnd : LF.Nodup) (hLF : ∀ l, l ∈ LF ↔ LogOf t k v.base l) {logRows : List (List Cell)}
    (hl : RecordsOf C (surviving ltz tz ⟨tz, none, some ts, false, true⟩
      (LF.flatMap (fun l => held (pathPush k.1 l.fileName)))) logRows) :
    (W.base v.base k ++ logRows).Perm (recordsAt W h ts k) := by
  obtain ⟨h1, h2, h3, c0, he, hb⟩ := endsWith_of hw hv
  have happ := fun {c} => he.appendedTo hw (c := c)
  rw [hb] at happ
  have hin : ∀ w, w ∈ LF.flatMap (fun l => held (pathPush k.1 l.fileName)) ↔ StoredBlock t held k v.base w := by
    intro w
    rw [List.mem_flatMap]
    exact ⟨fun ⟨l, q1, q2⟩ => ⟨l, (hLF l).1 q1, q2⟩, fun ⟨l, q1, q2⟩ => ⟨l, (hLF l).2 q1, q2⟩⟩
  have hmem : ∀ c ∈ h2, c ∈ h := by intro c hc; rw [he.split]; simp [hc]
  have upTo : ∀ w c, StoredBlock t held k v.base w → c ∈ h → WrittenBy w c.ts →
      (WrittenUpTo ltz tz ts w ↔ (compare c.ts ts).isLE = true) := by
    intro w c hb hc hwr
    obtain ⟨q1, q2⟩ := hw.times c hc
    exact writtenUpTo_iff hmono hsec q1 hts.1 (by rw [q2, hts.2]) hd (hr.blocks k v w hv hb).1.time hwr
  have hcs : ∀ c ∈ h2.filter (fun c => (c.changeOf k).isSome), c ∈ h2 ∧ AppendedTo h k v.base c ∧
      (compare c.ts ts).isLE = true := by
    intro c hc
    obtain ⟨hc2, hsome⟩ := List.mem_filter.1 hc
    rcases he.quiet c hc2 with hno | ⟨ls, hch⟩
    · rw [hno] at hsome; cases hsome
    · exact ⟨hc2, happ.2 ⟨ls, hc2, hch⟩⟩
  have key := surviving_appended (C := C) (ltz := ltz) (tz := tz) (W := W) (k := k)
    (held := fun l : LogFile => held (pathPush k.1 l.fileName)) (cs := h2.filter (fun c => (c.changeOf k).isSome))
    hnd ?_ ?_ ?_ hl
  · rw [recordsAt_eq he, hb]
    refine List.Perm.append_left _ (key.trans ?_)
    refine List.Perm.of_eq ((congrArg _ ?_).trans (List.append_nil _))
    rw [List.flatMap_eq_nil_iff]
    intro w hw'
    obtain ⟨hs, hno⟩ := List.mem_filter.1 hw'
    have hno := of_decide_eq_true hno
    rw [mem_surviving] at hs
    obtain ⟨q1, q2, q3⟩ := hs
    rw [blockIn_upTo] at q2
    have hb' := (hin w).1 q1
    obtain ⟨i, _, _, hwr, _⟩ := id q2
    rcases hset k v w i hv hb' hwr q2 with hroll | ⟨c, hap, rfl⟩ | ⟨w', g1, g2, g3⟩
    · exact recordsIn_rollback hroll
    · have hc : c ∈ h := by
        obtain ⟨a, b, _, _, e, _⟩ := hap
        rw [e]; simp
      have hle := (upTo w c hb' hc hwr).1 q2
      obtain ⟨ls, hc2, hch⟩ := happ.1 ⟨hap, hle⟩
      exact absurd ⟨c, List.mem_filter.2 ⟨hc2, by rw [hch]; rfl⟩, hwr⟩ hno
    · exact absurd ⟨w', (hin w').2 g1, blockIn_upTo.2 g3, i, g2, hwr⟩ q3
  · have ho := hw.ordered
    rw [he.split] at ho
    have := (List.pairwise_cons.1 (List.pairwise_append.1 ho).2.1).2
    exact (List.pairwise_append.1 this).1.sublist List.filter_sublist
  · intro c hc
    obtain ⟨_, hap, hle⟩ := hcs c hc
    obtain ⟨ls, r1, r2, r3, r4⟩ := hr.rows k v c hv hap hle
    exact ⟨ls, r1, fun l hl => (hLF l).2 (r2 l hl), fun l hl => r3 l ((hLF l).1 hl), r4⟩
  · intro c hc w hw' hwr
    obtain ⟨hc2, hap, hle⟩ := hcs c hc
    have hb' := (hin w).1 hw'
    refine ⟨blockIn_upTo.2 ((upTo w c hb' (hmem c hc2) hwr).2 hle), ?_⟩
    rintro ⟨w', hw'', hup', i, hrb, hwr'⟩
    unfold WrittenBy at hwr hwr'
    rw [hwr] at hwr'
    exact hr.rollbacks k v w' i hv ((hin w').1 hw'') (blockIn_upTo.1 hup') hrb c hap (Option.some.inj hwr')

/-- Reading the snapshot as of `ts` of a table that keeps every record, through a handle that was opened earlier. -/
theorem every_upTo {E : Env} {A : Arrow} {C : Codec} (M : MergeEnv A) {o : Opts} {t0 t : Tree}
    {tb : Table} {tz : Str} {h : History} {n : Nat} {filters : List (Str × Str × Str)} {fs : List Filter}
    {pcols : Schema} {hive url : Bool} (hmono : MonotoneTz E.ltz) (hsec : WholeSecondsTz E.ltz) {ts : Str}
    (hl : ReadableUpTo E A o t0 t tb tz h n ts filters fs pcols hive url) (hm : AppendingReader tb tz)
    {cols : Columns} {W : Written} {held : Str → List WBlock}
    (hr : CountedUpTo C E.ltz tz cols t h W held ts) (hset : Settled E.ltz tz ts t h held)
    (hts : WriterTimestamp ts ∧ ts.length = n) (hd : ∃ d, parseDatetime E.ltz ts tz = .ok d) :
    ∃ outs, (tb.readSnapshotAsOf E A C M t ts filters []).2 = .ok outs ∧
      ReadsAll cols (tableAt h ts) (Kept A pcols hive url fs) (recordsAt W h ts) outs := by
  classical
  have hw := hl.history
  obtain ⟨ss, hss, hsh⟩ := C81_slices_as_of E A o t0 t tb tz h n filters fs pcols hive url hmono ts hl hts hd
    (fun c hc hle x f token hm => parquetIn_of_at hl.history hc hm (hr.bases c hc hle _ _ hm).1)
  obtain ⟨d, hd⟩ := hd
  have hwrite : ∀ k v, tableAt h ts k = some v → ∃ c ∈ h, (compare c.ts ts).isLE = true ∧
      (k, Change.write v.token) ∈ c.changes ∧ c.ts = v.base := by
    intro k v hv
    obtain ⟨h1, c0, h2, e1, e2, e3, _⟩ := versionAfter_some.1 (show versionAfter _ k = some v from hv)
    have : c0 ∈ h.filter (fun c => (compare c.ts ts).isLE) := by rw [e1]; simp
    exact ⟨c0, (List.mem_filter.1 this).1, (List.mem_filter.1 this).2, changeOf_mem e2, e3⟩
  unfold Table.fileSlicesAsOf at hss
  obtain ⟨fs', hf, hss⟩ := Query.bind_lift_snd.1 hss
  obtain ⟨excl, sc, p, _, _, _, hview⟩ := fileSlicesInternal_ok.1 hss
  have hsort := view_sorted hl.tree hview
  have hget := hmGet_readerOpts hm.plain [(Cfg.fileGroupEndTimestamp.key, ts)]
    (by intro e he; rw [List.mem_singleton.1 he]; rfl)
  generalize ho : tb.readerOpts [(Cfg.fileGroupEndTimestamp.key, ts)] = ro at hget
  have hother : ∀ k, k ≠ c!"hoodie.read.file_group.end_timestamp" → hmGet k ro = hmGet k tb.opts := by
    intro k hk
    rw [hget]
    simp only [List.reverse_singleton, hmGet]
    rw [if_neg (by rw [show Cfg.fileGroupEndTimestamp.key =
      c!"hoodie.read.file_group.end_timestamp" from rfl]; exact hk)]
    rfl
  have hs' : startOf ro = none := by
    unfold startOf; rw [hother _ (by decide)]; exact hm.noStart
  have he' : endOf ro = some ts := by
    unfold endOf; rw [hget]; rfl
  have hk' : ¬ OverwritesWithLatest ro := by
    rw [overwrites_congr (hother _ (by decide)) (hother _ (by decide)) (hother _ (by decide))]
    exact hm.keeps
  have hro' : ¬ ReadOptimized ro := by
    unfold ReadOptimized; rw [hother _ (by decide)]; exact hm.notReadOptimized
  have htz' : timezoneOf ro = .ok tz := by rw [timezoneOf_congr (hother _ (by decide)), hm.zone]
  have hrange : rangeOf ro tz = ⟨tz, none, some ts, false, true⟩ := by
    unfold rangeOf; rw [hs', he']
  have hsl : ∀ s ∈ ss, ∃ out, readFileSlice C A M E.ltz ro t s = .ok out ∧
      ∃ v, tableAt h ts (sliceKey s) = some v ∧ out.schema = cols v.base (sliceKey s) ∧
        out.rows.Perm (recordsAt W h ts (sliceKey s)) := by
    intro s hs
    obtain ⟨v, hv, b1, b2, b3, hlog⟩ := hsh.versions s hs
    obtain ⟨c, hc, hle, hch, hct⟩ := hwrite _ v hv
    have hb := hr.bases c hc hle _ _ hch
    rw [hct] at hb
    have hpath : s.basePath = basePathOf (sliceKey s) v.token v.base := by
      unfold FileSlice.basePath FileSlice.relativePathFor basePathOf BaseFile.fileName baseName
      rw [b1, b2, b3]
      simp [sliceKey]
    have hstored := slice_stored hsh hs hv held
    obtain ⟨rows, logRows, r1, r2, r3⟩ := readFileSlice_every (A := A) (C := C) (t := t) M (s := s)
      (b := ⟨cols v.base (sliceKey s), W.base v.base (sliceKey s)⟩)
      (held := fun l => held (s.logPath l)) hk' hro' htz'
      (by rw [hrange]; exact ⟨by simp, by simpa using ⟨d, hd⟩⟩)
      (by
        refine ⟨by rw [hpath]; exact hb.1, hb.2, good_logs (fun l hl => ?_), ?_⟩
        · have hof := (hlog l).1 hl
          exact ⟨hr.logs _ v l hv hof, fun w hw => (hr.blocks _ v w hv ⟨l, hof, hw⟩).1⟩
        · intro w hw
          exact (hr.blocks _ v w hv ((hstored w).1 (List.mem_filter.1 hw).1)).2 w (by simp))
      (fun h => absurd hs' h)
    unfold BaseRows at r2
    rw [hs'] at r2
    simp only at r2
    subst r2
    refine ⟨_, r1, v, hv, rfl, ?_⟩
    rw [hrange] at r3
    have hnd : s.logFiles.Nodup := (hsort s hs).imp (fun {a b} hab e => by
      subst e
      exact absurd hab (by rw [show LogFile.cmp a a = .eq from LogFile.cmp_eq_iff.2 ⟨rfl, rfl, rfl⟩]; decide))
    exact counted_rows hw hmono hsec hts hd hv hr hset hnd hlog (by rw [List.flatMap_def]; exact r3)
  obtain ⟨outs, o1, o2⟩ := mapL_forall₂ hsl
  refine ⟨outs, Query.bind_lift_snd.2 ⟨fs', hf, ?_⟩, ss.map sliceKey, hsh.distinct, ?_, ?_⟩
  · unfold Table.readSnapshotInternal
    rw [Query.bind_snd]
    refine ⟨ss, hss, ?_⟩
    rw [ho]
    exact o1
  · intro k
    rw [List.mem_map, hsh.groups k]
  · rw [List.forall₂_map_left_iff]
    exact o2

end Hudi
