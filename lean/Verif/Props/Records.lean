import Verif.Lemmas.Records
import Verif.Spec.Evolving
import Verif.Props.History
import Verif.Lemmas.Answers

/-!
# C59: the records of a snapshot are those the commit history produced

Reads of whole tables are compared with the model of a table in `Verif/Spec/Records.lean`.
-/

namespace Hudi
open Spec

/-- The log files that a slice shows, and the commits that appended to them. -/
structure SliceOf (h : History) (ts : Str) (k : GroupKey) (s : FileSlice) (h1 h2 h3 : History) (c0 : HCommit)
    (token : Str) : Prop where
  split : h = h1 ++ c0 :: (h2 ++ h3)
  upTo : h.filter (fun c => (compare c.ts ts).isLE) = h1 ++ c0 :: h2
  write : c0.changeOf k = some (.write token)
  quiet : ∀ c ∈ h2, Quiet k c
  early : ∀ c ∈ h2, (compare c.ts ts).isLE = true
  late : ∀ c ∈ h3, (compare c.ts ts).isLE = false
  base : s.basePath = basePathOf k token c0.ts
  logs : ∀ p, (∃ l ∈ s.logFiles, s.logPath l = p) ↔ ∃ e c, AppendsTo h k c0.ts e c ∧ p = logPathOf k c0.ts e
  paths : ∀ l ∈ s.logFiles, s.logPath l = logPathOf k c0.ts (l.version, l.writeToken)
  named : ∀ e, (∃ l ∈ s.logFiles, (l.version, l.writeToken) = e) ↔ ∃ c, AppendsTo h k c0.ts e c

theorem slice_of_version {h : History} {n : Nat} (hw : h.WF n) {ts : Str} {k : GroupKey} {s : FileSlice}
    {v : Version} (hk : sliceKey s = k) (hv : shownAt h ts k = some v) (hs : ShowsVersion s v) :
    ∃ h1 h2 h3 c0 token, SliceOf h ts k s h1 h2 h3 c0 token := by
  unfold shownAt at hv
  obtain ⟨v0, hv0, rfl⟩ := Option.map_eq_some_iff.1 hv
  have hsplit := history_split hw.ordered ts
  obtain ⟨h1, c0, h2, e1, e2, e3, e4, e5⟩ := versionAfter_some.1 (show versionAfter _ k = some v0 from hv0)
  obtain ⟨s1, s2, s3, s4, s5⟩ := hs
  simp only at s1 s2 s4 s5
  have hsp : h = h1 ++ c0 :: (h2 ++ h.filter (fun c => (compare c.ts ts).isGT)) := by
    rw [e1] at hsplit
    simpa using hsplit
  have hpath : ∀ l ∈ s.logFiles, s.logPath l = logPathOf k c0.ts (l.version, l.writeToken) := by
    intro l hl
    obtain ⟨q1, q2, q3⟩ := s4 l hl
    unfold FileSlice.logPath FileSlice.relativePathFor logPathOf LogFile.fileName logName
    rw [q1, q2, q3, ← hk, e3]
    simp [sliceKey]
  have hmem : ∀ e, e ∈ v0.logs ++ appendsUntilWrite (h.filter (fun c => (compare c.ts ts).isGT)) k ↔
      ∃ c, AppendsTo h k c0.ts e c := by
    intro e
    rw [e5, ← appends_append e4, mem_appends]
    constructor
    · rintro ⟨a, c, b, ls, g⟩
      exact ⟨c, (appendsTo_iff hw hsp e2).2 ⟨a, b, ls, g⟩⟩
    · rintro ⟨c, g⟩
      obtain ⟨a, b, ls, g⟩ := (appendsTo_iff hw hsp e2).1 g
      exact ⟨a, c, b, ls, g⟩
  refine ⟨h1, h2, _, c0, v0.token, hsp, e1, e2, e4, ?_, ?_, ?_, ?_, hpath,
    fun e => (s5 e).symm.trans (hmem e)⟩
  · intro c hc
    have : c ∈ h.filter (fun c => (compare c.ts ts).isLE) := by rw [e1]; simp [hc]
    exact (List.mem_filter.1 this).2
  · intro c hc
    have := (List.mem_filter.1 hc).2
    revert this
    cases compare c.ts ts <;> simp
  · unfold FileSlice.basePath FileSlice.relativePathFor basePathOf BaseFile.fileName baseName
    rw [s1, s2, s3, ← hk, e3]
    simp [sliceKey]
  · intro p
    constructor
    · rintro ⟨l, hl, rfl⟩
      obtain ⟨c, hc⟩ := (hmem _).1 ((s5 _).2 ⟨l, hl, rfl⟩)
      exact ⟨_, c, hc, hpath l hl⟩
    · rintro ⟨e, c, hc, rfl⟩
      obtain ⟨l, hl, rfl⟩ := (s5 e).1 ((hmem e).2 ⟨c, hc⟩)
      exact ⟨l, hl, hpath l hl⟩

theorem SliceOf.block {h : History} {ts : Str} {k : GroupKey} {s : FileSlice} {h1 h2 h3 : History}
    {c0 : HCommit} {token : Str} (hs : SliceOf h ts k s h1 h2 h3 c0 token) {held : Str → List WBlock}
    {w : WBlock} : w ∈ (s.logFiles.map (fun l => held (s.logPath l))).flatten ↔
      BlockOf h held k c0.ts w := by
  rw [List.mem_flatten]
  constructor
  · rintro ⟨ws, h1, h2⟩
    obtain ⟨l, hl, rfl⟩ := List.mem_map.1 h1
    obtain ⟨e, c, g1, g2⟩ := (hs.logs _).1 ⟨l, hl, rfl⟩
    exact ⟨e, c, g1, by rw [← g2]; exact h2⟩
  · rintro ⟨e, c, g1, g2⟩
    obtain ⟨l, hl, g3⟩ := (hs.logs _).2 ⟨e, c, g1, rfl⟩
    exact ⟨_, List.mem_map.2 ⟨l, hl, rfl⟩, by rw [g3]; exact g2⟩

/-- The version of the file group as of `ts`. -/
theorem SliceOf.table {h : History} {ts : Str} {k : GroupKey} {s : FileSlice} {h1 h2 h3 : History}
    {c0 : HCommit} {token : Str} (hs : SliceOf h ts k s h1 h2 h3 c0 token) :
    tableAt h ts k = some ⟨c0.ts, token, appendsUntilWrite h2 k⟩ := by
  unfold tableAt
  rw [hs.upTo]
  exact versionAfter_some.2 ⟨h1, c0, h2, rfl, hs.write, rfl, hs.quiet, rfl⟩

/-- The files of the slice. -/
theorem SliceOf.files {C : Codec} {ltz : LocalTz} {tz ts : Str} {h : History} {n : Nat} (hw : h.WF n)
    {k : GroupKey} {s : FileSlice} {h1 h2 h3 : History}
    {c0 : HCommit} {token : Str} (hs : SliceOf h ts k s h1 h2 h3 c0 token) {held : Str → List WBlock}
    {cols : Columns} {t : Tree} {W : Written} (hr : StoresEvolving C ltz tz cols t h W held)
    (r : InstantRange) :
    SliceFiles C ltz tz t r s ⟨cols c0.ts k, W.base c0.ts k⟩ (s.logFiles.map (fun l => held (s.logPath l))) := by
  have hc0 : c0 ∈ h := by rw [hs.split]; simp
  obtain ⟨b1, b2, _⟩ := hr.bases c0 hc0 k token (changeOf_mem hs.write)
  refine ⟨by rw [hs.base]; exact b1, b2, good_logs (fun l hl => ?_), ?_⟩
  · obtain ⟨e, c, g1, g2⟩ := (hs.logs _).1 ⟨l, hl, rfl⟩
    rw [g2]
    exact ⟨hr.logs k c0.ts e c g1, fun w hw => (hr.blocks k c0.ts w ⟨e, c, g1, hw⟩).1⟩
  · intro w hw
    have hb := hs.block.1 (List.mem_filter.1 hw).1
    exact (hr.blocks k c0.ts w hb).2 w (by simp)

/-- The rows of a slice's base file and of its surviving blocks are the versions of records as of `ts`, and
the rows of pending blocks. -/
theorem SliceOf.records {C : Codec} {ltz : LocalTz} {tz ts : Str} {h : History} {n : Nat} (hw : h.WF n)
    (hmono : MonotoneTz ltz) (hsec : WholeSecondsTz ltz) (hts : WriterTimestamp ts ∧ ts.length = n)
    {d : DateTime} (hd : parseDatetime ltz ts tz = .ok d)
    {k : GroupKey} {s : FileSlice} {h1 h2 h3 : History}
    {c0 : HCommit} {token : Str} (hs : SliceOf h ts k s h1 h2 h3 c0 token) {held : Str → List WBlock}
    {cols : Columns} {t : Tree} {W : Written} (hr : StoresEvolving C ltz tz cols t h W held)
    {logRows : List (List Cell)}
    (hl : RecordsOf C (surviving ltz tz ⟨tz, none, some ts, false, true⟩
      (s.logFiles.map (fun l => held (s.logPath l))).flatten) logRows) (r : List Cell) :
    r ∈ W.base c0.ts k ++ logRows ↔ r ∈ recordsAt W h ts k ∨ PendingRow C ltz tz ts h held k r := by
  have htab := hs.table
  have hbase : ∀ v, tableAt h ts k = some v → v.base = c0.ts := by
    intro v hv
    rw [htab] at hv
    cases hv
    rfl
  unfold recordsAt
  rw [hs.upTo, mem_recordsAfter hs.write hs.quiet, List.mem_append, mem_recordsOf hl, or_assoc]
  refine or_congr_right ?_
  have upTo : ∀ w c, BlockOf h held k c0.ts w → c ∈ h → WrittenBy w c.ts →
      (WrittenUpTo ltz tz ts w ↔ (compare c.ts ts).isLE = true) := by
    intro w c hb hc hwr
    obtain ⟨q1, q2⟩ := hw.times c hc
    exact writtenUpTo_iff hmono hsec q1 hts.1 (by rw [q2, hts.2]) hd (hr.blocks k c0.ts w hb).1.time hwr
  constructor
  · rintro ⟨w, hsv, bs, hdec, hrow⟩
    rw [mem_surviving] at hsv
    obtain ⟨hin, hup, hno⟩ := hsv
    rw [blockIn_upTo] at hup
    have hb := hs.block.1 hin
    obtain ⟨i, x, hwr, _⟩ := (hr.blocks k c0.ts w hb).1.time
    by_cases hcomp : ∃ l c, AppendsTo h k c0.ts l c ∧ WrittenBy w c.ts
    · obtain ⟨l, c, hap, hwr⟩ := hcomp
      have hc : c ∈ h := by
        obtain ⟨a, b, _, _, e, _⟩ := hap
        rw [e]; simp
      have hle := (upTo w c hb hc hwr).1 hup
      obtain ⟨a, b, ls, e1, e2, e3, e4⟩ := (appendsTo_iff hw hs.split hs.write).1 hap
      have hmem : c ∈ h2 ++ h3 := by rw [e1]; simp
      rcases List.mem_append.1 hmem with hm | hm
      · exact .inl ⟨c, hm, ls, e3, (hr.rows k c0.ts l c hap r).2 ⟨w, bs, hb, hwr, hdec, hrow⟩⟩
      · rw [hs.late c hm] at hle; cases hle
    · refine .inr ⟨_, w, bs, htab, ⟨hb, hup, fun l c h1 h2 => hcomp ⟨l, c, h1, h2⟩, ?_⟩, hdec, hrow⟩
      intro w' i' hb' hrb hup' hwr'
      exact hno ⟨w', hs.block.2 hb', blockIn_upTo.2 hup', i', hrb, hwr'⟩
  · rintro (⟨c, hc, ls, hch, hrow⟩ | ⟨v, w, bs, hv, hpb, hdec, hrow⟩)
    rotate_left
    · rw [hbase v hv] at hpb
      refine ⟨w, ?_, bs, hdec, hrow⟩
      rw [mem_surviving]
      refine ⟨hs.block.2 hpb.block, blockIn_upTo.2 hpb.upTo, ?_⟩
      rintro ⟨w', hin', hup', i, hrb, hwr'⟩
      exact hpb.notRolledBack w' i (hs.block.1 hin') hrb (blockIn_upTo.1 hup') hwr'
    have hc' : c ∈ h := by rw [hs.split]; simp [hc]
    cases ls with
    | nil =>
      rw [hr.nothing c hc' k (changeOf_mem hch)] at hrow
      cases hrow
    | cons l ls =>
      obtain ⟨a, b, rfl⟩ := List.append_of_mem hc
      have hap : AppendsTo h k c0.ts l c := (appendsTo_iff hw hs.split hs.write).2
        ⟨a, b ++ h3, l :: ls, by simp, fun c hc => hs.quiet c (by simp [hc]), hch, by simp⟩
      obtain ⟨w, bs, hb, hwr, hdec, hrow⟩ := (hr.rows k c0.ts l c hap r).1 hrow
      refine ⟨w, ?_, bs, hdec, hrow⟩
      rw [mem_surviving]
      refine ⟨hs.block.2 hb, blockIn_upTo.2 ((upTo w c hb hc' hwr).2 (hs.early c hc)), ?_⟩
      rintro ⟨w', hin', _, i, hrb, hwr'⟩
      unfold WrittenBy at hwr hwr'
      rw [hwr] at hwr'
      cases hwr'
      exact hr.rollbacks k c0.ts w' c.ts (hs.block.1 hin') hrb c hc' rfl

/-- Reading the slices of the table as of `ts` reads its records. -/
theorem read_records {E : Env} {A : Arrow} {C : Codec} {tb : Table} {t : Tree}
    {tz ts pre : Str} {cols : Columns} {h : History} {n : Nat} (hw : h.WF n) (hmono : MonotoneTz E.ltz)
    (hsec : WholeSecondsTz E.ltz) (hts : WriterTimestamp ts ∧ ts.length = n) {d : DateTime}
    (hd : parseDatetime E.ltz ts tz = .ok d) {W : Written} {held : Str → List WBlock}
    (hr : StoresEvolving C E.ltz tz cols t h W held)
    (hcol : EveryFile h cols (MergeColumns · pre)) {parts : Str → Prop} {ss : List FileSlice}
    (hsh : ShowsTable (shownAt h ts) parts ss) :
    ∃ content : FileSlice → Batch × List (List WBlock),
      (∀ s ∈ ss, SliceFiles C E.ltz tz t ⟨tz, none, some ts, false, true⟩ s (content s).1 (content s).2 ∧
        MergeColumns (content s).1.schema pre) ∧
      ∀ outs, List.Forall₂ (fun s out => SliceRows C A E.ltz tz pre ⟨tz, none, some ts, false, true⟩ s
        (content s).1 (content s).1.rows (content s).2 out) ss outs →
      ReadsEvolving A cols pre (tableAt h ts) parts
        (fun k r => r ∈ recordsAt W h ts k ∨ PendingRow C E.ltz tz ts h held k r) outs := by
  classical
  have hsl : ∀ s ∈ ss, ∃ h1 h2 h3 c0 token, SliceOf h ts (sliceKey s) s h1 h2 h3 c0 token := by
    intro s hs
    have hne := ((hsh.groups (sliceKey s)).1 ⟨s, hs, rfl⟩).2
    obtain ⟨v, hv⟩ := Option.ne_none_iff_exists'.1 hne
    exact slice_of_version hw rfl hv (hsh.versions s hs v hv)
  let base : FileSlice → Str := fun s =>
    if hs : ∃ h1 h2 h3 c0 token, SliceOf h ts (sliceKey s) s h1 h2 h3 c0 token
    then (Classical.choose (Classical.choose_spec (Classical.choose_spec (Classical.choose_spec hs)))).ts
    else []
  have hbase : ∀ s ∈ ss, ∃ h1 h2 h3 c0 token, SliceOf h ts (sliceKey s) s h1 h2 h3 c0 token ∧
      base s = c0.ts := by
    intro s hs
    have hx := hsl s hs
    refine ⟨_, _, _, _, _, Classical.choose_spec (Classical.choose_spec (Classical.choose_spec
      (Classical.choose_spec (Classical.choose_spec hx)))), ?_⟩
    show dite _ _ _ = _
    rw [dif_pos hx]
  refine ⟨fun s => (⟨cols (base s) (sliceKey s), W.base (base s) (sliceKey s)⟩, s.logFiles.map (fun l => held (s.logPath l))),
    ?_, ?_⟩
  · intro s hs
    obtain ⟨h1, h2, h3, c0, token, hso, e⟩ := hbase s hs
    simp only [e]
    exact ⟨hso.files hw hr _, hcol c0 (by rw [hso.split]; simp) (sliceKey s) token (changeOf_mem hso.write)⟩
  · intro outs hf
    refine ⟨ss.map sliceKey, hsh.distinct, ?_, ?_⟩
    · intro k
      rw [List.mem_map, hsh.groups k]
      unfold shownAt
      simp
    · rw [List.forall₂_map_left_iff]
      refine ((List.forall₂_and_left (p := (· ∈ ss)) ss outs).2 ⟨fun s hs => hs, hf⟩).imp ?_
      rintro s out ⟨hs, q1, q2, q3⟩
      obtain ⟨h1, h2, h3, c0, token, hso, e⟩ := hbase s hs
      simp only [e] at q1 q2 q3
      have hkeys := (hr.bases c0 (by rw [hso.split]; simp) (sliceKey s) token (changeOf_mem hso.write)).2.2
      by_cases hnil : s.logFiles = []
      · rw [q2 hnil]
        refine ⟨_, _, hso.table, q1, ?_, latest_self hkeys⟩
        intro r
        show _ ↔ r ∈ recordsAt W h ts (sliceKey s) ∨ PendingRow C E.ltz tz ts h held (sliceKey s) r
        rw [← hso.records hw hmono hsec hts hd hr (logRows := []) ?_ r, List.append_nil]
        rw [hnil]
        exact ⟨[], .nil, rfl⟩
      · obtain ⟨logRows, q4, q5⟩ := q3 hnil
        exact ⟨_, _, hso.table, q1, hso.records hw hmono hsec hts hd hr q4, q5⟩

/-- Without pending blocks there are no rows of pending blocks. -/
theorem no_pending_row {C : Codec} {ltz : LocalTz} {tz ts : Str} {h : History} {held : Str → List WBlock}
    (hp : NoPendingBlocks ltz tz ts h held) {k : GroupKey} {r : List Cell} :
    ¬ PendingRow C ltz tz ts h held k r := by
  rintro ⟨v, w, bs, hv, hb, hdec, hrow⟩
  obtain ⟨i, d, e, hwr, _⟩ := hb.upTo
  rcases hp k v.base w i hb.block hwr hb.upTo with hroll | ⟨l, c, hap, rfl⟩ | ⟨w', hb', hrb, hup'⟩
  · unfold Decodes at hdec
    rw [hroll.1] at hdec
    simp only at hdec
    subst hdec
    cases hrow
  · exact hb.notCompleted l c hap hwr
  · exact hb.notRolledBack w' i hb' hrb hup' hwr

theorem readsRecords_of {A : Arrow} {schema : Schema} {pre : Str} {table : GroupKey → Option Version}
    {parts : Str → Prop} {rowOf : GroupKey → List Cell → Prop} {records : GroupKey → List (List Cell)}
    {outs : List Batch} (he : ∀ k r, rowOf k r ↔ r ∈ records k)
    (h : ReadsRows A schema pre table parts rowOf outs) : ReadsRecords A schema pre table parts records outs := by
  obtain ⟨ks, h1, h2, h3⟩ := h
  refine ⟨ks, h1, h2, h3.imp ?_⟩
  rintro k out ⟨q1, rows, q2, q3⟩
  exact ⟨q1, latest_congr (fun r => (q2 r).trans (he k r)) q3⟩

theorem parquetIn_of_at {t : Tree} {h : History} {n : Nat} (hw : h.WF n) {c : HCommit} (hc : c ∈ h)
    {x f token : Str} (hm : ((x, f), Change.write token) ∈ c.changes) {b : Batch}
    (hb : ParquetAt t (basePathOf (x, f) token c.ts) b) : ParquetIn t x (baseName f token c.ts) := by
  have h1 := hw.ids c hc _ hm
  have h2 := hw.tokens c hc _ _ hm
  have h3 := digits_part (hw.times c hc).1
  have hn : NormalName (baseName f token c.ts) := by
    refine ⟨by simp [baseName], ?_, ?_, ?_, ?_⟩
    · unfold baseName
      simp only [List.mem_append, not_or]
      exact ⟨⟨⟨⟨⟨h1.2.2.2.1, by decide⟩, h2.2.2.2.1⟩, by decide⟩, h3.2.2.2.1⟩, by decide⟩
    · intro e
      have := congrArg List.length e
      simp [baseName] at this; omega
    · intro e
      have := congrArg List.length e
      simp [baseName] at this; omega
    · intro x hx
      have hlit : ∀ x ∈ c!"_.parquet", 32 ≤ x.toNat ∧ x.toNat ≠ 127 := by decide
      unfold baseName at hx
      simp only [List.mem_append] at hx
      rcases hx with ((((hx | hx) | hx) | hx) | hx) | hx
      · exact h1.2.2.2.2 x hx
      · exact hlit x (by simp only [List.mem_singleton] at hx; simp [hx])
      · exact h2.2.2.2.2 x hx
      · exact hlit x (by simp only [List.mem_singleton] at hx; simp [hx])
      · exact h3.2.2.2.2 x hx
      · exact hlit x (List.mem_cons_of_mem _ hx)
  obtain ⟨size, bs, h4⟩ := hb
  refine ⟨size, bs, b, ?_⟩
  unfold basePathOf at h4
  rw [pathSegs_pathPush hn, fileAt_append] at h4
  exact h4

/-- Storage with one set of columns is storage whose columns never change. -/
theorem Spec.StoresRecords.evolving {C : Codec} {ltz : LocalTz} {tz : Str} {schema : Schema} {t : Tree}
    {h : History} {W : Written} {held : Str → List WBlock} (hr : StoresRecords C ltz tz schema t h W held) :
    StoresEvolving C ltz tz (fun _ _ => schema) t h W held :=
  ⟨hr.bases, hr.logs, hr.blocks, hr.rollbacks, hr.rows, hr.nothing⟩

theorem readsRows_of {A : Arrow} {schema : Schema} {pre : Str} {table : GroupKey → Option Version}
    {parts : Str → Prop} {rowOf : GroupKey → List Cell → Prop} {outs : List Batch}
    (h : ReadsEvolving A (fun _ _ => schema) pre table parts rowOf outs) :
    ReadsRows A schema pre table parts rowOf outs := by
  obtain ⟨ks, h1, h2, h3⟩ := h
  exact ⟨ks, h1, h2, h3.imp fun _ _ ⟨_, rows, _, q1, q2, q3⟩ => ⟨q1, rows, q2, q3⟩⟩

/-- Reading the snapshot as of `ts`, whatever the columns of the files. -/
theorem evolving_as_of {E : Env} {A : Arrow} {C : Codec} (M : MergeEnv A) {o : Opts} {t : Tree}
    {tb : Table} {tz pre : Str} {h : History} {n : Nat} {filters : List (Str × Str × Str)}
    {fs : List Filter} {pcols : Schema} {hive url : Bool} (hmono : MonotoneTz E.ltz)
    (hsec : WholeSecondsTz E.ltz) (hl : ListableTable E A o t tb tz h n filters fs pcols hive url)
    (hm : MergingReader tb tz pre) {cols : Columns} (hcol : EveryFile h cols (MergeColumns · pre)) {W : Written}
    {held : Str → List WBlock} (hr : StoresEvolving C E.ltz tz cols t h W held)
    {ts : Str} (hts : WriterTimestamp ts ∧ ts.length = n) (hd : ∃ d, parseDatetime E.ltz ts tz = .ok d) :
    ∃ outs, (tb.readSnapshotAsOf E A C M t ts filters []).2 = .ok outs ∧
      ReadsEvolving A cols pre (tableAt h ts) (Kept A pcols hive url fs)
        (fun k r => r ∈ recordsAt W h ts k ∨ PendingRow C E.ltz tz ts h held k r) outs := by
  obtain ⟨d, hd⟩ := hd
  obtain ⟨ss, hss, hsh⟩ := C50_answered_partial E A o t tb hl.load hl.tree hmono tz hl.zone h n hl.history
    hl.stores ts d.epochMillis hts ⟨d, hd, rfl⟩ filters fs hl.parsed pcols hl.columns hl.names hl.applicable
    hive url hl.style hl.parallelism hl.docs (fun c hc x f token hm =>
      parquetIn_of_at hl.history hc hm (hr.bases c hc _ _ hm).1)
  obtain ⟨content, h1, h2⟩ := read_records (A := A) (tb := tb) hl.history hmono hsec hts hd hr hcol hsh
  obtain ⟨outs, h3, h4⟩ := C40_read_snapshot_as_of_partial E A C M tb t ts tz pre filters [] ss hm.plain
    hm.merges hm.noStart hm.zone ⟨d, hd⟩ hss content h1
  exact ⟨outs, h3, h2 outs h4⟩

/-- **C59, with writes in flight.**  For every history of commits that write base files, append records to
log files and replace file groups, every storage that holds what they wrote, and every `ts`: reading the
snapshot as of `ts` succeeds and returns, for each file group of the table as of `ts` in the partitions
that the filters keep, the latest version of each of its records among those the commits up to `ts`
wrote and those in log blocks, dated up to `ts`, of writes that neither completed nor were rolled back
by `ts` -- whatever later commits have done to the files meanwhile. -/
theorem C59_records_and_pending (E : Env) (A : Arrow) (C : Codec) (M : MergeEnv A) (o : Opts) (t : Tree)
    (tb : Table) (tz pre : Str) (h : History) (n : Nat) (filters : List (Str × Str × Str))
    (fs : List Filter) (cols : Schema) (hive url : Bool) (hmono : MonotoneTz E.ltz)
    (hsec : WholeSecondsTz E.ltz) (hl : ListableTable E A o t tb tz h n filters fs cols hive url)
    (hm : MergingReader tb tz pre) (schema : Schema) (hcol : MergeColumns schema pre) (W : Written)
    (held : Str → List WBlock) (hr : StoresRecords C E.ltz tz schema t h W held)
    (ts : Str) (hts : WriterTimestamp ts ∧ ts.length = n) (hd : ∃ d, parseDatetime E.ltz ts tz = .ok d) :
    ∃ outs, (tb.readSnapshotAsOf E A C M t ts filters []).2 = .ok outs ∧
      ReadsRows A schema pre (tableAt h ts) (Kept A cols hive url fs)
        (fun k r => r ∈ recordsAt W h ts k ∨ PendingRow C E.ltz tz ts h held k r) outs := by
  obtain ⟨outs, h1, h2⟩ := evolving_as_of M hmono hsec hl hm (cols := fun _ _ => schema) (fun _ _ _ _ _ => hcol)
    hr.evolving hts hd
  exact ⟨outs, h1, readsRows_of h2⟩

/-- **C59 (partial).**  For every history of commits that write base files, append records to log files
and replace file groups, every storage that holds what they wrote, and every `ts`: reading the
snapshot as of `ts` succeeds and returns, for each file group of the table as of `ts` in the partitions
that the filters keep, the latest version of each of its records among those the commits up to `ts`
wrote -- whatever later commits have done to the files meanwhile.  Missing: log blocks of writes that
neither completed nor were rolled back by `ts` (`C59_false`), and what `ListableTable` and
`StoresRecords` exclude. -/
theorem C59_records_as_of_partial (E : Env) (A : Arrow) (C : Codec) (M : MergeEnv A) (o : Opts) (t : Tree)
    (tb : Table) (tz pre : Str) (h : History) (n : Nat) (filters : List (Str × Str × Str))
    (fs : List Filter) (cols : Schema) (hive url : Bool) (hmono : MonotoneTz E.ltz)
    (hsec : WholeSecondsTz E.ltz) (hl : ListableTable E A o t tb tz h n filters fs cols hive url)
    (hm : MergingReader tb tz pre) (schema : Schema) (hcol : MergeColumns schema pre) (W : Written)
    (held : Str → List WBlock) (hr : StoresRecords C E.ltz tz schema t h W held)
    (ts : Str) (hts : WriterTimestamp ts ∧ ts.length = n) (hd : ∃ d, parseDatetime E.ltz ts tz = .ok d)
    (hpend : NoPendingBlocks E.ltz tz ts h held) :
    ∃ outs, (tb.readSnapshotAsOf E A C M t ts filters []).2 = .ok outs ∧
      ReadsRecords A schema pre (tableAt h ts) (Kept A cols hive url fs) (recordsAt W h ts) outs := by
  obtain ⟨outs, h1, h2⟩ := C59_records_and_pending E A C M o t tb tz pre h n filters fs cols hive url hmono hsec
    hl hm schema hcol W held hr ts hts hd
  exact ⟨outs, h1, readsRecords_of (fun k r => by simp [no_pending_row hpend]) h2⟩

/-- The latest commit of a table that can be listed. -/
theorem Spec.ListableTable.latest {E : Env} {A : Arrow} {o : Opts} {t : Tree} {tb : Table} {tz : Str} {h : History}
    {n : Nat} {filters : List (Str × Str × Str)} {fs : List Filter} {cols : Schema} {hive url : Bool}
    (hmono : MonotoneTz E.ltz) (hl : ListableTable E A o t tb tz h n filters fs cols hive url) :
    ∃ c0 d0, c0 ∈ h ∧ h.getLast? = some c0 ∧ tb.timeline.latestTimestamp = some c0.ts ∧
      parseDatetime E.ltz c0.ts tz = .ok d0 ∧ h.filter (fun c => (compare c.ts c0.ts).isLE) = h := by
  obtain ⟨h1, h2, h3⟩ := stored_timeline hl.load hl.zone hl.history hl.stores
  obtain ⟨i, _, _, _, hi, _⟩ := hl.columns
  obtain ⟨c0, hc0, d0, hd0, rfl⟩ := h1 i (List.mem_of_getLast? hi)
  have hall : ∀ c ∈ h, (compare c.ts c0.ts).isLE = true := by
    intro c hc
    obtain ⟨d, hd, hm⟩ := h2 c hc
    obtain ⟨q1, q2⟩ := hl.history.times c hc
    obtain ⟨r1, r2⟩ := hl.history.times c0 hc0
    rw [C04_same_width_partial E.ltz hmono tz _ _ _ _ q1 r1 (by rw [q2, r2]) hd hd0, Int.isLE_compare]
    obtain ⟨ys, hys⟩ := List.getLast?_eq_some_iff.1 hi
    rw [hys] at hm h3
    rcases List.mem_append.1 hm with hm | hm
    · exact (List.pairwise_append.1 h3).2.2 _ hm _ (List.mem_singleton_self _)
    · have := congrArg Instant.epochMillis (List.mem_singleton.1 hm)
      exact Int.le_of_eq this
  have hlast : h.getLast? = some c0 := by
    obtain ⟨a, b, rfl⟩ := List.append_of_mem hc0
    cases b with
    | nil => simp
    | cons c b =>
      have hlt := (List.pairwise_cons.1 (List.pairwise_append.1 hl.history.ordered).2.1).1 c (by simp)
      have hle := hall c (by simp)
      rw [Std.OrientedCmp.eq_swap (cmp := (compare : Str → Str → Ordering)), hlt] at hle
      cases hle
  have he : h.filter (fun c => (compare c.ts c0.ts).isLE) = h := List.filter_eq_self.2 hall
  refine ⟨c0, d0, hc0, hlast, ?_, hd0, he⟩
  unfold Timeline.latestTimestamp
  rw [hi]
  rfl

/-- **C59, the latest snapshot with writes in flight.**  Without a timestamp, reading returns the latest
version of each record among those the whole history wrote and those in log blocks, dated up to the latest
commit, of writes that neither completed nor were rolled back. -/
theorem C59_latest_and_pending (E : Env) (A : Arrow) (C : Codec) (M : MergeEnv A) (o : Opts) (t : Tree)
    (tb : Table) (tz pre : Str) (h : History) (n : Nat) (filters : List (Str × Str × Str))
    (fs : List Filter) (cols : Schema) (hive url : Bool) (hmono : MonotoneTz E.ltz)
    (hsec : WholeSecondsTz E.ltz) (hl : ListableTable E A o t tb tz h n filters fs cols hive url)
    (hm : MergingReader tb tz pre) (schema : Schema) (hcol : MergeColumns schema pre) (W : Written)
    (held : Str → List WBlock) (hr : StoresRecords C E.ltz tz schema t h W held) :
    ∃ outs c, (tb.readSnapshot E A C M t filters []).2 = .ok outs ∧ h.getLast? = some c ∧
      ReadsRows A schema pre (versionAfter h) (Kept A cols hive url fs)
        (fun k r => r ∈ recordsAfter W h k ∨ PendingRow C E.ltz tz c.ts h held k r) outs := by
  obtain ⟨c0, d0, hc0, hlast, hi, hd0, he⟩ := hl.latest hmono
  obtain ⟨outs, h4, h5⟩ := C59_records_and_pending E A C M o t tb tz pre h n filters fs cols hive url hmono hsec hl
    hm schema hcol W held hr c0.ts (hl.history.times c0 hc0) ⟨d0, hd0⟩
  refine ⟨outs, c0, ?_, hlast, ?_⟩
  · unfold Table.readSnapshot
    rw [hi]
    exact h4
  · have e1 : tableAt h c0.ts = versionAfter h := by
      funext k; unfold tableAt; rw [he]
    have e2 : recordsAt W h c0.ts = recordsAfter W h := by
      funext k; unfold recordsAt; rw [he]
    rw [e1, e2] at h5
    exact h5

/-- **C59, the latest snapshot (partial).**  Without a timestamp, reading returns the latest version of each
record among those the whole history wrote.  Missing: as in `C59_records_as_of_partial`. -/
theorem C59_latest_records_partial (E : Env) (A : Arrow) (C : Codec) (M : MergeEnv A) (o : Opts) (t : Tree)
    (tb : Table) (tz pre : Str) (h : History) (n : Nat) (filters : List (Str × Str × Str))
    (fs : List Filter) (cols : Schema) (hive url : Bool) (hmono : MonotoneTz E.ltz)
    (hsec : WholeSecondsTz E.ltz) (hl : ListableTable E A o t tb tz h n filters fs cols hive url)
    (hm : MergingReader tb tz pre) (schema : Schema) (hcol : MergeColumns schema pre) (W : Written)
    (held : Str → List WBlock) (hr : StoresRecords C E.ltz tz schema t h W held)
    (hpend : ∀ c, h.getLast? = some c → NoPendingBlocks E.ltz tz c.ts h held) :
    ∃ outs, (tb.readSnapshot E A C M t filters []).2 = .ok outs ∧
      ReadsRecords A schema pre (versionAfter h) (Kept A cols hive url fs) (recordsAfter W h) outs := by
  obtain ⟨outs, c, h1, h2, h3⟩ := C59_latest_and_pending E A C M o t tb tz pre h n filters fs cols hive url hmono
    hsec hl hm schema hcol W held hr
  exact ⟨outs, h1, readsRecords_of (fun k r => by simp [no_pending_row (hpend c h2)]) h3⟩

end Hudi
