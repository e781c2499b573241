import Verif.Lemmas.Remains

/-!
# C81: reading a table that holds remains of writes that did not complete

The files of writes in flight, and of writes that failed, are in the partition directories beside those of
completed commits.
-/

namespace Hudi
open Spec

/-- **C81, the file slices.**  Whatever base files and instants later than `ts`, and whatever log files, writers
have left on the storage: the file slices as of `ts` are those of the commits that had completed when the handle
was opened, with all log files that are there. -/
theorem C81_slices_as_of (E : Env) (A : Arrow) (o : Opts) (t0 t : Tree) (tb : Table) (tz : Str) (h : History)
    (n : Nat) (filters : List (Str × Str × Str)) (fs : List Filter) (cols : Schema) (hive url : Bool)
    (hmono : MonotoneTz E.ltz) (ts : Str)
    (hl : ReadableUpTo E A o t0 t tb tz h n ts filters fs cols hive url)
    (hts : WriterTimestamp ts ∧ ts.length = n) (hd : ∃ d, parseDatetime E.ltz ts tz = .ok d)
    (hbase : ∀ c ∈ h, (compare c.ts ts).isLE = true → ∀ x f token, ((x, f), Change.write token) ∈ c.changes →
      ParquetIn t x (baseName f token c.ts)) :
    ∃ ss, (tb.fileSlicesAsOf E A t ts filters []).2 = .ok ss ∧
      ShowsUpTo t h ts (Kept A cols hive url fs) ss := by
  obtain ⟨d, hd⟩ := hd
  have hT : Bound E.ltz tz (some ts) (some d.epochMillis) := ⟨d, hd, rfl⟩
  have hwf0 : ∀ n ∈ timelineNames t0, Spec.NormalName n := by
    intro m hm
    obtain ⟨fm, h1, rfl⟩ := List.mem_map.1 hm
    exact hl.timelineNames fm h1
  have hschema := (partitionSchema_ok hl.load hwf0).2 hl.columns
  obtain ⟨t1, t2, _⟩ := timeline_of hl.load hl.zone hl.history hl.files.timeline
  obtain ⟨ss, hss⟩ := (C49_answered_exactly E A o t0 t tb hl.load hwf0 hl.tree (fun s hs => by
      have := (partitionSchema_ok hl.load hwf0).2 hs
      rw [hschema] at this; cases this
      exact hl.names) ts tz hl.zone filters).2
    ⟨d.epochMillis, fs, cols, hive, url, hT, hl.parsed, fun i hi ha hle => by
        obtain ⟨c, hc, d', hd', rfl⟩ := t1 i hi
        obtain ⟨q1, q2⟩ := hl.history.times c hc
        have hle' : (compare c.ts ts).isLE = true := by
          rw [C04_same_width_partial E.ltz hmono tz _ _ _ _ q1 hts.1 (by rw [q2, hts.2]) hd' hd, Int.isLE_compare]
          exact hle
        obtain ⟨md, ⟨size, hf⟩, hr, _⟩ := hl.files.replaced c hc hle' ha
        exact ⟨md, docOf_eq (i := ⟨c.ts, c.action, .completed, d'.epochMillis⟩) hf, hr⟩,
      hl.columns, hl.style, hl.applicable, fun _ => hl.parallelism,
      fun x hx _ => hl.files.listable x hx, fun x b hx _ hb _ => by
        obtain ⟨hext, c, hc, hch, hct⟩ := hl.files.bases x b hx hb.1 hb.2.1
        have := hbase c hc (by rw [← hct]; exact hb.2.1) x b.fileId b.writeToken hch
        have he : b.fileName = baseName b.fileId b.writeToken c.ts := by
          unfold BaseFile.fileName baseName; rw [hext, hct]; simp
        rw [he]; exact this⟩
  exact ⟨ss, hss, shows_upTo hl.load hl.zone hmono hl.history hl.files hts hT
    (C25_snapshot_as_of E A o t0 t tb hl.load hwf0 hl.tree hl.files.extensions ts tz _ hl.zone hT filters fs
      hl.parsed cols hschema hl.names hive url hl.style ss hss)⟩

/-- The paths and blocks of a slice. -/
theorem logPath_eq (s : FileSlice) (l : LogFile) : s.logPath l = pathPush s.partitionPath l.fileName := rfl

theorem slice_stored {t : Tree} {h : History} {ts : Str} {parts : Str → Prop} {ss : List FileSlice}
    (hsh : ShowsUpTo t h ts parts ss) {s : FileSlice} (hs : s ∈ ss) {v : Version}
    (hv : tableAt h ts (sliceKey s) = some v) (held : Str → List WBlock) (w : WBlock) :
    w ∈ (s.logFiles.map (fun l => held (s.logPath l))).flatten ↔ StoredBlock t held (sliceKey s) v.base w := by
  obtain ⟨v', hv', _, _, _, hlog⟩ := hsh.versions s hs
  rw [hv] at hv'
  cases hv'
  rw [List.mem_flatten]
  constructor
  · rintro ⟨ws, h1, h2⟩
    obtain ⟨l, hl, rfl⟩ := List.mem_map.1 h1
    exact ⟨l, (hlog l).1 hl, h2⟩
  · rintro ⟨l, h1, h2⟩
    exact ⟨_, List.mem_map.2 ⟨l, (hlog l).2 h1, rfl⟩, h2⟩

/-- The rows of a slice's base file and of its surviving blocks are the records as of `ts`, and the rows of
unsettled blocks. -/
theorem slice_rows_upTo {C : Codec} {ltz : LocalTz} {tz ts : Str} {h : History} {n : Nat} (hw : h.WF n)
    (hmono : MonotoneTz ltz) (hsec : WholeSecondsTz ltz) (hts : WriterTimestamp ts ∧ ts.length = n)
    {d : DateTime} (hd : parseDatetime ltz ts tz = .ok d) {k : GroupKey} {v : Version}
    (hv : tableAt h ts k = some v) {t : Tree} {held : Str → List WBlock} {cols : Columns} {W : Written}
    (hr : RowsUpTo C ltz tz cols t h W held ts) {ws : List WBlock}
    (hws : ∀ w, w ∈ ws ↔ StoredBlock t held k v.base w) {logRows : List (List Cell)}
    (hl : RecordsOf C (surviving ltz tz ⟨tz, none, some ts, false, true⟩ ws) logRows) (r : List Cell) :
    r ∈ W.base v.base k ++ logRows ↔ r ∈ recordsAt W h ts k ∨ UnsettledRow C ltz tz ts t h held k r := by
  obtain ⟨h1, c0, h2, e1, e2, e3, e4, e5⟩ := versionAfter_some.1 (show versionAfter _ k = some v from hv)
  have hsplit := history_split hw.ordered ts
  have hsp : h = h1 ++ c0 :: (h2 ++ h.filter (fun c => (compare c.ts ts).isGT)) := by
    rw [e1] at hsplit
    simpa using hsplit
  have hearly : ∀ c ∈ h2, (compare c.ts ts).isLE = true := by
    intro c hc
    have : c ∈ h.filter (fun c => (compare c.ts ts).isLE) := by rw [e1]; simp [hc]
    exact (List.mem_filter.1 this).2
  -- the commits that appended to this version up to `ts`
  have happ : ∀ c, (AppendedTo h k v.base c ∧ (compare c.ts ts).isLE = true) ↔
      ∃ ls, c ∈ h2 ∧ c.changeOf k = some (.append ls) := by
    intro c
    constructor
    · rintro ⟨⟨a, b, ls, v', f1, f2, f3, f4⟩, hle⟩
      obtain ⟨a1, d', a2, g1, g2, g3, g4, _⟩ := versionAfter_some.1 f3
      subst g1
      have f1' : h = a1 ++ d' :: (a2 ++ c :: b) := by rw [f1]; simp
      obtain ⟨rfl, rfl, hrest⟩ := split_unique hw.ordered hsp f1' (by rw [g3, f4, e3])
      refine ⟨ls, ?_, (hw.of_mem (by rw [f1]; simp)).2 f2⟩
      have hmem : c ∈ h2 ++ h.filter (fun c => (compare c.ts ts).isGT) := by rw [hrest]; simp
      rcases List.mem_append.1 hmem with hm | hm
      · exact hm
      · have := (List.mem_filter.1 hm).2
        revert this hle
        cases compare c.ts ts <;> simp
    · rintro ⟨ls, hc, hch⟩
      obtain ⟨a, b, rfl⟩ := List.append_of_mem hc
      refine ⟨⟨h1 ++ c0 :: a, b ++ h.filter (fun c => (compare c.ts ts).isGT), ls,
        ⟨c0.ts, v.token, appendsUntilWrite a k⟩, hsp.trans (by simp), changeOf_mem hch, ?_, e3⟩, hearly c hc⟩
      exact versionAfter_some.2 ⟨h1, c0, a, rfl, e2, rfl, fun c hc => e4 c (by simp [hc]), rfl⟩
  have hmem : ∀ c, AppendedTo h k v.base c → c ∈ h := by
    rintro c ⟨a, b, _, _, e, _⟩
    rw [e]; simp
  have upTo : ∀ w c, StoredBlock t held k v.base w → c ∈ h → WrittenBy w c.ts →
      (WrittenUpTo ltz tz ts w ↔ (compare c.ts ts).isLE = true) := by
    intro w c hb hc hwr
    obtain ⟨q1, q2⟩ := hw.times c hc
    exact writtenUpTo_iff hmono hsec q1 hts.1 (by rw [q2, hts.2]) hd (hr.blocks k v w hv hb).1.time hwr
  unfold recordsAt
  rw [e1, mem_recordsAfter e2 e4, List.mem_append, mem_recordsOf hl, or_assoc, e3]
  refine or_congr_right ?_
  constructor
  · rintro ⟨w, hsv, bs, hdec, hrow⟩
    rw [mem_surviving] at hsv
    obtain ⟨hin, hup, hno⟩ := hsv
    rw [blockIn_upTo] at hup
    have hb := (hws w).1 hin
    by_cases hcomp : ∃ c, AppendedTo h k v.base c ∧ WrittenBy w c.ts
    · obtain ⟨c, hap, hwr⟩ := hcomp
      have hle := (upTo w c hb (hmem c hap) hwr).1 hup
      obtain ⟨ls, hc, hch⟩ := (happ c).1 ⟨hap, hle⟩
      exact .inl ⟨c, hc, ls, hch, (hr.rows k v c hv hap hle r).2 ⟨w, bs, hb, hwr, hdec, hrow⟩⟩
    · refine .inr ⟨v, w, bs, hv, ⟨hb, hup, fun c h1 h2 => hcomp ⟨c, h1, h2⟩, ?_⟩, hdec, hrow⟩
      intro w' i hb' hrb hup' hwr'
      exact hno ⟨w', (hws w').2 hb', blockIn_upTo.2 hup', i, hrb, hwr'⟩
  · rintro (⟨c, hc, ls, hch, hrow⟩ | ⟨v', w, bs, hv', hpb, hdec, hrow⟩)
    · obtain ⟨hap, hle⟩ := (happ c).2 ⟨ls, hc, hch⟩
      obtain ⟨w, bs, hb, hwr, hdec, hrow⟩ := (hr.rows k v c hv hap hle r).1 hrow
      refine ⟨w, ?_, bs, hdec, hrow⟩
      rw [mem_surviving]
      refine ⟨(hws w).2 hb, blockIn_upTo.2 ((upTo w c hb (hmem c hap) hwr).2 hle), ?_⟩
      rintro ⟨w', hin', hup', i, hrb, hwr'⟩
      unfold WrittenBy at hwr hwr'
      rw [hwr] at hwr'
      cases hwr'
      exact hr.rollbacks k v w' c.ts hv ((hws w').1 hin') (blockIn_upTo.1 hup') hrb c hap rfl
    · rw [hv] at hv'
      cases hv'
      refine ⟨w, ?_, bs, hdec, hrow⟩
      rw [mem_surviving]
      refine ⟨(hws w).2 hpb.block, blockIn_upTo.2 hpb.upTo, ?_⟩
      rintro ⟨w', hin', hup', i, hrb, hwr'⟩
      exact hpb.notRolledBack w' i ((hws w').1 hin') hrb (blockIn_upTo.1 hup') hwr'

/-- **C81, the rows.**  Whatever base files and instants later than `ts`, and whatever readable log files and
blocks, writers have left on the storage: reading the snapshot as of `ts` succeeds and returns, for each file
group of the table that the commits known to the handle made, the latest version of each record among those that
these commits wrote up to `ts`, and those in log blocks dated up to `ts` of writes that neither completed nor were
rolled back up to `ts`. -/
theorem C81_records_and_unsettled (E : Env) (A : Arrow) (C : Codec) (M : MergeEnv A) (o : Opts) (t0 t : Tree)
    (tb : Table) (tz pre : Str) (h : History) (n : Nat) (filters : List (Str × Str × Str)) (fs : List Filter)
    (pcols : Schema) (hive url : Bool) (hmono : MonotoneTz E.ltz) (hsec : WholeSecondsTz E.ltz) (ts : Str)
    (hl : ReadableUpTo E A o t0 t tb tz h n ts filters fs pcols hive url) (hm : MergingReader tb tz pre)
    (cols : Columns) (hcol : EveryFile h cols (MergeColumns · pre)) (W : Written) (held : Str → List WBlock)
    (hr : RowsUpTo C E.ltz tz cols t h W held ts)
    (hts : WriterTimestamp ts ∧ ts.length = n) (hd : ∃ d, parseDatetime E.ltz ts tz = .ok d) :
    ∃ outs, (tb.readSnapshotAsOf E A C M t ts filters []).2 = .ok outs ∧
      ReadsEvolving A cols pre (tableAt h ts) (Kept A pcols hive url fs)
        (fun k r => r ∈ recordsAt W h ts k ∨ UnsettledRow C E.ltz tz ts t h held k r) outs := by
  classical
  obtain ⟨ss, hss, hsh⟩ := C81_slices_as_of E A o t0 t tb tz h n filters fs pcols hive url hmono ts hl hts hd
    (fun c hc hle x f token hm => parquetIn_of_at hl.history hc hm (hr.bases c hc hle _ _ hm).1)
  obtain ⟨d, hd⟩ := hd
  let ver : FileSlice → Str := fun s => match tableAt h ts (sliceKey s) with | some v => v.base | none => []
  have hver : ∀ s v, tableAt h ts (sliceKey s) = some v → ver s = v.base := by
    intro s v hv; show (match tableAt h ts (sliceKey s) with | some v => v.base | none => []) = _; rw [hv]
  have hwrite : ∀ k v, tableAt h ts k = some v → ∃ c ∈ h, (compare c.ts ts).isLE = true ∧
      (k, Change.write v.token) ∈ c.changes ∧ c.ts = v.base := by
    intro k v hv
    obtain ⟨h1, c0, h2, e1, e2, e3, _⟩ := versionAfter_some.1 (show versionAfter _ k = some v from hv)
    have : c0 ∈ h.filter (fun c => (compare c.ts ts).isLE) := by rw [e1]; simp
    exact ⟨c0, (List.mem_filter.1 this).1, (List.mem_filter.1 this).2, changeOf_mem e2, e3⟩
  obtain ⟨outs, h3, h4⟩ := C40_read_snapshot_as_of_partial E A C M tb t ts tz pre filters [] ss hm.plain
    hm.merges hm.noStart hm.zone ⟨d, hd⟩ hss
    (fun s => (⟨cols (ver s) (sliceKey s), W.base (ver s) (sliceKey s)⟩,
      s.logFiles.map (fun l => held (s.logPath l)))) (by
    intro s hs
    obtain ⟨v, hv, b1, b2, b3, hlog⟩ := hsh.versions s hs
    obtain ⟨c, hc, hle, hch, hct⟩ := hwrite _ v hv
    have hb := hr.bases c hc hle _ _ hch
    rw [hct] at hb
    simp only [hver s v hv]
    refine ⟨⟨?_, hb.2.1, good_logs (fun l hl => ?_), ?_⟩, by rw [← hct]; exact hcol c hc _ _ hch⟩
    · have : s.basePath = basePathOf (sliceKey s) v.token v.base := by
        unfold FileSlice.basePath FileSlice.relativePathFor basePathOf BaseFile.fileName baseName
        rw [b1, b2, b3]
        simp [sliceKey]
      rw [this]; exact hb.1
    · have hof := (hlog l).1 hl
      exact ⟨hr.logs _ v l hv hof, fun w hw => (hr.blocks _ v w hv ⟨l, hof, hw⟩).1⟩
    · intro w hw
      exact (hr.blocks _ v w hv ((slice_stored hsh hs hv held w).1 (List.mem_filter.1 hw).1)).2 w (by simp))
  refine ⟨outs, h3, ss.map sliceKey, hsh.distinct, ?_, ?_⟩
  · intro k
    rw [List.mem_map, hsh.groups k]
  · rw [List.forall₂_map_left_iff]
    refine ((List.forall₂_and_left (p := (· ∈ ss)) ss outs).2 ⟨fun s hs => hs, h4⟩).imp ?_
    rintro s out ⟨hs, q1, q2, q3⟩
    obtain ⟨v, hv, b1, b2, b3, hlog⟩ := hsh.versions s hs
    obtain ⟨c, hc, hle, hch, hct⟩ := hwrite _ v hv
    have hkeys := (hr.bases c hc hle _ _ hch).2.2
    rw [hct] at hkeys
    simp only [hver s v hv] at q1 q2 q3
    have hrow := fun {logRows} hrec => slice_rows_upTo (logRows := logRows) hl.history hmono hsec hts hd hv hr
      (slice_stored hsh hs hv held) hrec
    by_cases hnil : s.logFiles = []
    · rw [q2 hnil]
      refine ⟨v, _, hv, q1, ?_, latest_self hkeys⟩
      intro r
      show _ ↔ r ∈ recordsAt W h ts (sliceKey s) ∨ UnsettledRow C E.ltz tz ts t h held (sliceKey s) r
      rw [← hrow (logRows := []) ?_ r, List.append_nil]
      rw [hnil]
      exact ⟨[], .nil, rfl⟩
    · obtain ⟨logRows, q4, q5⟩ := q3 hnil
      exact ⟨v, _, hv, q1, hrow q4, q5⟩

/-- Settled storage has no unsettled rows. -/
theorem settled_rows {C : Codec} {ltz : LocalTz} {tz ts : Str} {t : Tree} {h : History} {held : Str → List WBlock}
    (hp : Settled ltz tz ts t h held) {k : GroupKey} {r : List Cell} : ¬ UnsettledRow C ltz tz ts t h held k r := by
  rintro ⟨v, w, bs, hv, hb, hdec, hrow⟩
  obtain ⟨i, d, e, hwr, _⟩ := hb.upTo
  rcases hp k v w i hv hb.block hwr hb.upTo with hroll | ⟨c, hap, rfl⟩ | ⟨w', hb', hrb, hup'⟩
  · unfold Decodes at hdec
    rw [hroll.1] at hdec
    simp only at hdec
    subst hdec
    cases hrow
  · exact hb.notCompleted c hap hwr
  · exact hb.notRolledBack w' i hb' hrb hup' hwr

/-- **C81 (partial).**  If every write that left blocks dated up to `ts` has completed, or has been rolled back up
to `ts`, then the rows read as of `ts` are those of the completed commits, whatever else writers have left on the
storage.  Missing: writes that are rolled back only after `ts` (`C81_false`). -/
theorem C81_completed_records_partial (E : Env) (A : Arrow) (C : Codec) (M : MergeEnv A) (o : Opts) (t0 t : Tree)
    (tb : Table) (tz pre : Str) (h : History) (n : Nat) (filters : List (Str × Str × Str)) (fs : List Filter)
    (pcols : Schema) (hive url : Bool) (hmono : MonotoneTz E.ltz) (hsec : WholeSecondsTz E.ltz) (ts : Str)
    (hl : ReadableUpTo E A o t0 t tb tz h n ts filters fs pcols hive url) (hm : MergingReader tb tz pre)
    (cols : Columns) (hcol : EveryFile h cols (MergeColumns · pre)) (W : Written) (held : Str → List WBlock)
    (hr : RowsUpTo C E.ltz tz cols t h W held ts) (hset : Settled E.ltz tz ts t h held)
    (hts : WriterTimestamp ts ∧ ts.length = n) (hd : ∃ d, parseDatetime E.ltz ts tz = .ok d) :
    ∃ outs, (tb.readSnapshotAsOf E A C M t ts filters []).2 = .ok outs ∧
      ReadsEvolving A cols pre (tableAt h ts) (Kept A pcols hive url fs) (fun k r => r ∈ recordsAt W h ts k)
        outs := by
  obtain ⟨outs, h1, ks, h2, h3, h4⟩ := C81_records_and_unsettled E A C M o t0 t tb tz pre h n filters fs pcols hive
    url hmono hsec ts hl hm cols hcol W held hr hts hd
  refine ⟨outs, h1, ks, h2, h3, h4.imp ?_⟩
  rintro k out ⟨v, rows, q1, q2, q3, q4⟩
  exact ⟨v, rows, q1, q2, fun r => (q3 r).trans (by simp [settled_rows hset]), q4⟩

end Hudi
