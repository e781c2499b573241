import Verif.Spec.Optimized
import Verif.Props.Changes
import Verif.Props.QueryScan

/-! # C75: queries of base files -/

namespace Hudi
open Spec

theorem lastWriteOf_eq (h : History) (k : GroupKey) : lastWriteOf h k = (versionAfter h k).map Version.base := by
  have : ∀ (v : Option Version), h.foldl (fun w c => match c.changeOf k with
      | some (.write _) => some c.ts
      | some .replace => none
      | _ => w) (v.map Version.base) =
      (h.foldl (fun v c => match c.changeOf k with | none => v | some ch => ch.apply c.ts v) v).map
        Version.base := by
    induction h with
    | nil => intro v; rfl
    | cons c h ih =>
      intro v
      rw [List.foldl_cons, List.foldl_cons, ← ih]
      congr 1
      cases c.changeOf k with
      | none => rfl
      | some ch => cases ch <;> cases v <;> rfl
  exact this none

/-- A read whose slices are all read from their base files alone. -/
theorem readInternal_bases {E : Env} {A : Arrow} {C : Codec} {M : MergeEnv A} {tb : Table} {t : Tree}
    (hp : PlainReader tb) {ts : Str} {fs : List Filter} {c : Cache}
    {ss : List FileSlice} (hss : (tb.fileSlicesInternal E A t ts fs c).2 = .ok ss)
    {content : FileSlice → Batch}
    (hfiles : ∀ s ∈ ss, (s.logFiles = [] ∨ ReadOptimized tb.opts) ∧ ParquetAt t s.basePath (content s)) :
    (tb.readSnapshotInternal E A C M t ts fs c).2 = .ok (ss.map content) := by
  unfold Table.readSnapshotInternal
  rw [Query.bind_snd]
  refine ⟨ss, hss, ?_⟩
  have hget := hmGet_readerOpts hp.plain [(Cfg.fileGroupEndTimestamp.key, ts)]
    (by intro e he; rw [List.mem_singleton.1 he]; rfl)
  show Res.mapL _ ss = _
  have hs' : startOf (tb.readerOpts [(Cfg.fileGroupEndTimestamp.key, ts)]) = none := by
    have := hp.noStart
    unfold startOf at this ⊢
    rw [hget]
    simp only [List.reverse_singleton, hmGet]
    rw [if_neg (by decide)]
    exact this
  rw [Res.mapL_ok_iff, List.map_map]
  refine List.map_congr_left fun s hs => ?_
  obtain ⟨hlog, hat⟩ := hfiles s hs
  refine C40_base_file_only C A M E.ltz _ t s _ hat hs' (hlog.imp_right fun hro => ?_)
  unfold ReadOptimized at hro ⊢
  rw [hget]
  simp only [List.reverse_singleton, hmGet]
  rw [if_neg (by decide)]
  exact hro

theorem noLogs_of_noAppends {h : History} {ts : Str} {k : GroupKey} {s : FileSlice} {h1 h2 h3 : History}
    {c0 : HCommit} {token : Str} (hs : SliceOf h ts k s h1 h2 h3 c0 token)
    (hno : ∀ c ∈ h, ∀ k ls, (k, Change.append ls) ∈ c.changes → ls = []) : s.logFiles = [] := by
  rw [List.eq_nil_iff_forall_not_mem]
  intro l hl
  obtain ⟨e, c, ⟨a, b, ls, v, rfl, hm, hl, _⟩, _⟩ := (hs.logs _).1 ⟨l, hl, rfl⟩
  rw [hno c (by simp) k ls hm] at hl
  cases hl

/-- **C75.**  For every history of commits and every storage that holds the base files they wrote, in
read-optimized mode, or in any mode if no commit appended to a log file: reading the snapshot as of `ts`
succeeds and returns, for each file group that has a base file as of `ts` and has not been replaced, in the
partitions that the filters keep, exactly the rows that the last commit up to `ts` that wrote a base file
for it wrote.  Nothing is required of the contents of log files. -/
theorem C75_base_files_as_of (E : Env) (A : Arrow) (C : Codec) (M : MergeEnv A) (o : Opts) (t : Tree)
    (tb : Table) (tz : Str) (h : History) (n : Nat) (filters : List (Str × Str × Str))
    (fs : List Filter) (cols : Schema) (hive url : Bool) (hmono : MonotoneTz E.ltz)
    (hl : ListableTable E A o t tb tz h n filters fs cols hive url) (hp : PlainReader tb)
    (hbase : BaseFilesOnly tb.opts h) (written : Str → GroupKey → Batch) (hb : StoresBases t h written)
    (ts : Str) (hts : WriterTimestamp ts ∧ ts.length = n) (hd : ∃ d, parseDatetime E.ltz ts tz = .ok d) :
    ∃ outs, (tb.readSnapshotAsOf E A C M t ts filters []).2 = .ok outs ∧
      ReadsBaseFiles written (historyTo h ts) (Kept A cols hive url fs) outs := by
  classical
  obtain ⟨d, hd⟩ := hd
  obtain ⟨ss, hss, hsh⟩ := C50_answered_partial E A o t tb hl.load hl.tree hmono tz hl.zone h n hl.history
    hl.stores ts d.epochMillis hts ⟨d, hd, rfl⟩ filters fs hl.parsed cols hl.columns hl.names hl.applicable
    hive url hl.style hl.parallelism hl.docs (fun c hc x f token hm =>
      parquetIn_of_at hl.history hc hm (hb c hc _ _ hm).1)
  have hat : ∀ k, lastWriteOf (historyTo h ts) k = (tableAt h ts k).map Version.base := fun k => lastWriteOf_eq _ k
  have hsl : ∀ s ∈ ss, ∃ w, lastWriteOf (historyTo h ts) (sliceKey s) = some w ∧
      (s.logFiles = [] ∨ ReadOptimized tb.opts) ∧ ParquetAt t s.basePath (written w (sliceKey s)) := by
    intro s hs
    have hne := ((hsh.groups (sliceKey s)).1 ⟨s, hs, rfl⟩).2
    obtain ⟨v, hv⟩ := Option.ne_none_iff_exists'.1 hne
    obtain ⟨h1, h2, h3, c0, token, hso⟩ := slice_of_version hl.history rfl hv (hsh.versions s hs v hv)
    refine ⟨c0.ts, ?_, ?_, ?_⟩
    · rw [lastWriteOf_eq]
      unfold historyTo
      rw [hso.upTo, versionAfter_some (v := ⟨c0.ts, token, appendsUntilWrite h2 (sliceKey s)⟩) |>.2
        ⟨h1, c0, h2, rfl, hso.write, rfl, hso.quiet, rfl⟩]
      rfl
    · rcases hbase with h | h
      · exact .inr h
      · exact .inl (noLogs_of_noAppends hso h)
    · rw [hso.base]
      exact (hb c0 (by rw [hso.split]; simp) _ token (changeOf_mem hso.write)).1
  have hex : ∀ s, ∃ w, s ∈ ss → lastWriteOf (historyTo h ts) (sliceKey s) = some w ∧
      (s.logFiles = [] ∨ ReadOptimized tb.opts) ∧ ParquetAt t s.basePath (written w (sliceKey s)) := by
    intro s
    by_cases hm : s ∈ ss
    · obtain ⟨w, hw⟩ := hsl s hm; exact ⟨w, fun _ => hw⟩
    · exact ⟨[], fun h => absurd h hm⟩
  choose w hw using hex
  unfold Table.fileSlicesAsOf at hss
  obtain ⟨fs', hf, hss⟩ := Query.bind_lift_snd.1 hss
  refine ⟨_, Query.bind_lift_snd.2 ⟨fs', hf, readInternal_bases hp hss
    (content := fun s => written (w s) (sliceKey s)) (fun s hs => (hw s hs).2)⟩,
    ss.map sliceKey, hsh.distinct, ?_, ?_⟩
  · intro k
    rw [List.mem_map, hsh.groups k, hat]
    unfold shownAt
    simp
  · rw [List.forall₂_map_left_iff, List.forall₂_map_right_iff, List.forall₂_same]
    exact fun s hs => ⟨_, (hw s hs).1, rfl⟩

/-- **C75, the latest snapshot.** -/
theorem C75_latest_base_files (E : Env) (A : Arrow) (C : Codec) (M : MergeEnv A) (o : Opts) (t : Tree)
    (tb : Table) (tz : Str) (h : History) (n : Nat) (filters : List (Str × Str × Str))
    (fs : List Filter) (cols : Schema) (hive url : Bool) (hmono : MonotoneTz E.ltz)
    (hl : ListableTable E A o t tb tz h n filters fs cols hive url) (hp : PlainReader tb)
    (hbase : BaseFilesOnly tb.opts h) (written : Str → GroupKey → Batch) (hb : StoresBases t h written) :
    ∃ outs, (tb.readSnapshot E A C M t filters []).2 = .ok outs ∧
      ReadsBaseFiles written h (Kept A cols hive url fs) outs := by
  obtain ⟨c0, d0, hc0, _, hi, hd0, he⟩ := hl.latest hmono
  obtain ⟨outs, h1, h2⟩ := C75_base_files_as_of E A C M o t tb tz h n filters fs cols hive url hmono hl hp hbase
    written hb c0.ts (hl.history.times c0 hc0) ⟨d0, hd0⟩
  refine ⟨outs, ?_, ?_⟩
  · unfold Table.readSnapshot
    rw [hi]
    exact h1
  · unfold historyTo at h2
    rw [he] at h2
    exact h2

/-- **C75, changes.**  Under the same conditions, reading the changes between two times succeeds and
returns, for each file group that a commit of the span changed and that is in the table at its end, exactly
the rows of its base file at the end that were committed in the span. -/
theorem C75_changed_base_files (E : Env) (A : Arrow) (C : Codec) (M : MergeEnv A) (o o' : Opts)
    (t : Tree) (tb : Table) (tz : Str) (h : History) (n : Nat) (hmono : MonotoneTz E.ltz)
    (hload : Timeline.load E o t = .ok tb.timeline) (htree : TreeWF t)
    (hzone : timezoneOf tb.timeline.opts = .ok tz) (hw : h.WF n) (hst : Stores E.ltz tz o' t h)
    (hdocs : StoresDocs t h) (hp : PlainStorage tb) (hmeta : MetaFields tb.opts)
    (hbase : BaseFilesOnly tb.opts h) (written : Str → GroupKey → Batch) (hb : StoresBases t h written)
    (hct : ∀ c ∈ h, ∀ k token, (k, Change.write token) ∈ c.changes → HasCommitTime (written c.ts k).schema)
    (start stop : Str) (hs : WriterTimestamp start ∧ start.length = n)
    (he : WriterTimestamp stop ∧ stop.length = n) (hps : ∃ d, parseDatetime E.ltz start tz = .ok d)
    (hpe : ∃ d, parseDatetime E.ltz stop tz = .ok d) :
    ∃ outs, tb.readIncremental E A C M t start (some stop) = .ok outs ∧
      ReadsChangedBaseFiles written h start stop outs := by
  obtain ⟨ss, hss, hsh⟩ := C60_changed_slices E o o' t tb tz h n hmono hload htree hzone hw hst hdocs start
    stop hs he hps hpe
  have hat : ∀ k, lastWriteOf (historyTo h stop) k = (tableAt h stop k).map Version.base := fun k => lastWriteOf_eq _ k
  have hget := hmGet_readerOpts hp [(Cfg.fileGroupStartTimestamp.key, start),
    (Cfg.fileGroupEndTimestamp.key, stop)] (by
      intro e he
      simp only [List.mem_cons, List.not_mem_nil, or_false] at he
      rcases he with rfl | rfl <;> rfl)
  generalize ho : tb.readerOpts [(Cfg.fileGroupStartTimestamp.key, start),
    (Cfg.fileGroupEndTimestamp.key, stop)] = ro at hget
  have hs' : startOf ro = some start := by
    unfold startOf; rw [hget]; rfl
  have he' : endOf ro = some stop := by
    unfold endOf; rw [hget]; rfl
  have hmeta' : MetaFields ro := by
    unfold MetaFields at hmeta ⊢; rw [hget]; exact hmeta
  have hro' : ReadOptimized tb.opts → ReadOptimized ro := by
    intro h; unfold ReadOptimized at h ⊢; rw [hget]; exact h
  have hsl : ∀ s ∈ ss, ∃ out, readFileSlice C A M E.ltz ro t s = .ok out ∧
      ∃ ts, lastWriteOf (historyTo h stop) (sliceKey s) = some ts ∧
      out.schema = (written ts (sliceKey s)).schema ∧ ∃ keep : List Cell → Bool,
        (∀ r ∈ (written ts (sliceKey s)).rows,
          keep r = true ↔ CommittedIn (written ts (sliceKey s)).schema start (some stop) r) ∧
        out.rows = (written ts (sliceKey s)).rows.filter keep := by
    intro s hs
    have hne := ((hsh.groups (sliceKey s)).1 ⟨s, hs, rfl⟩).2
    obtain ⟨v, hv⟩ := Option.ne_none_iff_exists'.1 hne
    obtain ⟨h1, h2, h3, c0, token, hso⟩ := spanSlice_of hw rfl hv (hsh.versions s hs v hv)
    have hc0 : c0 ∈ h := by rw [hso.ends.split]; simp
    obtain ⟨b1, b2⟩ := hb c0 hc0 _ token (changeOf_mem hso.ends.write)
    obtain ⟨rows, r1, r2⟩ := readBaseFile_eq (A := A) (o := ro) b1 b2
      (fun _ _ => hct c0 hc0 _ token (changeOf_mem hso.ends.write))
    unfold BaseRows at r2
    rw [hs'] at r2
    obtain ⟨keep, rfl, hk⟩ := r2.1 hmeta'
    rw [he'] at hk
    refine ⟨⟨(written c0.ts (sliceKey s)).schema, (written c0.ts (sliceKey s)).rows.filter keep⟩, ?_, c0.ts, ?_, rfl,
      keep, hk, rfl⟩
    · unfold readFileSlice FileSlice.hasLogFile
      rw [hso.base]
      by_cases hlog : s.logFiles = []
      · rw [if_pos (by simp [hlog]), r1]
      · rw [if_neg (by simpa using hlog)]
        have hr : ReadOptimized tb.opts := by
          rcases hbase with hr | hno
          · exact hr
          · exfalso
            apply hlog
            rw [List.eq_nil_iff_forall_not_mem]
            intro l hl
            obtain ⟨e, c, ⟨a, b, ls, v, he, hm, hl, _⟩, _⟩ := (hso.logs _).1 ⟨l, hl, rfl⟩
            rw [hno c (by rw [he]; simp) _ ls hm] at hl
            cases hl
        obtain ⟨v, hv1, hv2⟩ := Res.bind_eq_ok.1 (readOptimized_eq ro)
        simp only [hv1, hv2, Res.ok_bind, hro' hr, decide_true, if_true, r1]
    · rw [lastWriteOf_eq]
      unfold historyTo
      rw [hso.ends.upTo, versionAfter_some (v := ⟨c0.ts, token, appendsUntilWrite h2 (sliceKey s)⟩) |>.2
        ⟨h1, c0, h2, rfl, hso.ends.write, rfl, hso.ends.quiet, rfl⟩]
      rfl
  obtain ⟨outs, o1, o2⟩ := mapL_forall₂ hsl
  refine ⟨outs, ?_, ss.map sliceKey, hsh.distinct, ?_, ?_⟩
  · have hss' : tb.fileSlicesBetweenInternal E t start stop = .ok ss := hss
    rw [show tb.readIncremental E A C M t start (some stop) = (do
      let ss ← tb.fileSlicesBetweenInternal E t start stop
      Res.mapL (readFileSlice C A M E.ltz (tb.readerOpts [(Cfg.fileGroupStartTimestamp.key, start),
        (Cfg.fileGroupEndTimestamp.key, stop)]) t) ss) from rfl, hss']
    simp only [Res.ok_bind, ho]
    exact o1
  · intro k
    rw [List.mem_map, hsh.groups k, changedAt_ne_none hw, hat]
    simp
  · rw [List.forall₂_map_left_iff]
    exact o2

end Hudi
