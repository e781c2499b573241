import Verif.Spec.Distributed
import Verif.Props.Handout
import Verif.Props.Splits
import Verif.Props.Opened
import Verif.Props.TableReads

/-! # C73: reading a table piece by piece -/

namespace Hudi
open Spec

section same
variable {o o' : Opts} (h : ∀ k, hmGet k o = hmGet k o')
include h

theorem getOrDefault_same (c : Cfg) : c.getOrDefault o = c.getOrDefault o' := by
  unfold Cfg.getOrDefault metaFieldsPopulated hmContains
  simp only [get_same h, h]

theorem tryGet_same (c : Cfg) : c.tryGet o = c.tryGet o' := by
  unfold Cfg.tryGet; rw [get_same h]

theorem readBaseFile_same_opts (A : Arrow) (t : Tree) (p : Str) : readBaseFile A o t p = readBaseFile A o' t p := by
  unfold readBaseFile baseFileFilters
  simp only [getOrDefault_same h, tryGet_same h]

theorem readMerged_same_opts (C : Codec) (A : Arrow) (M : MergeEnv A) (ltz : LocalTz) (t : Tree) (s : FileSlice) :
    readMerged C A M ltz o t s = readMerged C A M ltz o' t s := by
  unfold readMerged logScanRange scanLogs scanFile readLogFile mergeRecordBatches mergeLatest mergeStrategyOf
    precombineFieldOf
  simp only [readBaseFile_same_opts h, timezoneOf_same h, tryGet_same h, getOrDefault_same h, get_same h]

theorem readFileSlice_same_opts (C : Codec) (A : Arrow) (M : MergeEnv A) (ltz : LocalTz) (t : Tree) (s : FileSlice) :
    readFileSlice C A M ltz o t s = readFileSlice C A M ltz o' t s := by
  unfold readFileSlice
  simp only [readBaseFile_same_opts h, readMerged_same_opts h, getOrDefault_same h]

end same

/-! ## Readers -/

section reader
variable {w : World} {tb : Table} {more : List (Str × Str)} {uri : Str}

theorem more_other (hm : ∀ e ∈ more, HudiKey e.1) {k : Str} (hk : ¬ HudiKey k) : hmGet k more.reverse = none := by
  rw [hmGet_eq_none]
  intro h
  obtain ⟨e, he, rfl⟩ := List.mem_map.1 h
  exact hk (hm e (List.mem_reverse.1 he))

theorem more_base (hb : ∀ e ∈ more, e.1 ≠ c!"hoodie.base.path") :
    hmGet c!"hoodie.base.path" more.reverse = none := by
  rw [hmGet_eq_none]
  intro h
  obtain ⟨e, he, h⟩ := List.mem_map.1 h
  exact hb e (List.mem_reverse.1 he) h

theorem noStorage (ha : ∀ e ∈ tb.storageOpts, ¬ HudiKey e.1) {k : Str} (hk : HudiKey k) :
    hmGet k tb.storageOpts = none := by
  rw [hmGet_eq_none]
  intro h
  obtain ⟨e, he, rfl⟩ := List.mem_map.1 h
  exact ha e he hk

theorem noHudi (ha : ∀ e ∈ tb.opts, HudiKey e.1) {k : Str} (hk : ¬ HudiKey k) : hmGet k tb.opts = none := by
  rw [hmGet_eq_none]
  intro h
  obtain ⟨e, he, rfl⟩ := List.mem_map.1 h
  exact hk (ha e he)

theorem plain_of (ha : ∀ e ∈ tb.storageOpts, ¬ HudiKey e.1) (hn : HmNodup tb.storageOpts) : PlainStorage tb := by
  refine ⟨hn, fun e he => ?_⟩
  have := ha e he
  rw [← startsWith_hudi] at this
  simpa using this

theorem firstOf_three (a b c : Option Str) : firstOf [a, b, c] = (a.or b).or c := by
  unfold firstOf
  cases a <;> cases b <;> cases c <;> rfl

/-- The options and the storage options of a reader made from the base path. -/
theorem made_opts (ha : ∀ e ∈ tb.storageOpts, ¬ HudiKey e.1) (hh : ∀ e ∈ tb.opts, HudiKey e.1) (hn : HmNodup tb.storageOpts) (hm : ∀ e ∈ more, HudiKey e.1)
    {u : Str} (hu : hmGet c!"hoodie.base.path" tb.opts = some u)
    {options : List (Str × Str)} (ho : WithTableOptions tb more options) :
    (∀ k, hmGet k (readerOpts [(Cfg.basePath.key, uri)] options) = hmGet k (tb.readerOpts more)) ∧
    ∀ k, hmGet k (splitHudiOptions options).2 = hmGet k tb.storageOpts := by
  obtain ⟨hk1, hk2⟩ : HudiKey c!"hoodie.base.path" ∧ Cfg.basePath.key = c!"hoodie.base.path" :=
    ⟨⟨c!"base.path", rfl⟩, rfl⟩
  constructor
  · intro k
    rw [hmGet_readerOpts (plain_of ha hn) more (fun e he => startsWith_hudi.2 (hm e he))]
    unfold readerOpts
    rw [hmGet_hmExtend, hmGet_reverse_of_nodup (splitHudi_nodup _).1]
    by_cases hk : HudiKey k
    · rw [((C43_split options k).1 hk).1, ho k, firstOf_three, ← lastGiven_eq]
      unfold Table.storageOptions Table.hudiOptions
      rw [noStorage ha hk, Option.or_none]
      cases hx : (hmGet k more.reverse).or (hmGet k tb.opts) with
      | some v => rfl
      | none =>
        have : k ≠ c!"hoodie.base.path" := by
          rintro rfl
          rw [hu] at hx
          cases hz : hmGet c!"hoodie.base.path" more.reverse with
          | none => rw [hz] at hx; cases hx
          | some z => rw [hz] at hx; cases hx
        rw [hk2]
        simp [hmGet, this]
    · rw [((C43_split options k).2 hk).1, more_other hm hk, noHudi hh hk, hk2]
      have : k ≠ c!"hoodie.base.path" := by rintro rfl; exact hk hk1
      simp [hmGet, this]
  · intro k
    by_cases hk : HudiKey k
    · rw [((C43_split options k).1 hk).2, noStorage ha hk]
    · rw [((C43_split options k).2 hk).2, ho k, firstOf_three, ← lastGiven_eq, more_other hm hk]
      unfold Table.storageOptions Table.hudiOptions
      rw [noHudi hh hk]
      simp

theorem created_storage (ha : ∀ e ∈ tb.storageOpts, ¬ HudiKey e.1) (hn : HmNodup tb.storageOpts) (hm : ∀ e ∈ more, HudiKey e.1) (k : Str) :
    hmGet k (splitHudiOptions (hmExtend tb.storageOpts more)).2 = hmGet k tb.storageOpts := by
  by_cases hk : HudiKey k
  · rw [((C43_split _ k).1 hk).2, noStorage ha hk]
  · rw [((C43_split _ k).2 hk).2, ← lastGiven_eq, hmGet_reverse_of_nodup (hmExtend_nodup hn), hmGet_hmExtend,
      more_other hm hk]
    simp

theorem readerOpts_base (ha : ∀ e ∈ tb.storageOpts, ¬ HudiKey e.1) (hn : HmNodup tb.storageOpts) (hm : ∀ e ∈ more, HudiKey e.1)
    (hb : ∀ e ∈ more, e.1 ≠ c!"hoodie.base.path") :
    hmGet c!"hoodie.base.path" (tb.readerOpts more) = hmGet c!"hoodie.base.path" tb.opts := by
  rw [hmGet_readerOpts (plain_of ha hn) more (fun e he => startsWith_hudi.2 (hm e he)), more_base hb]
  rfl

/-- What a reader is: the table's storage, with the options a read of the table uses. -/
theorem reader_is {s : Storage} {r : FgReader} (hc : Connected w tb s) (hm : ∀ e ∈ more, HudiKey e.1)
    (hb : ∀ e ∈ more, e.1 ≠ c!"hoodie.base.path") (hr : ReaderFor w tb more r) :
    (∀ k, hmGet k r.opts = hmGet k (tb.readerOpts more)) ∧ r.storage = s := by
  obtain ⟨uri, hu, hs⟩ := hc.storage
  have hbase := (readerOpts_base hc.apart hc.map hm hb).trans hu
  cases hr with
  | created h =>
    unfold Table.createReader FgReader.newWithConfigs at h
    obtain ⟨s', h1, h⟩ := Res.bind_eq_ok.1 h
    cases h
    refine ⟨fun _ => rfl, ?_⟩
    rw [show readerOpts tb.opts (hmExtend tb.storageOpts more) = tb.readerOpts more from rfl, storage_at hbase,
      hc.options _ tb.storageOpts uri (created_storage hc.apart hc.map hm)] at h1
    exact Res.ok.inj (h1.symm.trans hs)
  | made uri' options hh ho h =>
    unfold FgReader.newWithOptions FgReader.newWithConfigs at h
    obtain ⟨s', h1, h⟩ := Res.bind_eq_ok.1 h
    cases h
    obtain ⟨h2, h3⟩ := made_opts (uri := uri') hc.apart hh hc.map hm hu ho
    refine ⟨h2, ?_⟩
    rw [storage_at ((h2 _).trans hbase), hc.options _ tb.storageOpts uri h3] at h1
    exact Res.ok.inj (h1.symm.trans hs)

theorem created_exists {s : Storage} (hc : Connected w tb s) (hm : ∀ e ∈ more, HudiKey e.1)
    (hb : ∀ e ∈ more, e.1 ≠ c!"hoodie.base.path") : ∃ r, tb.createReader w more = .ok r := by
  obtain ⟨uri, hu, hs⟩ := hc.storage
  have hbase := (readerOpts_base hc.apart hc.map hm hb).trans hu
  refine ⟨⟨tb.readerOpts more, s⟩, ?_⟩
  unfold Table.createReader FgReader.newWithConfigs
  rw [show readerOpts tb.opts (hmExtend tb.storageOpts more) = tb.readerOpts more from rfl, storage_at hbase, hc.options _ tb.storageOpts uri (created_storage hc.apart hc.map hm)]
  rw [show w.connect tb.storageOpts uri = .ok s from hs]
  rfl

theorem made_exists {s : Storage} (hc : Connected w tb s) (hm : ∀ e ∈ more, HudiKey e.1)
    (hb : ∀ e ∈ more, e.1 ≠ c!"hoodie.base.path") (uri' : Str) {options : List (Str × Str)}
    (hh : ∀ e ∈ tb.opts, HudiKey e.1) (ho : WithTableOptions tb more options) : ∃ r, FgReader.newWithOptions w uri' options = .ok r := by
  obtain ⟨uri, hu, hs⟩ := hc.storage
  have hbase := (readerOpts_base hc.apart hc.map hm hb).trans hu
  obtain ⟨h2, h3⟩ := made_opts (uri := uri') hc.apart hh hc.map hm hu ho
  refine ⟨⟨readerOpts [(Cfg.basePath.key, uri')] options, s⟩, ?_⟩
  unfold FgReader.newWithOptions FgReader.newWithConfigs
  rw [storage_at ((h2 _).trans hbase), hc.options _ tb.storageOpts uri h3]
  rw [show w.connect tb.storageOpts uri = .ok s from hs]
  rfl

end reader

theorem upTo_hudi (ts : Str) : (∀ e ∈ upTo ts, HudiKey e.1) ∧ ∀ e ∈ upTo ts, e.1 ≠ c!"hoodie.base.path" := by
  constructor <;> intro e he <;> rw [List.mem_singleton.1 he]
  · exact ⟨c!"read.file_group.end_timestamp", rfl⟩
  · show c!"hoodie.read.file_group.end_timestamp" ≠ _; decide

theorem during_hudi (start stop : Str) :
    (∀ e ∈ during start stop, HudiKey e.1) ∧ ∀ e ∈ during start stop, e.1 ≠ c!"hoodie.base.path" := by
  constructor <;> intro e he <;> rcases List.mem_cons.1 he with rfl | he
  · exact ⟨c!"read.file_group.start_timestamp", rfl⟩
  · rw [List.mem_singleton.1 he]; exact ⟨c!"read.file_group.end_timestamp", rfl⟩
  · show c!"hoodie.read.file_group.start_timestamp" ≠ _; decide
  · rw [List.mem_singleton.1 he]; show c!"hoodie.read.file_group.end_timestamp" ≠ _; decide

/-- Reading slices one by one is reading them in one go. -/
theorem oneByOne_iff {C : Codec} {A : Arrow} {M : MergeEnv A} {ltz : LocalTz} {w : World} {tb : Table}
    {more : List (Str × Str)} {s : Storage} {r : FgReader} (hc : Connected w tb s) (hm : ∀ e ∈ more, HudiKey e.1)
    (hb : ∀ e ∈ more, e.1 ≠ c!"hoodie.base.path") (hr : ReaderFor w tb more r) {ss : List FileSlice}
    (hn : ∀ s ∈ ss, NamedSlice s) (described : FileSlice → Bool) (bs : List Batch) :
    Res.mapL (readFileSlice C A M ltz (tb.readerOpts more) s.tree) ss = .ok bs ↔
      ReadOneByOne C A M ltz r described ss bs := by
  obtain ⟨h1, rfl⟩ := reader_is hc hm hb hr
  unfold ReadOneByOne
  induction ss generalizing bs with
  | nil => cases bs <;> simp
  | cons x xs ih =>
    have hx : ∀ b, (if described x = true then r.readDescribed C A M ltz (PySlice.ofSlice x) = .ok b
        else r.readSlice C A M ltz x = .ok b) ↔
        readFileSlice C A M ltz (tb.readerOpts more) r.storage.tree x = .ok b := by
      intro b
      have h2 : r.readDescribed C A M ltz (PySlice.ofSlice x) =
          readFileSlice C A M ltz (tb.readerOpts more) r.storage.tree x := by
        unfold FgReader.readDescribed
        rw [(hn x (by simp)).readsLike C M ltz r.opts r.storage.tree, readFileSlice_same_opts h1]
      have h3 : r.readSlice C A M ltz x = readFileSlice C A M ltz (tb.readerOpts more) r.storage.tree x := by
        unfold FgReader.readSlice
        rw [readFileSlice_same_opts h1]
      rw [h2, h3]
      split <;> rfl
    rw [Res.mapL_cons_ok]
    constructor
    · rintro ⟨y, ys, h2, h3, rfl⟩
      exact .cons ((hx y).2 h2) ((ih (fun s hs => hn s (by simp [hs])) ys).1 h3)
    · rintro (_ | ⟨h2, h3⟩)
      exact ⟨_, _, (hx _).1 h2, (ih (fun s hs => hn s (by simp [hs])) _).2 h3, rfl⟩

/-! ## The property -/

/-- **C73, readers.**  With any more options about reading, the table creates a reader and a reader can be
made from any base path with the table's options; all of them read every slice, and every described slice,
the same. -/
theorem C73_readers (C : Codec) (A : Arrow) (M : MergeEnv A) (ltz : LocalTz) (w : World) (tb : Table)
    (s : Storage) (hc : Connected w tb s) (more : List (Str × Str)) (hm : ∀ e ∈ more, HudiKey e.1)
    (hb : ∀ e ∈ more, e.1 ≠ c!"hoodie.base.path") :
    (∃ r, tb.createReader w more = .ok r) ∧
    (∀ uri options, (∀ e ∈ tb.hudiOptions, HudiKey e.1) → WithTableOptions tb more options →
      ∃ r, FgReader.newWithOptions w uri options = .ok r) ∧
    ∀ r r', ReaderFor w tb more r → ReaderFor w tb more r' →
      (∀ d, r.readDescribed C A M ltz d = r'.readDescribed C A M ltz d) ∧
      ∀ s, r.readSlice C A M ltz s = r'.readSlice C A M ltz s := by
  refine ⟨created_exists hc hm hb, fun uri options hh ho => made_exists hc hm hb uri hh ho, ?_⟩
  intro r r' hr hr'
  obtain ⟨h1, rfl⟩ := reader_is hc hm hb hr
  obtain ⟨h2, h3⟩ := reader_is hc hm hb hr'
  refine ⟨fun d => ?_, fun s => by
    unfold FgReader.readSlice
    rw [h3]
    exact readFileSlice_same_opts (fun k => (h1 k).trans (h2 k).symm) ..⟩
  unfold FgReader.readDescribed PySlice.read
  rw [h3]
  refine congrArg _ (funext fun s => ?_)
  exact readFileSlice_same_opts (fun k => (h1 k).trans (h2 k).symm) ..

theorem internal_pieces {E : Env} {A : Arrow} {C : Codec} {M : MergeEnv A} {w : World} {tb : Table} {s : Storage}
    (hc : Connected w tb s) {hist : List Tree} {c : Cache} (hcache : CacheAfter E A tb hist c) {ts : Str}
    {fs : List Filter} {ss : List FileSlice} (hss : (tb.fileSlicesInternal E A s.tree ts fs c).2 = .ok ss)
    {r : FgReader} (hr : ReaderFor w tb (upTo ts) r) (described : FileSlice → Bool) (bs : List Batch) :
    (tb.readSnapshotInternal E A C M s.tree ts fs c).2 = .ok bs ↔ ReadOneByOne C A M E.ltz r described ss bs := by
  rw [← oneByOne_iff hc (upTo_hudi ts).1 (upTo_hudi ts).2 hr (internal_named (cacheAfter_named hcache) hss)]
  unfold Table.readSnapshotInternal
  rw [Query.bind_snd]
  constructor
  · rintro ⟨a, h1, h2⟩
    cases Res.ok.inj (h1.symm.trans hss)
    exact h2
  · intro h
    exact ⟨ss, hss, h⟩

theorem pieces_as_of {E : Env} {A : Arrow} {C : Codec} {M : MergeEnv A} {w : World} {tb : Table} {s : Storage}
    (hc : Connected w tb s) {hist : List Tree} {c : Cache} (hcache : CacheAfter E A tb hist c) {ts : Str}
    {filters : List (Str × Str × Str)} {ss : List FileSlice}
    (hss : (tb.fileSlicesAsOf E A s.tree ts filters c).2 = .ok ss)
    {r : FgReader} (hr : ReaderFor w tb (upTo ts) r) (described : FileSlice → Bool) (bs : List Batch) :
    (tb.readSnapshotAsOf E A C M s.tree ts filters c).2 = .ok bs ↔ ReadOneByOne C A M E.ltz r described ss bs := by
  unfold Table.fileSlicesAsOf at hss
  obtain ⟨fs, h1, h2⟩ := Query.bind_lift_snd.1 hss
  rw [← internal_pieces hc hcache h2 hr described]
  unfold Table.readSnapshotAsOf
  rw [Query.bind_lift_snd]
  constructor
  · rintro ⟨fs', h3, h4⟩
    cases Res.ok.inj (h3.symm.trans h1)
    exact h4
  · intro h
    exact ⟨fs, h1, h⟩

/-- **C73, as of a time (partial).**  After any sequence of queries through a handle: if its slices as of a time are
handed out in any number of splits, reading each, itself or by its description, with any reader for the table that is
restricted to that time, returns what reading the table as of that time returns; and if reading the table
succeeds, so does handing out.  Missing: readers that are not given the time, or not the table's options
(`C73_false`). -/
theorem C73_as_of_partial (E : Env) (A : Arrow) (C : Codec) (M : MergeEnv A) (w : World) (tb : Table) (s : Storage)
    (hc : Connected w tb s) (hist : List Tree) (c : Cache) (hcache : CacheAfter E A tb hist c) (ts : Str)
    (filters : List (Str × Str × Str)) (n : Nat) (r : FgReader) (hr : ReaderFor w tb (upTo ts) r)
    (described : FileSlice → Bool) :
    (∀ splits, (tb.fileSlicesSplitsAsOf E A s.tree n ts filters c).2 = .ok splits → ∀ bs,
      (tb.readSnapshotAsOf E A C M s.tree ts filters c).2 = .ok bs ↔
        ReadOneByOne C A M E.ltz r described splits.flatten bs) ∧
    ∀ bs, (tb.readSnapshotAsOf E A C M s.tree ts filters c).2 = .ok bs →
      ∃ splits, (tb.fileSlicesSplitsAsOf E A s.tree n ts filters c).2 = .ok splits := by
  rcases hq : tb.fileSlicesAsOf E A s.tree ts filters c with ⟨c', q⟩
  obtain ⟨h1, h2, h3⟩ := C32_splits_as_of E A tb s.tree n ts filters c c' q hq
  constructor
  · intro splits hs bs
    cases q with
    | err e => rw [h2 e rfl] at hs; cases hs
    | panic => rw [h3 rfl] at hs; cases hs
    | ok l =>
      obtain ⟨ss, h4, h5, _⟩ := h1 l rfl
      rw [h4] at hs
      cases Res.ok.inj hs
      rw [h5.whole]
      exact pieces_as_of hc hcache (by rw [hq]) hr described bs
  · intro bs hb
    unfold Table.readSnapshotAsOf at hb
    obtain ⟨fs, h4, h5⟩ := Query.bind_lift_snd.1 hb
    unfold Table.readSnapshotInternal at h5
    obtain ⟨ss, h6, _⟩ := Query.bind_snd.1 h5
    have : (tb.fileSlicesAsOf E A s.tree ts filters c).2 = .ok ss := by
      unfold Table.fileSlicesAsOf
      exact Query.bind_lift_snd.2 ⟨fs, h4, h6⟩
    rw [hq] at this
    obtain ⟨sss, h7, _⟩ := h1 ss this
    exact ⟨sss, by rw [h7]⟩

/-- **C73, latest (partial).**  The same for the latest slices and the latest snapshot, with a reader restricted to
the table's latest commit.  Missing: as in `C73_as_of_partial`. -/
theorem C73_latest_partial (E : Env) (A : Arrow) (C : Codec) (M : MergeEnv A) (w : World) (tb : Table) (s : Storage)
    (hc : Connected w tb s) (hist : List Tree) (c : Cache) (hcache : CacheAfter E A tb hist c)
    (filters : List (Str × Str × Str)) (n : Nat) (r : FgReader)
    (hr : ∀ ts, tb.timeline.latestTimestamp = some ts → ReaderFor w tb (upTo ts) r)
    (described : FileSlice → Bool) :
    (∀ splits, (tb.fileSlicesSplits E A s.tree n filters c).2 = .ok splits → ∀ bs,
      (tb.readSnapshot E A C M s.tree filters c).2 = .ok bs ↔
        ReadOneByOne C A M E.ltz r described splits.flatten bs) ∧
    ∀ bs, (tb.readSnapshot E A C M s.tree filters c).2 = .ok bs →
      ∃ splits, (tb.fileSlicesSplits E A s.tree n filters c).2 = .ok splits := by
  cases ht : tb.timeline.latestTimestamp with
  | none =>
    unfold Table.fileSlicesSplits Table.readSnapshot
    rw [ht]
    constructor
    · intro splits hs bs
      cases Res.ok.inj (show Res.ok [] = Res.ok splits from hs)
      unfold ReadOneByOne
      constructor
      · intro h
        cases Res.ok.inj (show Res.ok [] = Res.ok bs from h)
        exact .nil
      · intro h
        cases h
        rfl
    · intro _ _
      exact ⟨[], rfl⟩
  | some ts =>
    have h1 : tb.fileSlicesSplits E A s.tree n filters = tb.fileSlicesSplitsAsOf E A s.tree n ts filters := by
      unfold Table.fileSlicesSplits; rw [ht]; rfl
    have h2 : tb.readSnapshot E A C M s.tree filters = tb.readSnapshotAsOf E A C M s.tree ts filters := by
      unfold Table.readSnapshot; rw [ht]; rfl
    rw [h1, h2]
    exact C73_as_of_partial E A C M w tb s hc hist c hcache ts filters n r (hr ts ht) described

/-- **C73, changes (partial).**  The same for the slices changed in a range of time and the records written in it,
with a reader restricted to the range.  Missing: as in `C73_as_of_partial`. -/
theorem C73_changes_partial (E : Env) (A : Arrow) (C : Codec) (M : MergeEnv A) (w : World) (tb : Table) (s : Storage)
    (hc : Connected w tb s) (start : Str) (stop : Option Str) (r : FgReader)
    (hr : ∀ ts, (stop.or tb.timeline.latestTimestamp) = some ts → ReaderFor w tb (during start ts) r)
    (described : FileSlice → Bool) :
    (∀ ss, tb.fileSlicesBetween E s.tree (some start) stop = .ok ss → ∀ bs,
      tb.readIncremental E A C M s.tree start stop = .ok bs ↔ ReadOneByOne C A M E.ltz r described ss bs) ∧
    ∀ bs, tb.readIncremental E A C M s.tree start stop = .ok bs →
      ∃ ss, tb.fileSlicesBetween E s.tree (some start) stop = .ok ss := by
  cases ht : stop.or tb.timeline.latestTimestamp with
  | none =>
    unfold Table.fileSlicesBetween Table.readIncremental
    rw [ht]
    constructor
    · intro ss hs bs
      cases Res.ok.inj hs
      constructor
      · intro h
        cases Res.ok.inj h
        exact .nil
      · intro h
        cases h
        rfl
    · intro _ _
      exact ⟨[], rfl⟩
  | some ts =>
    have h1 : tb.fileSlicesBetween E s.tree (some start) stop = tb.fileSlicesBetweenInternal E s.tree start ts := by
      unfold Table.fileSlicesBetween; rw [ht]; rfl
    have h2 : tb.readIncremental E A C M s.tree start stop =
        (tb.fileSlicesBetweenInternal E s.tree start ts >>= fun ss =>
          Res.mapL (readFileSlice C A M E.ltz (tb.readerOpts (during start ts)) s.tree) ss) := by
      unfold Table.readIncremental; rw [ht]; rfl
    constructor
    · intro ss hs bs
      rw [← oneByOne_iff hc (during_hudi start ts).1 (during_hudi start ts).2 (hr ts ht) (between_named hs), h2]
      rw [h1] at hs
      rw [hs, Res.ok_bind]
    · intro bs hb
      rw [h2] at hb
      obtain ⟨ss, h3, _⟩ := Res.bind_eq_ok.1 hb
      exact ⟨ss, h1.trans h3⟩

/-- **C73, opened tables.**  For every table opened by its base path, with any calls on the builder that
give no hudi option as a storage option, its options lead to the storage it was opened on. -/
theorem C73_opened (E : Env) (w : World) (hw : ByOptions w) (uri : Str) (calls : List Call) (s : Storage)
    (o : Opts) (h : TableAt w uri calls s o) (hcalls : ∀ e ∈ calls.flatMap Call.storage, ¬ HudiKey e.1) (tb : Table)
    (hb : (builderOf uri calls).build E w = .ok tb) : Connected w tb s := by
  have hp := opened_plain hcalls hb
  refine ⟨hw, hp.1, ?_, uri, ?_, ?_⟩
  · intro e he hk
    have := hp.2 e he
    rw [startsWith_hudi.2 hk] at this
    cases this
  · rw [(build_at h hb).1, h.here]
  · obtain ⟨_, _, _, env, _, _, _, h4, _, h6⟩ := C41_precedence E w uri calls tb hb
    obtain ⟨env', h7, h8⟩ := h.connects
    refine h8 _ fun k => ?_
    rw [h6 k]
    unfold storageOptionOf
    rw [env_unique h4 h7 k]

end Hudi
