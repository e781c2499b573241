import Verif.Spec.Opened
import Verif.Props.Opening
import Verif.Props.Instants
import Verif.Props.Records

/-! # C71: opening a table by its base path and reading it -/

namespace Hudi
open Spec

/-! ## Options with the same values -/

theorem holdsText_unique {c : Content} {a b : Str} (h1 : HoldsText c a) (h2 : HoldsText c b) : a = b := by
  rcases h1 with rfl | rfl <;> rcases h2 with h | h
  · cases h; rfl
  · cases h
  · cases h
  · have h := congrArg utf8Decode (Content.bytes.inj h)
    rw [utf8Decode_encode, utf8Decode_encode] at h
    exact Option.some.inj h

theorem propertiesOf_unique {seps text : Str} {f g : Str → Option Str} (h1 : PropertiesOf seps text f)
    (h2 : PropertiesOf seps text g) (k : Str) : f k = g k := by
  cases hf : f k with
  | some v => exact ((h2 k v).2 ((h1 k v).1 hf)).symm
  | none =>
    cases hg : g k with
    | none => rfl
    | some v => rw [(h1 k v).2 ((h2 k v).1 hg)] at hf; cases hf

theorem tableOptions_unique {s : Storage} {f g : Str → Option Str} (h1 : TableOptions s f)
    (h2 : TableOptions s g) (k : Str) : f k = g k := by
  obtain ⟨_, c, text, h3, h4, h5⟩ := h1
  obtain ⟨_, c', text', h3', h4', h5'⟩ := h2
  rw [h3] at h3'
  cases h3'
  cases holdsText_unique h4 h4'
  exact propertiesOf_unique h5 h5' k

theorem globalOptions_unique {w : World} {s : Storage} {f g : Str → Option Str} (h1 : GlobalOptions w s f)
    (h2 : GlobalOptions w s g) (k : Str) : f k = g k := by
  unfold GlobalOptions at h1 h2
  simp only [confPath_iff, exists_eq_left] at h1 h2
  rcases h1 with ⟨c, text, h3, h4, h5⟩ | ⟨h3, h4⟩ <;> rcases h2 with ⟨c', text', h3', h4', h5'⟩ | ⟨h3', h4'⟩
  · rw [h3] at h3'
    cases h3'
    cases holdsText_unique h4 h4'
    exact propertiesOf_unique h5 h5' k
  · exact absurd ⟨c, text, h3, h4⟩ h3'
  · exact absurd ⟨c', text', h3', h4'⟩ h3
  · rw [h4, h4']

theorem env_unique {vars : List (Str × Str)} {f g : Str → Option Str}
    (h1 : ∀ k v, f k = some v ↔ cloudVar vars k v) (h2 : ∀ k v, g k = some v ↔ cloudVar vars k v) (k : Str) :
    f k = g k := by
  cases hf : f k with
  | some v => exact ((h2 k v).2 ((h1 k v).1 hf)).symm
  | none =>
    cases hg : g k with
    | none => rfl
    | some v => rw [(h1 k v).2 ((h2 k v).1 hg)] at hf; cases hf

section same
variable {o o' : Opts} (h : ∀ k, hmGet k o = hmGet k o')
include h

theorem get_same (c : Cfg) : c.get o = c.get o' := by unfold Cfg.get; rw [h]

theorem given_same (c : Cfg) (x : CfgVal) : Given c o x ↔ Given c o' x := by unfold Given; rw [h]

theorem wellFormed_same : WellFormedOptions o ↔ WellFormedOptions o' := by
  unfold WellFormedOptions; simp only [given_same h, h]

theorem supported_same : Supported o ↔ Supported o' := by
  constructor
  · rintro ⟨h1, h2, h3, h4⟩
    simp only [given_same h, h] at h1 h2 h3 h4
    exact ⟨h1, h2, h3, h4⟩
  · rintro ⟨h1, h2, h3, h4⟩
    refine ⟨?_, ?_, ?_, ?_⟩ <;> simp only [given_same h, h] <;> assumption

theorem skips_same : SkipsValidation o ↔ SkipsValidation o' := by unfold SkipsValidation; rw [h]

theorem timezoneOf_same : timezoneOf o = timezoneOf o' := by
  unfold timezoneOf Cfg.getOrDefault; rw [get_same h]

theorem partitionOf_same (t : Tree) (x : Str) : PartitionOf o t x ↔ PartitionOf o' t x := by
  unfold PartitionOf Partitioned; simp only [h]

theorem stores_same {ltz : LocalTz} {tz : Str} {t : Tree} {hist : History} (hs : Stores ltz tz o t hist) :
    Stores ltz tz o' t hist where
  timeline := hs.timeline
  replaced := hs.replaced
  partitions := fun c hc e he => (partitionOf_same h t _).1 (hs.partitions c hc e he)
  files := fun x hx name => hs.files x ((partitionOf_same h t x).2 hx) name

theorem partitionFieldNames_same : partitionFieldNames o = partitionFieldNames o' := by
  unfold partitionFieldNames; rw [h]

theorem pathStyle_same {hive url : Bool} (hs : PathStyle o hive url) : PathStyle o' hive url := by
  unfold PathStyle at *; simp only [h] at hs; exact hs

theorem mergesBy_same {pre : Str} (hm : MergesBy o pre) : MergesBy o' pre := by
  obtain ⟨h1, h2, h3⟩ := hm
  refine ⟨?_, by rw [← h]; exact h2, by unfold ReadOptimized at *; rw [← h]; exact h3⟩
  unfold OverwritesWithLatest at *
  simp only [h] at h1
  exact h1

end same

/-! ## Opening -/

theorem load_ok_iff (E : Env) (o : Opts) (t : Tree) :
    (∃ tl, Timeline.load E o t = .ok tl) ↔ WellNamedTimeline t := by
  obtain ⟨h1, h2⟩ := C03_load_never_crashes_partial E o t
  constructor
  · rintro ⟨tl, htl⟩ m hm ts a hd hn
    by_contra hc
    rw [h2.2 ⟨m, hm, ts, a, hd, hn, hc⟩] at htl
    cases htl
  · intro hw
    cases hl : Timeline.load E o t with
    | ok tl => exact ⟨tl, rfl⟩
    | err e => exact absurd hl (h1 e)
    | panic =>
      obtain ⟨m, hm, ts, a, hd, hn, hc⟩ := h2.1 hl
      exact absurd (hw m hm ts a hd hn) hc

theorem storage_at {w : World} {so o : Opts} {uri : Str} (h : hmGet c!"hoodie.base.path" o = some uri) :
    w.storage so o = w.connect so uri := by
  unfold World.storage Cfg.tryGet Cfg.get
  rw [show Cfg.basePath.key = c!"hoodie.base.path" from rfl, h]
  rfl

theorem resolved_storage_nodup {w : World} {uri : Str} {calls : List Call} {b' : TableBuilder}
    (h : (builderOf uri calls).resolveOptions w = .ok b') : HmNodup b'.storageOptions := by
  unfold TableBuilder.resolveOptions resolveHudiOptions at h
  simp only at h
  obtain ⟨s, h2, h⟩ := Res.bind_eq_ok.1 h
  obtain ⟨o, h3, h⟩ := Res.bind_eq_ok.1 h
  cases h
  obtain ⟨nd1, nd2, nd3⟩ := builder_nodup calls uri
  have hr : ∀ (l : List (Str × Str)) (m : Opts), HmNodup m →
      HmNodup (l.foldl (fun m e => hmInsertIfAbsent e.1 e.2 m) m) := by
    intro l
    induction l with
    | nil => exact fun m h => h
    | cons e l ih =>
      intro m hm
      rw [List.foldl_cons]
      apply ih
      unfold hmInsertIfAbsent
      split
      · exact hm
      · exact hmInsert_nodup hm
  have h0 : HmNodup (builderOf uri calls).resolveUserProvided.storageOptions := hr _ _ nd2
  have hr' : ∀ (l : List (Str × Str)) (m : Opts), HmNodup m →
      HmNodup (resolveCloudEnvVars l m) := by
    intro l
    unfold resolveCloudEnvVars
    induction l with
    | nil => exact fun m h => h
    | cons e l ih =>
      intro m hm
      rw [List.foldl_cons]
      apply ih
      split
      · exact hmInsert_nodup hm
      · exact hm
  exact hr' _ _ h0

theorem imbue_ok {o : Opts} {s : Storage} {f : Str → Option Str} (h : TableOptions s f) :
    ∃ o', imbueTableProperties o s = .ok o' := by
  obtain ⟨size, c, text, h1, h2, _⟩ := h
  obtain ⟨o2, h3, _, _⟩ := (C42_properties_file c!"=" c).1 text h2
  refine ⟨hmExtend o o2, ?_⟩
  unfold imbueTableProperties
  rw [show getFile s.tree c!".hoodie/hoodie.properties" = .ok (size, c) from Res.ofOption_eq_ok.2 h1]
  simp only [Res.ok_bind, h3]
  rfl

/-- The options that a builder's sources are resolved to, for a table that is there. -/
theorem resolve_at {w : World} {uri : Str} {calls : List Call} {s : Storage} {o : Opts}
    (h : TableAt w uri calls s o) : ∃ b', (builderOf uri calls).resolveOptions w = .ok b' ∧
      (∀ k, hmGet k (hmOfList b'.hudiOptions) = hmGet k o) ∧
      w.storage b'.storageOptions (hmOfList b'.hudiOptions) = .ok s := by
  obtain ⟨⟨env, he1, he2⟩, ⟨table, global, ht, hg, ho⟩, hh⟩ := h
  have hf := fun k => builder_fields calls (TableBuilder.fromBaseUri uri) k
  have huri : (builderOf uri calls).baseUri = uri := (hf []).1
  have hbase : hmGet c!"hoodie.base.path" (builderOf uri calls).resolveUserProvided.hudiOptions = some uri := by
    unfold TableBuilder.resolveUserProvided
    rw [show c!"hoodie.base.path" = Cfg.basePath.key from rfl]
    simp only [hmGet_extendIfAbsent, hmGet_hmInsert, if_true, huri, Option.some_or]
  have hso : ∀ k, hmGet k (resolveCloudEnvVars w.vars (builderOf uri calls).resolveUserProvided.storageOptions) =
      storageOptionOf env calls k := by
    intro k
    obtain ⟨nd1, nd2, nd3⟩ := builder_nodup calls uri
    have hgen : hmGet k (builderOf uri calls).options = lastGiven k (calls.flatMap Call.generic) := by
      have := (hf k).2.2.2
      rw [show (TableBuilder.fromBaseUri uri).options = [] from rfl] at this
      exact this.trans (by simp [hmGet])
    have hstor : hmGet k (builderOf uri calls).storageOptions = lastGiven k (calls.flatMap Call.storage) := by
      have := (hf k).2.2.1
      rw [show (TableBuilder.fromBaseUri uri).storageOptions = [] from rfl] at this
      exact this.trans (by simp [hmGet])
    unfold resolveCloudEnvVars
    rw [hmGet_addIfAbsent (fun n => cloudPrefixes.any (fun p => startsWith p n)) lower]
    unfold TableBuilder.resolveUserProvided storageOptionOf
    simp only [hmGet_extendIfAbsent]
    rw [hmGet_splitHudi_snd, hmGet_reverse_of_nodup nd3, hgen, hstor]
    unfold firstOf
    rw [show hmGet k _ = envOptions w.vars k from rfl, env_unique (envOptions_spec w.vars) he1 k]
    by_cases hk : HudiKey k
    · rw [if_pos (startsWith_hudi.2 hk), if_pos hk]
      cases lastGiven k (calls.flatMap Call.storage) <;> cases env k <;> simp
    · rw [if_neg (fun h => hk (startsWith_hudi.1 h)), if_neg hk]
      cases lastGiven k (calls.flatMap Call.storage) <;> cases lastGiven k (calls.flatMap Call.generic) <;>
        cases env k <;> simp
  have hconn := he2 _ hso
  obtain ⟨o', ho'⟩ := imbue_ok (o := (builderOf uri calls).resolveUserProvided.hudiOptions) ht
  have hres : ∃ b', (builderOf uri calls).resolveOptions w = .ok b' ∧ b'.storageOptions =
      resolveCloudEnvVars w.vars (builderOf uri calls).resolveUserProvided.storageOptions := by
    unfold TableBuilder.resolveOptions resolveHudiOptions
    simp only
    rw [storage_at hbase, hconn]
    simp only [Res.ok_bind, ho']
    exact ⟨_, rfl, rfl⟩
  obtain ⟨b', hb, hs⟩ := hres
  have hopts : ∀ k, hmGet k (hmOfList b'.hudiOptions) = hmGet k o := by
    intro k
    obtain ⟨s', table', global', env', h1, h2, h3, _, h5, _⟩ := resolve_spec hb
    rw [hs, hconn] at h1
    cases h1
    rw [h5, ho, tableOptions_unique h2 ht, globalOptions_unique h3 hg]
    rfl
  refine ⟨b', hb, hopts, ?_⟩
  rw [storage_at (by rw [hopts]; exact hh), hs, hconn]

/-- What is needed of the opened table. -/
theorem build_at {E : Env} {w : World} {uri : Str} {calls : List Call} {s : Storage} {o : Opts}
    (h : TableAt w uri calls s o) {tb : Table} (hb : (builderOf uri calls).build E w = .ok tb) :
    (∀ k, hmGet k tb.hudiOptions = hmGet k o) ∧ Timeline.load E tb.opts s.tree = .ok tb.timeline := by
  obtain ⟨b', h1, h2, h3⟩ := resolve_at h
  unfold TableBuilder.build at hb
  rw [h1] at hb
  simp only [Res.ok_bind] at hb
  obtain ⟨_, _, hb⟩ := Res.bind_eq_ok.1 hb
  obtain ⟨s', h4, hb⟩ := Res.bind_eq_ok.1 hb
  obtain ⟨tl, h5, hb⟩ := Res.bind_eq_ok.1 hb
  obtain ⟨_, _, hb⟩ := Res.bind_eq_ok.1 hb
  cases hb
  rw [h3] at h4
  cases h4
  exact ⟨h2, h5⟩

/-- **C71, opening.**  Whatever calls are made on the builder, for a table that is at the base path: it
opens exactly if its options -- by its properties file, the calls and the global configuration -- are well
formed and of a kind that is supported, or their validation is switched off, and no file of the timeline
directory has the name of a completed action at a malformed time.  Its options are then those. -/
theorem C71_opens_exactly (E : Env) (w : World) (uri : Str) (calls : List Call) (s : Storage) (o : Opts)
    (h : TableAt w uri calls s o) :
    ((∃ tb, (builderOf uri calls).build E w = .ok tb) ↔
      (SkipsValidation o ∨ (WellFormedOptions o ∧ Supported o)) ∧ WellNamedTimeline s.tree) ∧
    ∀ tb, (builderOf uri calls).build E w = .ok tb → ∀ k, hmGet k tb.hudiOptions = hmGet k o := by
  refine ⟨⟨?_, ?_⟩, fun tb hb => (build_at h hb).1⟩
  · rintro ⟨tb, hb⟩
    obtain ⟨h1, h2⟩ := build_at h hb
    have hv := (validateConfigs_eq _).1 (build_valid hb)
    rw [skips_same h1, wellFormed_same h1, supported_same h1] at hv
    exact ⟨hv, (load_ok_iff E _ _).1 ⟨_, h2⟩⟩
  · rintro ⟨hv, hn⟩
    obtain ⟨b', h1, h2, h3⟩ := resolve_at h
    obtain ⟨tl, htl⟩ := (load_ok_iff E (hmOfList b'.hudiOptions) s.tree).2 hn
    have hval : validateConfigs (hmOfList b'.hudiOptions) = .ok () := by
      rw [validateConfigs_eq, skips_same h2, wellFormed_same h2, supported_same h2]
      exact hv
    unfold TableBuilder.build
    rw [h1]
    simp only [Res.ok_bind, hval, Res.expect, h3, htl]
    exact ⟨_, rfl⟩

/-! ## Reading -/

theorem last_instant {E : Env} {o o' : Opts} {t : Tree} {tl : Timeline}
    (hload : Timeline.load E o t = .ok tl) (hmono : MonotoneTz E.ltz) {tz : Str}
    (htz : timezoneOf tl.opts = .ok tz) {h : History} {n : Nat} (hw : h.WF n)
    (hst : Stores E.ltz tz o' t h) {c : HCommit} (hc : h.getLast? = some c) :
    ∃ m, tl.completed.getLast? = some ⟨c.ts, c.action, .completed, m⟩ := by
  obtain ⟨h1, h2, h3⟩ := stored_timeline hload htz hw hst
  have hcm := List.mem_of_getLast? hc
  obtain ⟨d, hd, hm⟩ := h2 c hcm
  cases hl : tl.completed.getLast? with
  | none => rw [List.getLast?_eq_none_iff] at hl; rw [hl] at hm; cases hm
  | some i =>
    obtain ⟨c', hc', d', hd', rfl⟩ := h1 i (List.mem_of_getLast? hl)
    have hle : d.epochMillis ≤ d'.epochMillis := by
      obtain ⟨ys, hys⟩ := List.getLast?_eq_some_iff.1 hl
      rw [hys] at hm h3
      rcases List.mem_append.1 hm with hm | hm
      · exact (List.pairwise_append.1 h3).2.2 _ hm _ (List.mem_singleton_self _)
      · have := congrArg Instant.epochMillis (List.mem_singleton.1 hm)
        exact Int.le_of_eq this
    have : c' = c := by
      obtain ⟨ys, rfl⟩ := List.getLast?_eq_some_iff.1 hc
      rcases List.mem_append.1 hc' with hm' | hm'
      · have hlt := (List.pairwise_append.1 hw.ordered).2.2 _ hm' _ (List.mem_singleton_self _)
        obtain ⟨q1, q2⟩ := hw.times c' hc'
        obtain ⟨r1, r2⟩ := hw.times c hcm
        rw [C04_same_width_partial E.ltz hmono tz _ _ _ _ q1 r1 (by rw [q2, r2]) hd' hd] at hlt
        rw [Int.compare_eq_lt] at hlt
        omega
      · exact List.mem_singleton.1 hm'
    subst this
    exact ⟨_, rfl⟩

/-- The loaded table of a stored one. -/
theorem StoredTable.listable {E : Env} {A : Arrow} {o : Opts} {t : Tree} {tz : Str} {h : History} {n : Nat}
    {filters : List (Str × Str × Str)} {fs : List Filter} {cols : Schema} {hive url : Bool}
    (hs : StoredTable E A o t tz h n filters fs cols hive url) (hmono : MonotoneTz E.ltz) {tb : Table}
    (hload : Timeline.load E tb.opts t = .ok tb.timeline) (hsame : ∀ k, hmGet k tb.opts = hmGet k o) :
    ListableTable E A tb.opts t tb tz h n filters fs cols hive url := by
  have hsame' := fun k => (hsame k).symm
  have hopts : tb.timeline.opts = tb.opts := by
    obtain ⟨_, _, ho, _⟩ := C05_loaded_timeline E _ _ _ hload
    exact ho
  have hz : timezoneOf tb.timeline.opts = .ok tz := by rw [hopts, timezoneOf_same hsame]; exact hs.zone
  have hst := stores_same hsame' hs.stores
  exact {
    load := hload
    tree := hs.tree
    zone := hz
    history := hs.history
    stores := hst
    parsed := hs.parsed
    columns := by
      obtain ⟨c, md, path, b, h1, ⟨size, h2⟩, h3, h4, h5⟩ := hs.last
      obtain ⟨m, hm⟩ := last_instant hload hmono hz hs.history hst h1
      refine ⟨_, md, path, b, hm, ?_, h3, h4, by rw [partitionFieldNames_same hsame]; exact h5⟩
      unfold docOf
      simp only
      rw [h2]
    names := hs.names
    applicable := hs.applicable
    style := pathStyle_same hsame' hs.style
    parallelism := by intro v hv; rw [hsame] at hv; exact hs.parallelism v hv
    docs := by
      intro i hi ha
      obtain ⟨c, hc, d, _, rfl⟩ := (stored_timeline hload hz hs.history hst).1 i hi
      obtain ⟨md, ⟨size, h1⟩, h2⟩ := hs.docs c hc ha
      refine ⟨md, ?_, h2⟩
      unfold docOf
      simp only
      rw [h1] }

theorem lower_cloud {name : Str} (h : CloudVar name) : startsWith c!"hoodie." (lower name) = false := by
  obtain ⟨r, rfl | rfl | rfl⟩ := h <;> rfl

theorem opened_plain {E : Env} {w : World} {uri : Str} {calls : List Call} {tb : Table}
    (hc : ∀ e ∈ calls.flatMap Call.storage, ¬ HudiKey e.1)
    (hb : (builderOf uri calls).build E w = .ok tb) : PlainStorage tb := by
  unfold TableBuilder.build at hb
  obtain ⟨b', h1, hb⟩ := Res.bind_eq_ok.1 hb
  obtain ⟨_, _, hb⟩ := Res.bind_eq_ok.1 hb
  obtain ⟨_, _, hb⟩ := Res.bind_eq_ok.1 hb
  obtain ⟨_, _, hb⟩ := Res.bind_eq_ok.1 hb
  obtain ⟨_, _, hb⟩ := Res.bind_eq_ok.1 hb
  cases hb
  have nd := resolved_storage_nodup h1
  refine ⟨nd, ?_⟩
  intro e he
  by_contra hk
  have hk : HudiKey e.1 := startsWith_hudi.1 (by simpa using hk)
  have hg := (hmGet_eq_some nd).2 he
  obtain ⟨_, _, _, env, _, _, _, h4, _, h6⟩ := resolve_spec h1
  rw [show hmGet e.1 b'.storageOptions = _ from h6 e.1, if_pos hk] at hg
  unfold firstOf at hg
  have h7 : lastGiven e.1 (calls.flatMap Call.storage) = none := by
    unfold lastGiven
    rw [List.filter_eq_nil_iff.2]
    · rfl
    · intro x hx hx'
      exact hc x hx (by rw [of_decide_eq_true hx']; exact hk)
  rw [h7] at hg
  have h8 : env e.1 = some e.2 := by
    cases hv : env e.1 with
    | none => rw [hv] at hg; cases hg
    | some v => rw [hv] at hg; simpa using hg
  obtain ⟨_, name, _, _, h9, h10, _⟩ := (h4 _ _).1 h8
  have := lower_cloud h9
  rw [h10, startsWith_hudi.2 hk] at this
  cases this

/-- **C71 (partial).**  For every table that is at a base path, with any options its properties file, the
calls on the builder and the global configuration give: if the options are supported and ask for merging
by latest version, the table opens, and reading its latest snapshot returns the latest version of each
record that the commits of the history wrote.  Missing: what C59 misses (`C71_false`). -/
theorem C71_opened_table_reads_partial (E : Env) (A : Arrow) (C : Codec) (M : MergeEnv A) (w : World)
    (uri : Str) (calls : List Call) (s : Storage) (o : Opts) (h : TableAt w uri calls s o)
    (hcalls : ∀ e ∈ calls.flatMap Call.storage, ¬ HudiKey e.1) (hwf : WellFormedOptions o)
    (hsup : Supported o) (hnames : WellNamedTimeline s.tree)
    (tz pre : Str) (hist : History) (n : Nat) (filters : List (Str × Str × Str))
    (fs : List Filter) (cols : Schema) (hive url : Bool) (hmono : MonotoneTz E.ltz)
    (hsec : WholeSecondsTz E.ltz) (hst : StoredTable E A o s.tree tz hist n filters fs cols hive url)
    (hmerge : MergesBy o pre) (hstart : startOf o = none) (schema : Schema) (hcol : MergeColumns schema pre)
    (W : Written) (held : Str → List WBlock) (hr : StoresRecords C E.ltz tz schema s.tree hist W held)
    (hpend : ∀ c, hist.getLast? = some c → NoPendingBlocks E.ltz tz c.ts hist held) :
    ∃ tb outs, (builderOf uri calls).build E w = .ok tb ∧
      (tb.readSnapshot E A C M s.tree filters []).2 = .ok outs ∧
      ReadsRecords A schema pre (versionAfter hist) (Kept A cols hive url fs) (recordsAfter W hist) outs := by
  obtain ⟨tb, hb⟩ := (C71_opens_exactly E w uri calls s o h).1.2 ⟨.inr ⟨hwf, hsup⟩, hnames⟩
  obtain ⟨h1, h2⟩ := build_at h hb
  have h1' := fun k => (h1 k).symm
  obtain ⟨outs, h3, h4⟩ := C59_latest_records_partial E A C M tb.opts s.tree tb tz pre hist n filters fs cols
    hive url hmono hsec (StoredTable.listable hst hmono h2 h1)
    ⟨opened_plain hcalls hb, mergesBy_same h1' hmerge, (h1 _).trans hstart, (timezoneOf_same h1).trans hst.zone⟩
    schema hcol W held hr hpend
  exact ⟨tb, outs, hb, h3, h4⟩

/-- **C71, as of a time (partial).**  Missing: as in `C71_opened_table_reads_partial`. -/
theorem C71_opened_table_as_of_partial (E : Env) (A : Arrow) (C : Codec) (M : MergeEnv A) (w : World)
    (uri : Str) (calls : List Call) (s : Storage) (o : Opts) (h : TableAt w uri calls s o)
    (hcalls : ∀ e ∈ calls.flatMap Call.storage, ¬ HudiKey e.1) (hwf : WellFormedOptions o)
    (hsup : Supported o) (hnames : WellNamedTimeline s.tree)
    (tz pre : Str) (hist : History) (n : Nat) (filters : List (Str × Str × Str))
    (fs : List Filter) (cols : Schema) (hive url : Bool) (hmono : MonotoneTz E.ltz)
    (hsec : WholeSecondsTz E.ltz) (hst : StoredTable E A o s.tree tz hist n filters fs cols hive url)
    (hmerge : MergesBy o pre) (hstart : startOf o = none) (schema : Schema) (hcol : MergeColumns schema pre)
    (W : Written) (held : Str → List WBlock) (hr : StoresRecords C E.ltz tz schema s.tree hist W held)
    (ts : Str) (hts : WriterTimestamp ts ∧ ts.length = n) (hd : ∃ d, parseDatetime E.ltz ts tz = .ok d)
    (hpend : NoPendingBlocks E.ltz tz ts hist held) :
    ∃ tb outs, (builderOf uri calls).build E w = .ok tb ∧
      (tb.readSnapshotAsOf E A C M s.tree ts filters []).2 = .ok outs ∧
      ReadsRecords A schema pre (tableAt hist ts) (Kept A cols hive url fs) (recordsAt W hist ts) outs := by
  obtain ⟨tb, hb⟩ := (C71_opens_exactly E w uri calls s o h).1.2 ⟨.inr ⟨hwf, hsup⟩, hnames⟩
  obtain ⟨h1, h2⟩ := build_at h hb
  have h1' := fun k => (h1 k).symm
  obtain ⟨outs, h3, h4⟩ := C59_records_as_of_partial E A C M tb.opts s.tree tb tz pre hist n filters fs cols
    hive url hmono hsec (StoredTable.listable hst hmono h2 h1)
    ⟨opened_plain hcalls hb, mergesBy_same h1' hmerge, (h1 _).trans hstart, (timezoneOf_same h1).trans hst.zone⟩
    schema hcol W held hr ts hts hd hpend
  exact ⟨tb, outs, hb, h3, h4⟩

end Hudi
