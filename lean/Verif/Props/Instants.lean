import Verif.Lemmas.Timeline
import Verif.Spec.Demo

/-! # C01, C02, C03: instants and the names of timeline files -/

namespace Hudi

/-- **C01.** For every accepted timestamp, action and state, the generated file name is
`<timestamp>.<suffix>`, parsing it gives the instant back, and the instant is fetched from
`.hoodie/<file name>`. -/
theorem C01_instant_name_roundtrip (ltz : LocalTz) (tz ts : Str) (a : Action) (st : State)
    (dt : DateTime) (hlen : byteLen ts = 14 ∨ byteLen ts = 17)
    (hts : parseDatetime ltz ts tz = .ok dt) :
    let i : Instant := { timestamp := ts, action := a, state := st, epochMillis := dt.epochMillis }
    i.fileName = ts ++ c!"." ++ Spec.suffix a st ∧
      Instant.fromFileName ltz i.fileName tz = .ok i ∧
      i.relativePath = c!".hoodie/" ++ i.fileName := by
  intro i
  have hname : i.fileName = ts ++ c!"." ++ Spec.suffix a st := by
    simp only [i, Instant.fileName]
    cases a <;> cases st <;> simp [Spec.suffix, Action.str, State.str]
  refine ⟨hname, ?_, ?_⟩
  · rw [hname]
    have hd := parseDatetime_no_dot hlen hts
    have hs : splitOnce '.' (ts ++ c!"." ++ Spec.suffix a st) = some (ts, Spec.suffix a st) := by
      simpa using splitOnce_append (b := Spec.suffix a st) hd
    have hp : parseActionAndState (Spec.suffix a st) = .ok (a, st) :=
      parseActionAndState_ok.2 (.inl rfl)
    simp only [Instant.fromFileName, hs, Res.ofOption_some, Res.ok_bind, validateTimestamp, hlen,
      if_true, hts, hp, Res.pure_eq, i]
  · obtain ⟨n, hn⟩ := parseDatetime_ok hts
    obtain ⟨c, cs, h1, h2⟩ := parseNaive_head hn
    unfold Instant.relativePath
    rw [hname, h1]
    exact pathPush_hoodie (tsChar_ne_slash h2)

/-- Distinct instants have distinct files: two instants with accepted timestamps and one file name
are equal. -/
theorem C01_instant_names_injective (ltz : LocalTz) (tz : Str) (i j : Instant) (d e : DateTime)
    (hi : byteLen i.timestamp = 14 ∨ byteLen i.timestamp = 17)
    (hj : byteLen j.timestamp = 14 ∨ byteLen j.timestamp = 17)
    (hd : parseDatetime ltz i.timestamp tz = .ok d) (he : parseDatetime ltz j.timestamp tz = .ok e)
    (hi' : i.epochMillis = d.epochMillis) (hj' : j.epochMillis = e.epochMillis)
    (h : i.fileName = j.fileName) : i = j := by
  have h1 := (C01_instant_name_roundtrip ltz tz _ i.action i.state d hi hd).2.1
  have h2 := (C01_instant_name_roundtrip ltz tz _ j.action j.state e hj he).2.1
  rw [← hi'] at h1
  rw [← hj'] at h2
  have h1' : Instant.fromFileName ltz i.fileName tz = .ok i := h1
  have h2' : Instant.fromFileName ltz j.fileName tz = .ok j := h2
  rw [h, h2'] at h1'
  cases h1'; rfl

example : ∃ dt, parseDatetime some c!"20240103153000123" c!"utc" = .ok dt ∧
    byteLen c!"20240103153000123" = 17 ∧ dt.epochMillis = 1704295800123 :=
  ⟨⟨1704295800, 123000000⟩, by decide, by decide, by decide⟩

/-- The store of the counterexample to C02: one completed commit whose file name carries a trailing
dot. -/
def C02_store : Tree :=
  .dir c!".hoodie" (.file c!"20240103153000000.commit." 1 (.json (.obj [])) .nil) .nil

/-- **C02 is false of the code.**  A file `<timestamp>.commit.` is loaded as a completed commit, but
the path its metadata is read from is not that file's path; the file exists, yet reading the
instant's metadata fails. -/
theorem C02_false (E : Env) :
    ∃ tl i, Timeline.load E [] C02_store = .ok tl ∧ tl.completed = [i] ∧
      (listFiles C02_store c!".hoodie").map (fun m => m.name) = [c!"20240103153000000.commit."] ∧
      i.relativePath ≠ c!".hoodie/" ++ c!"20240103153000000.commit." ∧
      instantMetadata C02_store i = .err .storage := by
  let i : Instant := ⟨c!"20240103153000000", .commit, .completed, 1704295800000⟩
  refine ⟨⟨[], E.sort [i]⟩, i, rfl, List.perm_singleton.1 (E.sort_perm [i]), by decide, by decide,
    rfl⟩

/-- **C02, partial.**  For every name accepted while loading completed instants, the path the
instant's metadata is read from is the path of that very file exactly when the name does not end
with a dot.  Missing: names with a trailing dot, for which the claim is false (`C02_false`). -/
theorem C02_instant_designates_its_file_partial (ltz : LocalTz) (tz : Str) (acts : List Action)
    (hne : acts ≠ []) (name : Str) (i : Instant)
    (h : (loadSelector tz acts).tryCreateInstant ltz name = .ok i) :
    i.relativePath = c!".hoodie/" ++ name ↔ name.getLast? ≠ some '.' := by
  rw [loadSelector_tryCreate hne] at h
  obtain ⟨ts, a, dt, _, _, hn, hp, rfl⟩ := h
  obtain ⟨n, hn'⟩ := parseDatetime_ok hp
  obtain ⟨c, cs, h1, h2⟩ := parseNaive_head hn'
  have hpath : Instant.relativePath ⟨ts, a, .completed, dt.epochMillis⟩
      = c!".hoodie/" ++ (ts ++ c!"." ++ Spec.suffix a .completed) := by
    have e : Instant.fileName ⟨ts, a, .completed, dt.epochMillis⟩
        = ts ++ c!"." ++ Spec.suffix a .completed := by
      simp [Instant.fileName, Spec.suffix_completed]
    unfold Instant.relativePath
    rw [e, h1]
    exact pathPush_hoodie (tsChar_ne_slash h2)
  rw [hpath]
  rcases hn with rfl | rfl
  · have : (ts ++ c!"." ++ Spec.suffix a .completed).getLast? ≠ some '.' := by
      rw [List.getLast?_append]
      cases a <;> simp [Spec.suffix]
    simp only [true_iff]
    exact this
  · rw [List.getLast?_append]
    simp

example : (loadSelector c!"utc" defaultLoadingActions).tryCreateInstant some
    c!"20240103153005123.deltacommit" = .ok ⟨c!"20240103153005123", .deltaCommit, .completed,
      1704295805123⟩ := by decide

/-- **C03 is false of the code.**  One file named `abc.commit` in the timeline directory makes
opening the table panic, whatever the configuration and the environment. -/
theorem C03_false (E : Env) (o : Opts) :
    Timeline.load E o (.dir c!".hoodie" (.file c!"abc.commit" 1 .junk .nil) .nil) = .panic := by
  obtain ⟨tz, _, hsel⟩ := completedActionsInRange_load E.ltz defaultLoadingActions o
  unfold Timeline.load
  rw [hsel]
  cases tz <;> rfl

/-- **C03, partial.**  Opening the timeline never reports an error, and it panics exactly when some
file is named `<ts>.<action>` (possibly with one trailing dot) where `<ts>` has no character
boundary at byte 14, for instance because it is shorter.  Missing: those names, for which the claim
is false (`C03_false`). -/
theorem C03_load_never_crashes_partial (E : Env) (o : Opts) (t : Tree) :
    (∀ e, Timeline.load E o t ≠ .err e) ∧
    (Timeline.load E o t = .panic ↔
      ∃ m ∈ listFiles t c!".hoodie", ∃ ts, ∃ a : Action, '.' ∉ ts ∧
        (m.name = ts ++ c!"." ++ Spec.suffix a .completed ∨
          m.name = ts ++ c!"." ++ Spec.suffix a .completed ++ c!".") ∧
        ¬ ∃ h r, ts = h ++ r ∧ byteLen h = 14) := by
  obtain ⟨tz, _, hsel⟩ := completedActionsInRange_load E.ltz defaultLoadingActions o
  have hload : Timeline.load E o t =
      (createInstants E.ltz (loadSelector tz.str defaultLoadingActions)
        ((listFiles t hudiMetadataDir).map (fun m => m.name)) >>= fun is =>
          .ok { opts := o, completed := E.sort is }) := by
    unfold Timeline.load loadInstants
    rw [hsel]
    simp only [Res.ok_bind]
    cases createInstants E.ltz (loadSelector tz.str defaultLoadingActions)
        ((listFiles t hudiMetadataDir).map (fun m => m.name)) <;> rfl
  constructor
  · intro e
    rw [hload]
    cases hc : createInstants E.ltz (loadSelector tz.str defaultLoadingActions)
        ((listFiles t hudiMetadataDir).map (fun m => m.name)) with
    | ok _ => simp
    | err e => exact absurd hc (createInstants_not_err e)
    | panic => simp
  · have hp : Timeline.load E o t = .panic ↔
        createInstants E.ltz (loadSelector tz.str defaultLoadingActions)
          ((listFiles t hudiMetadataDir).map (fun m => m.name)) = .panic := by
      rw [hload]
      cases createInstants E.ltz (loadSelector tz.str defaultLoadingActions)
        ((listFiles t hudiMetadataDir).map (fun m => m.name)) <;> simp
    rw [hp, createInstants_panic]
    simp only [List.mem_map]
    constructor
    · rintro ⟨n, ⟨m, hm, rfl⟩, h⟩
      obtain ⟨ts, suf, a, st, hn, hd, h2, _, hst, h3⟩ := Selector.tryCreateInstant_panic.1 h
      have hst' : st = .completed := by
        simp [loadSelector, Selector.includesState] at hst
        exact hst
      subst hst'
      refine ⟨m, hm, ts, a, hd, ?_, splitAtByte_none.1 h3⟩
      rcases parseActionAndState_ok.1 h2 with h | ⟨_, h⟩ | ⟨_, h, _⟩
      · left; rw [hn, h]; simp
      · right; rw [hn, h, Spec.suffix_completed]; simp
      · cases h
    · rintro ⟨m, hm, ts, a, hd, hn, h3⟩
      refine ⟨m.name, ⟨m, hm, rfl⟩, Selector.tryCreateInstant_panic.2 ?_⟩
      have ha : (loadSelector tz.str defaultLoadingActions).includesAction a = true := by
        cases a <;> rfl
      rcases hn with hn | hn
      · exact ⟨ts, Spec.suffix a .completed, a, .completed, by simp [hn], hd,
          parseActionAndState_ok.2 (.inl rfl), ha, rfl, splitAtByte_none.2 h3⟩
      · exact ⟨ts, Spec.suffix a .completed ++ c!".", a, .completed, by simp [hn], hd,
          parseActionAndState_ok.2 (.inr (.inl ⟨rfl, by rw [Spec.suffix_completed]⟩)), ha,
          rfl, splitAtByte_none.2 h3⟩

/-- The demo store loads: it has foreign files, pending instants and three completed ones. -/
example : (Timeline.load Demo.env [] Demo.store).isOk = true := by decide

end Hudi
