import Mathlib.Data.List.Nodup
import Verif.Lemmas.Builder
import Verif.Props.Timeline
import Verif.Props.FileGroups

/-! # C19 – C22: file groups recorded, replaced and changed by commits -/

namespace Hudi

open Spec

/-! ## C19: every write shows up -/

theorem eq_of_nodup_id {ws : List Write} (h : (ws.map Write.id).Nodup) {w w' : Write}
    (hw : w ∈ ws) (hw' : w' ∈ ws) (he : w.id = w'.id) : w = w' :=
  List.inj_on_of_nodup_map h hw hw' he

theorem forall₂_mem_left {gs : List FileGroup} {ws : List Write}
    {R : FileGroup → Write → Prop} (h : List.Forall₂ R gs ws) : ∀ g ∈ gs, ∃ w ∈ ws, R g w := by
  induction h with
  | nil => simp
  | cons h _ ih =>
    intro g hg
    rcases List.mem_cons.1 hg with rfl | hg
    · exact ⟨_, by simp, h⟩
    · obtain ⟨w, a, b⟩ := ih g hg
      exact ⟨w, by simp [a], b⟩

theorem holdsAll_of_forall₂ {gs : List FileGroup} {ws : List Write}
    (h : List.Forall₂ (fun g w => Holds g w ∧ GroupWF g) gs ws) (hnd : (ws.map Write.id).Nodup) :
    HoldsAll gs (· ∈ ws) := by
  have hids := forall₂_ids h
  refine ⟨?_, fun id => ?_, fun g hg => ?_⟩
  · have : (gs.map groupId).Nodup := by rw [hids]; exact hnd
    exact List.pairwise_map.1 this
  · have : id ∈ gs.map groupId ↔ id ∈ ws.map Write.id := by rw [hids]
    simpa using this
  · obtain ⟨w, hw, hh, _⟩ := forall₂_mem_left h g hg
    refine Holds.slicesOf hh hw (fun w' hw' hi => ?_)
    exact eq_of_nodup_id hnd hw' hw (hi.trans hh.1)

/-- **C19, partial.**  A commit whose metadata records the well-formed writes `ws`, no two of them to
one file group, yields exactly one file group for each, holding that write's base file and log files
and nothing else.  Missing: a commit with several write stats for one file group (`C19_false`). -/
theorem C19_every_write_shows_up_partial (md : List (Str × Json)) (ws : List Write)
    (hr : RecordsWrites md ws) (hwf : ∀ w ∈ ws, w.WF) (hnd : (ws.map Write.id).Nodup) :
    ∃ gs, buildFileGroups md = .ok gs ∧ gs.length = ws.length ∧ HoldsAll gs (· ∈ ws) := by
  obtain ⟨gs, h1, h2⟩ := buildFileGroups_holds hr hwf hnd
  exact ⟨gs, h1, h2.length_eq, holdsAll_of_forall₂ h2 hnd⟩

/-- **C19, any commit.**  Of several write stats for one file group the first counts: a commit whose metadata
records the well-formed writes `ws` yields exactly one file group for each file group written, holding the
first write to it and nothing else. -/
theorem C19_first_write_shows_up (md : List (Str × Json)) (ws : List Write)
    (hr : RecordsWrites md ws) (hwf : ∀ w ∈ ws, w.WF) :
    ∃ gs, buildFileGroups md = .ok gs ∧ HoldsAll gs (FirstOf ws) := by
  obtain ⟨gs, h1, h2⟩ := buildFileGroups_first hr hwf
  have h3 := holdsAll_of_forall₂ h2 (firstWrites_ids [] ws).1
  have e : (· ∈ firstWrites [] ws) = FirstOf ws := by
    funext w; rw [mem_firstWrites]; simp
  rw [e] at h3
  exact ⟨gs, h1, h3⟩

namespace Demo

/-- The first write of a file group: a base file. -/
def write1 : Write := ⟨c!"p1", c!"f1-0", baseA, []⟩

/-- A write to the same file group: two log files. -/
def write2 : Write := ⟨c!"p1", c!"f1-0", baseA, [logA c!"1", logA c!"2"]⟩

/-- A write to the same file group: one more log file. -/
def write3 : Write := ⟨c!"p1", c!"f1-0", baseA, [logA c!"3"]⟩

/-- A base file of another file group. -/
def baseC : BaseFile := ⟨c!"f2-0", c!"0-7-8", c!"20240103153000000", c!"parquet", none⟩

/-- A write to another file group. -/
def write4 : Write := ⟨c!"p2/x", c!"f2-0", baseC, []⟩

theorem write_wf : write1.WF ∧ write2.WF ∧ write3.WF ∧ write4.WF := by
  refine ⟨⟨?_, ?_, ?_⟩, ⟨?_, ?_, ?_⟩, ⟨?_, ?_, ?_⟩, ⟨?_, ?_, ?_⟩⟩ <;> decide

/-- A merge-on-read write stat. -/
def morStat (w : Write) : Json := .obj [(c!"fileId", .str w.fileId),
  (c!"baseFile", .str w.base.fileName),
  (c!"logFiles", .arr (w.logs.map (fun l => .str l.fileName)))]

/-- A copy-on-write write stat. -/
def cowStat (w : Write) : Json := .obj [(c!"fileId", .str w.fileId),
  (c!"path", .str (w.partition ++ c!"/" ++ w.base.fileName))]

theorem encodes_mor (w : Write) : Encodes w (morStat w) :=
  ⟨_, rfl, rfl, .inl ⟨rfl, rfl⟩⟩

theorem encodes_cow (w : Write) (h : w.logs = []) : Encodes w (cowStat w) :=
  ⟨_, rfl, rfl, .inr ⟨rfl, h, .inr ⟨w.partition, rfl⟩⟩⟩

/-- A commit with a merge-on-read write and a copy-on-write write. -/
def doc24 : List (Str × Json) := [(c!"partitionToWriteStats",
  .obj [(c!"p1", .arr [morStat write2]), (c!"p2/x", .arr [cowStat write4])])]

theorem doc24_records : RecordsWrites doc24 [write2, write4] := by
  refine ⟨[(c!"p1", [(write2, morStat write2)]), (c!"p2/x", [(write4, cowStat write4)])], rfl, rfl, ?_⟩
  simp only [List.mem_cons, List.not_mem_nil, or_false, forall_eq_or_imp, forall_eq]
  exact ⟨⟨rfl, encodes_mor _⟩, rfl, encodes_cow _ rfl⟩

/-- A commit with two write stats for one file group. -/
def doc23 : List (Str × Json) := [(c!"partitionToWriteStats",
  .obj [(c!"p1", .arr [morStat write2, morStat write3])])]

theorem doc23_records : RecordsWrites doc23 [write2, write3] := by
  refine ⟨[(c!"p1", [(write2, morStat write2), (write3, morStat write3)])], rfl, rfl, ?_⟩
  simp only [List.mem_cons, List.not_mem_nil, or_false, forall_eq_or_imp, forall_eq]
  exact ⟨⟨rfl, encodes_mor _⟩, rfl, encodes_mor _⟩

end Demo

example : ∃ md ws, RecordsWrites md ws ∧ (∀ w ∈ ws, w.WF) ∧ (ws.map Write.id).Nodup ∧
    ws.length = 2 :=
  ⟨Demo.doc24, [Demo.write2, Demo.write4], Demo.doc24_records, by
    simp only [List.mem_cons, List.not_mem_nil, or_false, forall_eq_or_imp, forall_eq]
    exact ⟨Demo.write_wf.2.1, Demo.write_wf.2.2.2⟩, by decide, rfl⟩

/-- **C19 is false**: a commit with two write stats for one file group, as written when a log file is
rolled over, yields a file group without the log file of the second. -/
theorem C19_false : ∃ md ws gs, RecordsWrites md ws ∧ (∀ w ∈ ws, w.WF) ∧
    buildFileGroups md = .ok gs ∧ NoConflict (· ∈ ws) ∧
    ∃ w ∈ ws, ∃ l ∈ w.logs, ∀ g ∈ gs, ∀ e ∈ g.slices, l ∉ e.2.logFiles := by
  refine ⟨Demo.doc23, [Demo.write2, Demo.write3], _, Demo.doc23_records, ?_, rfl, ?_,
    Demo.write3, by simp, Demo.logA c!"3", by simp [Demo.write3], by decide⟩
  · simp only [List.mem_cons, List.not_mem_nil, or_false, forall_eq_or_imp, forall_eq]
    exact ⟨Demo.write_wf.2.1, Demo.write_wf.2.2.1⟩
  · intro w w' hw hw' _ _
    simp only [List.mem_cons, List.not_mem_nil, or_false] at hw hw'
    rcases hw with rfl | rfl <;> rcases hw' with rfl | rfl <;> rfl

/-! ## C20: malformed metadata is reported -/

/-- **C20.**  A commit's file groups are returned exactly when every write stat in its metadata has
the fields the reader needs, with the right types and parsable file names; in every other case the
whole commit is reported as an error, and never a partial set and never a crash. -/
theorem C20_malformed_metadata_reported (md : List (Str × Json)) :
    (ReadableDoc md → ∃ gs, buildFileGroups md = .ok gs) ∧
    (¬ ReadableDoc md → ∃ e, buildFileGroups md = .err e) := by
  refine ⟨(buildFileGroups_ok_iff md).2, fun h => ?_⟩
  cases h' : buildFileGroups md with
  | ok gs => exact absurd ((buildFileGroups_ok_iff md).1 ⟨gs, h'⟩) h
  | err e => exact ⟨e, rfl⟩
  | panic => exact absurd h' (buildFileGroups_ne_panic md)

/-- One good and one bad write stat: an error. -/
example : ∃ md, ¬ ReadableDoc md ∧ ∃ good bad, jGet c!"partitionToWriteStats" md =
    some (.obj [(c!"p1", .arr [good, bad])]) ∧ ReadableStat good := by
  refine ⟨[(c!"partitionToWriteStats", .obj [(c!"p1", .arr [Demo.morStat Demo.write2,
    .obj [(c!"fileId", .str c!"f")]])])], ?_, Demo.morStat Demo.write2,
    .obj [(c!"fileId", .str c!"f")], rfl, ?_⟩
  · rw [← buildFileGroups_ok_iff]
    rintro ⟨gs, h⟩
    cases h
  · rw [← fileGroupOfStat_ok_iff c!"p1"]
    exact ⟨_, rfl⟩

/-! ## C21: replaced file groups -/

theorem mem_fgInsert {g : FileGroup} {s : List FileGroup} (id : Str × Str) :
    (∃ x ∈ fgInsert g s, groupId x = id) ↔ (∃ x ∈ s, groupId x = id) ∨ groupId g = id := by
  unfold fgInsert
  split
  · rename_i h
    obtain ⟨y, hy, hs⟩ := List.any_eq_true.1 h
    constructor
    · exact .inl
    · rintro (h | h)
      · exact h
      · exact ⟨y, hy, (same_iff_id.1 hs).trans h⟩
  · constructor
    · rintro ⟨x, hx, he⟩
      rcases List.mem_append.1 hx with hx | hx
      · exact .inl ⟨x, hx, he⟩
      · rw [List.mem_singleton] at hx; subst hx; exact .inr he
    · rintro (⟨x, hx, he⟩ | h)
      · exact ⟨x, by simp [hx], he⟩
      · exact ⟨g, by simp, h⟩

theorem distinct_fgInsert {g : FileGroup} {s : List FileGroup}
    (h : s.Pairwise (fun a b => groupId a ≠ groupId b)) :
    (fgInsert g s).Pairwise (fun a b => groupId a ≠ groupId b) := by
  unfold fgInsert
  split
  · exact h
  · rename_i hn
    rw [List.pairwise_append]
    refine ⟨h, by simp, fun a ha b hb => ?_⟩
    rw [List.mem_singleton] at hb
    subst hb
    intro he
    exact hn (List.any_eq_true.2 ⟨a, ha, same_iff_id.2 he⟩)

theorem mem_fgExtend {gs s : List FileGroup} (id : Str × Str) :
    (∃ x ∈ fgExtend s gs, groupId x = id) ↔
      (∃ x ∈ s, groupId x = id) ∨ ∃ x ∈ gs, groupId x = id := by
  unfold fgExtend
  induction gs generalizing s with
  | nil => simp
  | cons g gs ih =>
    rw [List.foldl_cons, ih, mem_fgInsert]
    simp [or_assoc]

theorem distinct_fgExtend {gs s : List FileGroup}
    (h : s.Pairwise (fun a b => groupId a ≠ groupId b)) :
    (fgExtend s gs).Pairwise (fun a b => groupId a ≠ groupId b) := by
  unfold fgExtend
  induction gs generalizing s with
  | nil => exact h
  | cons g gs ih => exact ih (distinct_fgInsert h)

theorem replacedIds_spec (p : Str) (ids : List Json) (s s' : List FileGroup)
    (h : Res.foldL (fun s (id : Json) => do
      let id ← Res.ofOption .commitMetadata id.asStr
      return fgInsert (FileGroup.new id p) s) s ids = .ok s') (id : Str × Str) :
    (∃ x ∈ s', groupId x = id) ↔
      (∃ x ∈ s, groupId x = id) ∨ (p = id.1 ∧ Json.str id.2 ∈ ids) := by
  induction ids generalizing s with
  | nil => cases h; simp
  | cons j ids ih =>
    rw [Res.foldL_cons] at h
    obtain ⟨s1, h1, h2⟩ := Res.bind_eq_ok.1 h
    obtain ⟨f, h3, h4⟩ := Res.bind_eq_ok.1 h1
    cases h4
    rw [ofOption_ok, asStr_some] at h3
    subst h3
    rw [ih _ h2, mem_fgInsert, or_assoc]
    refine or_congr_right ?_
    obtain ⟨q, f'⟩ := id
    simp only [groupId, FileGroup.new, Prod.mk.injEq, List.mem_cons, Json.str.injEq]
    constructor
    · rintro (⟨a, b⟩ | ⟨a, b⟩)
      · exact ⟨a, .inl b.symm⟩
      · exact ⟨a, .inr b⟩
    · rintro ⟨a, b | b⟩
      · exact .inl ⟨a, b.symm⟩
      · exact .inr ⟨a, b⟩

theorem buildReplaced_spec {md : List (Str × Json)} {gs : List FileGroup}
    (h : buildReplacedFileGroups md = .ok gs) (id : Str × Str) :
    (∃ x ∈ gs, groupId x = id) ↔ Replaces md id.1 id.2 := by
  obtain ⟨parts, h1, h2⟩ := Res.bind_eq_ok.1 h
  rw [ofOption_ok, Option.bind_eq_some_iff] at h1
  obtain ⟨v, h1, h3⟩ := h1
  rw [asObj_some] at h3
  subst h3
  have main : ∀ (parts : List (Str × Json)) (s s' : List FileGroup),
      Res.foldL (fun s (e : Str × Json) => do
        let ids ← Res.ofOption .commitMetadata e.2.asArr
        Res.foldL
          (fun s (id : Json) => do
            let id ← Res.ofOption .commitMetadata id.asStr
            return fgInsert (FileGroup.new id e.1) s) s ids) s parts = .ok s' →
      ((∃ x ∈ s', groupId x = id) ↔ (∃ x ∈ s, groupId x = id) ∨
        ∃ ids, (id.1, .arr ids) ∈ parts ∧ Json.str id.2 ∈ ids) := by
    intro parts
    induction parts with
    | nil => intro s s' h; cases h; simp
    | cons e parts ih =>
      intro s s' h
      rw [Res.foldL_cons] at h
      obtain ⟨s1, h4, h5⟩ := Res.bind_eq_ok.1 h
      obtain ⟨ids, h6, h7⟩ := Res.bind_eq_ok.1 h4
      rw [ofOption_ok, asArr_some] at h6
      rw [ih _ _ h5, replacedIds_spec _ _ _ _ h7, or_assoc]
      refine or_congr_right ?_
      obtain ⟨p, v⟩ := e
      simp only at h6
      subst h6
      constructor
      · rintro (⟨a, b⟩ | ⟨ids', a, b⟩)
        · exact ⟨ids, by simp [← a], b⟩
        · exact ⟨ids', by simp [a], b⟩
      · rintro ⟨ids', a, b⟩
        rcases List.mem_cons.1 a with a | a
        · cases a; exact .inl ⟨rfl, b⟩
        · exact .inr ⟨ids', a, b⟩
  have := main parts [] gs h2
  rw [this]
  unfold Replaces
  rw [h1]
  constructor
  · rintro (⟨x, hx, _⟩ | ⟨ids, a, b⟩)
    · cases hx
    · exact ⟨parts, ids, rfl, a, b⟩
  · rintro ⟨parts', ids, hp, a, b⟩
    cases hp
    exact .inr ⟨ids, a, b⟩

theorem buildReplaced_ne_panic (md : List (Str × Json)) : buildReplacedFileGroups md ≠ .panic := by
  unfold buildReplacedFileGroups
  refine bind_ne_panic ofOption_ne_panic (fun parts => foldL_ne_panic (fun s e => ?_) _ _)
  refine bind_ne_panic ofOption_ne_panic (fun ids => foldL_ne_panic (fun s j => ?_) _ _)
  exact bind_ne_panic ofOption_ne_panic (fun _ => by simp)

theorem buildReplaced_ok_iff (md : List (Str × Json)) :
    (∃ gs, buildReplacedFileGroups md = .ok gs) ↔ ReadableReplaced md := by
  unfold buildReplacedFileGroups ReadableReplaced
  have inner : ∀ (p : Str) (s : List FileGroup) (ids : List Json),
      (∃ s', Res.foldL (fun s (id : Json) => do
        let id ← Res.ofOption .commitMetadata id.asStr
        return fgInsert (FileGroup.new id p) s) s ids = .ok s') ↔ ∀ x ∈ ids, ∃ s, x = .str s := by
    intro p s ids
    refine foldL_ok_iff_all (fun s j => ?_) s ids
    cases j <;> simp [Json.asStr]
  have outer := fun (s : List FileGroup) (parts : List (Str × Json)) =>
    foldL_ok_iff_all (P := fun e : Str × Json => ∃ ids, e.2 = .arr ids ∧ ∀ x ∈ ids, ∃ s, x = .str s)
      (f := fun s (e : Str × Json) => do
        let ids ← Res.ofOption .commitMetadata e.2.asArr
        Res.foldL
          (fun s (id : Json) => do
            let id ← Res.ofOption .commitMetadata id.asStr
            return fgInsert (FileGroup.new id e.1) s) s ids) (fun s e => by
      constructor
      · rintro ⟨s', h⟩
        obtain ⟨ids, h1, h2⟩ := Res.bind_eq_ok.1 h
        rw [ofOption_ok, asArr_some] at h1
        exact ⟨ids, h1, (inner e.1 s ids).1 ⟨s', h2⟩⟩
      · rintro ⟨ids, h1, h2⟩
        obtain ⟨s', h3⟩ := (inner e.1 s ids).2 h2
        exact ⟨s', by simp only [h1, Json.asArr_arr, Res.ofOption_some, Res.ok_bind]; exact h3⟩)
      s parts
  constructor
  · rintro ⟨gs, h⟩
    obtain ⟨parts, h1, h2⟩ := Res.bind_eq_ok.1 h
    rw [ofOption_ok, Option.bind_eq_some_iff] at h1
    obtain ⟨v, h1, h3⟩ := h1
    rw [asObj_some] at h3
    subst h3
    exact ⟨parts, h1, (outer [] parts).1 ⟨gs, h2⟩⟩
  · rintro ⟨parts, h1, h2⟩
    obtain ⟨gs, h3⟩ := (outer [] parts).2 h2
    exact ⟨gs, by simp only [h1, Option.bind_some, Json.asObj_obj, Res.ofOption_some, Res.ok_bind]; exact h3⟩

/-- On a loaded timeline the metadata of an instant is the JSON object in its timeline file. -/
theorem instantMetadata_doc {E : Env} {o : Opts} {t0 t : Tree} {tl : Timeline}
    (hload : Timeline.load E o t0 = .ok tl) (hwf : ∀ n ∈ timelineNames t0, Spec.NormalName n)
    {i : Instant} (hi : i ∈ tl.completed) :
    (∀ md, docOf t i = some md → instantMetadata t i = .ok md) ∧
    (docOf t i = none → ∃ e, instantMetadata t i = .err e) := by
  obtain ⟨tz, _, _, ⟨f, hf, hp⟩, hs⟩ := C05_loaded_timeline E o t0 tl hload
  obtain ⟨n, hn, h'⟩ := List.mem_filterMap.1 (hp.mem_iff.1 hi)
  have hseg := relativePath_segs ((hf n i).1 h') (hwf n hn)
  unfold docOf instantMetadata getFile
  rw [hseg]
  cases hfa : t.fileAt [c!".hoodie", i.timestamp ++ c!"." ++ suffix i.action i.state] with
  | none => exact ⟨fun md h => by simp at h, fun _ => ⟨_, rfl⟩⟩
  | some e =>
    obtain ⟨m, c⟩ := e
    cases c with
    | json j =>
      cases j with
      | obj l => exact ⟨fun md h => by cases h; rfl, fun h => by cases h⟩
      | _ => refine ⟨?_, fun _ => ⟨_, rfl⟩⟩; intro md h; cases h
    | _ => refine ⟨?_, fun _ => ⟨_, rfl⟩⟩; intro md h; cases h

theorem selection_ok {E : Env} {o : Opts} {t0 : Tree} {tl : Timeline}
    (hload : Timeline.load E o t0 = .ok tl) {acts : List Action} (hne : acts ≠ [])
    {start stop : Option Str} {tz : Str} {b e : Option Int} (htz : timezoneOf tl.opts = .ok tz)
    (hb : Bound E.ltz tz start b) (he : Bound E.ltz tz stop e) :
    ∃ s, completedActionsInRange E.ltz acts tl.opts start stop = .ok s ∧
      s.select tl.completed = inRange acts b e tl.completed := by
  have hopt : ∀ (x : Option Str) (m : Option Int), Bound E.ltz tz x m →
      ∃ y, parseOpt E.ltz tz x = .ok y ∧ y.map DateTime.epochMillis = m := by
    intro x m h
    cases x with
    | none =>
      cases m with
      | none => exact ⟨none, rfl, rfl⟩
      | some m => exact h.elim
    | some ts =>
      cases m with
      | none => exact h.elim
      | some m =>
        obtain ⟨d, h1, rfl⟩ := h
        exact ⟨some d, by simp [parseOpt, h1], rfl⟩
  obtain ⟨y, hy, rfl⟩ := hopt start b hb
  obtain ⟨z, hz, rfl⟩ := hopt stop e he
  have hs : completedActionsInRange E.ltz acts tl.opts start stop
      = .ok { timezone := tz, start := y, stop := z, states := [.completed], actions := acts } := by
    unfold completedActionsInRange
    simp [htz, hy, hz]
  refine ⟨_, hs, ?_⟩
  obtain ⟨hc, hp⟩ := loaded_completed hload
  exact select_eq rfl hne hc hp

/-- The replacecommits of a timeline at or before a time. -/
def Spec.ReplacesUpTo (tl : Timeline) (T : Int) (i : Instant) : Prop :=
  i ∈ tl.completed ∧ i.action = .replaceCommit ∧ i.epochMillis ≤ T

theorem mem_replaceRange {tl : Timeline} {T : Int} {i : Instant} :
    i ∈ inRange [.replaceCommit] none (some T) tl.completed ↔ ReplacesUpTo tl T i := by
  unfold inRange ReplacesUpTo
  simp [List.mem_filter]

theorem replaced_fold {t : Tree} {is : List Instant} {s s' : List FileGroup}
    (hd : ∀ i ∈ is, ∃ md, docOf t i = some md ∧ instantMetadata t i = .ok md)
    (h : Res.foldL (fun acc i => do
      let md ← instantMetadata t i
      return fgExtend acc (← buildReplacedFileGroups md)) s is = .ok s') (id : Str × Str) :
    (∃ x ∈ s', groupId x = id) ↔ (∃ x ∈ s, groupId x = id) ∨
      ∃ i ∈ is, ∃ md, docOf t i = some md ∧ Replaces md id.1 id.2 := by
  induction is generalizing s with
  | nil => cases h; simp
  | cons i is ih =>
    rw [Res.foldL_cons] at h
    obtain ⟨s1, h1, h2⟩ := Res.bind_eq_ok.1 h
    obtain ⟨md, h3, h4⟩ := Res.bind_eq_ok.1 h1
    obtain ⟨gs, h5, h6⟩ := Res.bind_eq_ok.1 h4
    cases h6
    obtain ⟨md', d1, d2⟩ := hd i (by simp)
    rw [h3] at d2; cases d2
    rw [ih (fun j hj => hd j (by simp [hj])) h2, mem_fgExtend, buildReplaced_spec h5, or_assoc]
    refine or_congr_right ?_
    constructor
    · rintro (h | ⟨j, hj, r⟩)
      · exact ⟨i, by simp, md, d1, h⟩
      · exact ⟨j, by simp [hj], r⟩
    · rintro ⟨j, hj, md', e1, e2⟩
      rcases List.mem_cons.1 hj with rfl | hj
      · rw [d1] at e1; cases e1; exact .inl e2
      · exact .inr ⟨j, hj, md', e1, e2⟩

/-- **C21.**  On a loaded timeline, for a time T: if every completed replacecommit at or before T has
readable metadata, the hidden file groups are exactly the (partition, file id) pairs these
replacecommits list, each once; otherwise the query is an error. -/
theorem C21_replaced_file_groups (E : Env) (o : Opts) (t0 t : Tree) (tl : Timeline)
    (hload : Timeline.load E o t0 = .ok tl) (hwf : ∀ n ∈ timelineNames t0, Spec.NormalName n)
    (ts tz : Str) (T : Int) (htz : timezoneOf tl.opts = .ok tz)
    (hT : Bound E.ltz tz (some ts) (some T)) :
    ((∀ i, ReplacesUpTo tl T i → ∃ md, docOf t i = some md ∧ ReadableReplaced md) →
      ∃ gs, tl.replacedAsOf E t ts = .ok gs ∧
        gs.Pairwise (fun a b => groupId a ≠ groupId b) ∧
        ∀ p f, (∃ g ∈ gs, groupId g = (p, f)) ↔
          ∃ i, ReplacesUpTo tl T i ∧ ∃ md, docOf t i = some md ∧ Replaces md p f) ∧
    ((∃ i, ReplacesUpTo tl T i ∧ ¬ ∃ md, docOf t i = some md ∧ ReadableReplaced md) →
      ∃ e, tl.replacedAsOf E t ts = .err e) := by
  obtain ⟨s, hs, hsel⟩ := selection_ok hload (acts := [.replaceCommit]) (by simp)
    (start := none) (stop := some ts) (b := none) (e := some T) htz trivial hT
  unfold Timeline.replacedAsOf
  simp only [hs, Res.ok_bind, hsel]
  have hmem : ∀ i ∈ inRange [.replaceCommit] none (some T) tl.completed,
      i ∈ tl.completed := fun i hi => (mem_replaceRange.1 hi).1
  have hok : (∃ gs, Res.foldL (fun acc i => do
        let md ← instantMetadata t i
        return fgExtend acc (← buildReplacedFileGroups md)) []
        (inRange [.replaceCommit] none (some T) tl.completed) = .ok gs) ↔
      ∀ i ∈ inRange [.replaceCommit] none (some T) tl.completed,
        ∃ md, instantMetadata t i = .ok md ∧ ReadableReplaced md := by
    refine foldL_ok_iff_all (fun b i => ?_) _ _
    constructor
    · rintro ⟨b', h⟩
      obtain ⟨md, h1, h2⟩ := Res.bind_eq_ok.1 h
      obtain ⟨gs, h3, _⟩ := Res.bind_eq_ok.1 h2
      exact ⟨md, h1, (buildReplaced_ok_iff md).1 ⟨gs, h3⟩⟩
    · rintro ⟨md, h1, h2⟩
      obtain ⟨gs, h3⟩ := (buildReplaced_ok_iff md).2 h2
      exact ⟨fgExtend b gs, by simp [h1, h3]⟩
  have hdoc : ∀ i ∈ tl.completed, ((∃ md, instantMetadata t i = .ok md ∧ ReadableReplaced md) ↔
      ∃ md, docOf t i = some md ∧ ReadableReplaced md) := by
    intro i hi
    obtain ⟨d1, d2⟩ := instantMetadata_doc (t := t) hload hwf hi
    constructor
    · rintro ⟨md, h1, h2⟩
      cases hd : docOf t i with
      | none => obtain ⟨e, he⟩ := d2 hd; rw [h1] at he; cases he
      | some md' => rw [d1 md' hd] at h1; cases h1; exact ⟨md, rfl, h2⟩
    · rintro ⟨md, h1, h2⟩
      exact ⟨md, d1 md h1, h2⟩
  constructor
  · intro hall
    obtain ⟨gs, hgs⟩ := hok.2 (fun i hi =>
      (hdoc i (hmem i hi)).2 (hall i (mem_replaceRange.1 hi)))
    refine ⟨gs, hgs, ?_, fun p f => ?_⟩
    · have : ∀ (is : List Instant) (s s' : List FileGroup),
          s.Pairwise (fun a b => groupId a ≠ groupId b) →
          Res.foldL (fun acc i => do
            let md ← instantMetadata t i
            return fgExtend acc (← buildReplacedFileGroups md)) s is = .ok s' →
          s'.Pairwise (fun a b => groupId a ≠ groupId b) := by
        intro is
        induction is with
        | nil => intro s s' hp h; cases h; exact hp
        | cons i is ih =>
          intro s s' hp h
          rw [Res.foldL_cons] at h
          obtain ⟨s1, h1, h2⟩ := Res.bind_eq_ok.1 h
          obtain ⟨md, _, h4⟩ := Res.bind_eq_ok.1 h1
          obtain ⟨gs, _, h6⟩ := Res.bind_eq_ok.1 h4
          cases h6
          exact ih _ _ (distinct_fgExtend hp) h2
      exact this _ _ _ .nil hgs
    · rw [replaced_fold (fun i hi => by
        obtain ⟨md, h1, _⟩ := hall i (mem_replaceRange.1 hi)
        exact ⟨md, h1, (instantMetadata_doc hload hwf (hmem i hi)).1 md h1⟩) hgs]
      constructor
      · rintro (⟨x, hx, _⟩ | ⟨i, hi, r⟩)
        · cases hx
        · exact ⟨i, mem_replaceRange.1 hi, r⟩
      · rintro ⟨i, hi, r⟩
        exact .inr ⟨i, mem_replaceRange.2 hi, r⟩
  · rintro ⟨i, hi, hn⟩
    cases h : Res.foldL (fun acc i => do
        let md ← instantMetadata t i
        return fgExtend acc (← buildReplacedFileGroups md)) []
        (inRange [.replaceCommit] none (some T) tl.completed) with
    | ok gs =>
      have := hok.1 ⟨gs, h⟩ i (mem_replaceRange.2 hi)
      exact absurd ((hdoc i hi.1).1 this) hn
    | err e => exact ⟨e, rfl⟩
    | panic =>
      refine absurd h ?_
      have : ∀ (is : List Instant) (s : List FileGroup), (∀ i ∈ is, i ∈ tl.completed) →
          Res.foldL (fun acc i => do
            let md ← instantMetadata t i
            return fgExtend acc (← buildReplacedFileGroups md)) s is ≠ .panic := by
        intro is
        induction is with
        | nil => intro s _; simp
        | cons i is ih =>
          intro s hi
          rw [Res.foldL_cons]
          refine bind_ne_panic (bind_ne_panic ?_ (fun md => bind_ne_panic (buildReplaced_ne_panic md)
            (fun _ => by simp))) (fun s' => ih s' (fun j hj => hi j (by simp [hj])))
          obtain ⟨d1, d2⟩ := instantMetadata_doc (t := t) hload hwf (hi i (by simp))
          cases hd : docOf t i with
          | none => obtain ⟨e, he⟩ := d2 hd; rw [he]; simp
          | some md => rw [d1 md hd]; simp
      exact this _ _ hmem

/-- **C21, monotone.**  A file group hidden as of T is hidden as of every later time. -/
theorem C21_hidden_set_grows (E : Env) (o : Opts) (t0 t : Tree) (tl : Timeline)
    (hload : Timeline.load E o t0 = .ok tl) (hwf : ∀ n ∈ timelineNames t0, Spec.NormalName n)
    (ts ts' tz : Str) (T T' : Int) (htz : timezoneOf tl.opts = .ok tz)
    (hT : Bound E.ltz tz (some ts) (some T)) (hT' : Bound E.ltz tz (some ts') (some T'))
    (hle : T ≤ T') (gs gs' : List FileGroup) (h : tl.replacedAsOf E t ts = .ok gs)
    (h' : tl.replacedAsOf E t ts' = .ok gs') :
    ∀ g ∈ gs, ∃ g' ∈ gs', groupId g' = groupId g := by
  have key : ∀ ts T gs, Bound E.ltz tz (some ts) (some T) → tl.replacedAsOf E t ts = .ok gs →
      ∀ p f, (∃ g ∈ gs, groupId g = (p, f)) ↔
          ∃ i, ReplacesUpTo tl T i ∧ ∃ md, docOf t i = some md ∧ Replaces md p f := by
    intro ts T gs hT h
    obtain ⟨a, b⟩ := C21_replaced_file_groups E o t0 t tl hload hwf ts tz T htz hT
    by_cases hc : ∀ i, ReplacesUpTo tl T i → ∃ md, docOf t i = some md ∧ ReadableReplaced md
    · obtain ⟨gs', h1, _, h2⟩ := a hc
      rw [h] at h1; cases h1; exact h2
    · have : ∃ i, ReplacesUpTo tl T i ∧ ¬ ∃ md, docOf t i = some md ∧ ReadableReplaced md := by
        refine Classical.byContradiction fun hno => hc fun i hi => ?_
        exact Classical.byContradiction fun h' => hno ⟨i, hi, h'⟩
      obtain ⟨e, he⟩ := b this
      rw [h] at he; cases he
  intro g hg
  obtain ⟨i, hi, r⟩ := (key ts T gs hT h _ _).1 ⟨g, hg, rfl⟩
  exact (key ts' T' gs' hT' h' _ _).2 ⟨i, ⟨hi.1, hi.2.1, Int.le_trans hi.2.2 hle⟩, r⟩

/-! ## C22: changed file groups -/

/-- The instants of a timeline after one bound and at or before the other. -/
def Spec.Within (tl : Timeline) (b e : Option Int) (i : Instant) : Prop :=
  i ∈ tl.completed ∧ (∀ m, b = some m → m < i.epochMillis) ∧ (∀ m, e = some m → i.epochMillis ≤ m)

theorem mem_inRange_default {tl : Timeline} {b e : Option Int} {i : Instant} :
    i ∈ inRange defaultLoadingActions b e tl.completed ↔ Within tl b e i := by
  unfold inRange Within
  rw [List.mem_filter]
  refine and_congr_right fun hi => ?_
  have ha : i.action ∈ defaultLoadingActions := by
    cases i.action <;> simp [defaultLoadingActions]
  simp only [ha, decide_true, Bool.true_and, Bool.and_eq_true]
  cases b <;> cases e <;> simp

/-- The file groups of a document are read as the writes `us`. -/
def ReadsAs (md : List (Str × Json)) (us : List Write) : Prop :=
  (∀ w ∈ us, w.WF) ∧ ∃ gs, buildFileGroups md = .ok gs ∧
    List.Forall₂ (fun g w => Holds g w ∧ GroupWF g) gs us

theorem readsAs_first {md : List (Str × Json)} {ws : List Write} (hr : RecordsWrites md ws)
    (hwf : ∀ w ∈ ws, w.WF) : ReadsAs md (firstWrites [] ws) := by
  refine ⟨fun w hw => hwf w ?_, buildFileGroups_first hr hwf⟩
  obtain ⟨_, l, r, rfl, _⟩ := mem_firstWrites.1 hw
  simp

theorem between_fold {t : Tree} {ws : Instant → List Write} {is : List Instant} {P : Write → Prop}
    {acc rs : List FileGroup}
    (hd : ∀ i ∈ is, ∃ md, docOf t i = some md ∧ instantMetadata t i = .ok md ∧
      ReadsAs md (ws i) ∧
      (i.action = .replaceCommit → ReadableReplaced md))
    (hP : ∀ w, P w → w.WF) (hm : Merged P acc) (hnc : NoConflict P) :
    (NoConflict (fun w => P w ∨ ∃ i ∈ is, w ∈ ws i) →
      ∃ acc' rs', Res.foldL (betweenStep t) (acc, rs) is = .ok (acc', rs') ∧
        Merged (fun w => P w ∨ ∃ i ∈ is, w ∈ ws i) acc' ∧
        ∀ id, (∃ x ∈ rs', groupId x = id) ↔ (∃ x ∈ rs, groupId x = id) ∨
          ∃ i ∈ is, i.action = .replaceCommit ∧ ∃ md, docOf t i = some md ∧ Replaces md id.1 id.2) ∧
    (¬ NoConflict (fun w => P w ∨ ∃ i ∈ is, w ∈ ws i) →
      Res.foldL (betweenStep t) (acc, rs) is = .err .fileGroup) := by
  induction is generalizing P acc rs with
  | nil =>
    have e : (fun w => P w ∨ ∃ i ∈ ([] : List Instant), w ∈ ws i) = P := by funext w; simp
    rw [e]
    exact ⟨fun _ => ⟨acc, rs, rfl, hm, by simp⟩, fun h => absurd hnc h⟩
  | cons i is ih =>
    obtain ⟨md, h1, h2, ⟨h4, gs, h7, h8⟩, h6⟩ := hd i (by simp)
    have e : (fun w => P w ∨ ∃ j ∈ i :: is, w ∈ ws j)
        = (fun w => (P w ∨ w ∈ ws i) ∨ ∃ j ∈ is, w ∈ ws j) := by
      funext w; simp [or_assoc]
    rw [e]
    obtain ⟨m1, m2⟩ := fgMerge_spec hP h4 hm h8
    rw [Res.foldL_cons]
    have hP' : ∀ w, P w ∨ w ∈ ws i → w.WF := by
      rintro w (h | h)
      · exact hP w h
      · exact h4 w h
    by_cases hc : NoConflict (fun w => P w ∨ w ∈ ws i)
    · obtain ⟨acc1, k1, k2⟩ := m1 hc
      have hstep : ∃ rs1, betweenStep t (acc, rs) i = .ok (acc1, rs1) ∧
          ∀ id, (∃ x ∈ rs1, groupId x = id) ↔ (∃ x ∈ rs, groupId x = id) ∨
            (i.action = .replaceCommit ∧ Replaces md id.1 id.2) := by
        unfold betweenStep
        simp only [h2, h7, k1, Res.ok_bind]
        by_cases ha : i.action = .replaceCommit
        · obtain ⟨rgs, hr⟩ := (buildReplaced_ok_iff md).2 (h6 ha)
          refine ⟨fgExtend rs rgs, by simp [ha, hr], fun id => ?_⟩
          rw [mem_fgExtend, buildReplaced_spec hr]
          simp [ha]
        · exact ⟨rs, by simp [ha], fun id => by simp [ha]⟩
      obtain ⟨rs1, s1, s2⟩ := hstep
      rw [s1, Res.ok_bind]
      obtain ⟨i1, i2⟩ := ih (P := fun w => P w ∨ w ∈ ws i) (acc := acc1) (rs := rs1)
        (fun j hj => hd j (by simp [hj])) hP' k2 hc
      refine ⟨fun h => ?_, i2⟩
      obtain ⟨acc', rs', f1, f2, f3⟩ := i1 h
      refine ⟨acc', rs', f1, f2, fun id => ?_⟩
      rw [f3, s2, or_assoc]
      refine or_congr_right ?_
      constructor
      · rintro (⟨ha, hr⟩ | ⟨j, hj, r⟩)
        · exact ⟨i, by simp, ha, md, h1, hr⟩
        · exact ⟨j, by simp [hj], r⟩
      · rintro ⟨j, hj, ha, md', hmd, hr⟩
        rcases List.mem_cons.1 hj with rfl | hj
        · rw [h1] at hmd; cases hmd; exact .inl ⟨ha, hr⟩
        · exact .inr ⟨j, hj, ha, md', hmd, hr⟩
    · have : betweenStep t (acc, rs) i = .err .fileGroup := by
        unfold betweenStep
        simp [h2, h7, m2 hnc hc]
      rw [this]
      refine ⟨fun h => absurd ?_ hc, fun _ => rfl⟩
      intro w w' hw hw'
      exact h w w' (.inl hw) (.inl hw')

theorem changedGroups_read {E : Env} {o : Opts} {t0 t : Tree} {tl : Timeline}
    (hload : Timeline.load E o t0 = .ok tl) (hwf : ∀ n ∈ timelineNames t0, Spec.NormalName n)
    {start stop : Option Str} {tz : Str} {b e : Option Int} (htz : timezoneOf tl.opts = .ok tz)
    (hb : Bound E.ltz tz start b) (he : Bound E.ltz tz stop e)
    {ws : Instant → List Write}
    (hd : ∀ i, Within tl b e i → ∃ md, docOf t i = some md ∧ ReadsAs md (ws i) ∧
      (i.action = .replaceCommit → ReadableReplaced md)) :
    (NoConflict (fun w => ∃ i, Within tl b e i ∧ w ∈ ws i) →
      ∃ gs, tl.fileGroupsBetween E t start stop = .ok gs ∧
        HoldsAll gs (fun w => (∃ i, Within tl b e i ∧ w ∈ ws i) ∧
          ¬ ∃ i, Within tl b e i ∧ i.action = .replaceCommit ∧
            ∃ md, docOf t i = some md ∧ Replaces md w.partition w.fileId) ∧
        ∀ g ∈ gs, GroupWF g) ∧
    (¬ NoConflict (fun w => ∃ i, Within tl b e i ∧ w ∈ ws i) →
      ∃ k, tl.fileGroupsBetween E t start stop = .err k) := by
  obtain ⟨s, hs, hsel⟩ := selection_ok hload (acts := defaultLoadingActions)
    (by simp [defaultLoadingActions]) htz hb he
  have hmem : ∀ i, i ∈ inRange defaultLoadingActions b e tl.completed ↔ Within tl b e i :=
    fun i => mem_inRange_default
  obtain ⟨f1, f2⟩ := between_fold (t := t) (ws := ws) (P := fun _ => False) (acc := []) (rs := [])
    (is := inRange defaultLoadingActions b e tl.completed) (fun i hi => by
      have hi' := (hmem i).1 hi
      obtain ⟨md, h1, h2⟩ := hd i hi'
      exact ⟨md, h1, (instantMetadata_doc hload hwf hi'.1).1 md h1, h2⟩)
    (fun _ h => h.elim) ⟨⟨.nil, by simp, by simp⟩, by simp⟩ (fun _ _ h => h.elim)
  have hpe : (fun w => False ∨ ∃ i ∈ inRange defaultLoadingActions b e tl.completed, w ∈ ws i)
      = (fun w => ∃ i, Within tl b e i ∧ w ∈ ws i) := by
    funext w; simp only [false_or, hmem]
  rw [hpe] at f1 f2
  unfold Timeline.fileGroupsBetween
  simp only [hs, Res.ok_bind, hsel]
  refine ⟨fun hc => ?_, fun hc => ?_⟩
  · obtain ⟨acc, rs, h1, h2, h3⟩ := f1 hc
    refine ⟨fgDifference acc rs, by simp [h1], ?_⟩
    simp only [hmem] at h3
    have hrep : ∀ g : FileGroup, fgContains rs g = true ↔
        ∃ i, Within tl b e i ∧ i.action = .replaceCommit ∧
          ∃ md, docOf t i = some md ∧ Replaces md g.partitionPath g.fileId := by
      intro g
      have := h3 (groupId g)
      simp only [List.not_mem_nil, false_and, exists_false, false_or] at this
      unfold fgContains
      rw [List.any_eq_true]
      simp only [same_iff_id]
      exact this
    have hin : ∀ g, g ∈ fgDifference acc rs ↔ g ∈ acc ∧ ¬ fgContains rs g = true := by
      intro g; unfold fgDifference; rw [List.mem_filter]; simp
    refine ⟨⟨h2.holds.distinct.filter _, fun id => ?_, fun g hg => ?_⟩,
      fun g hg => h2.wf g ((hin g).1 hg).1⟩
    · constructor
      · rintro ⟨g, hg, rfl⟩
        obtain ⟨hg, hn⟩ := (hin g).1 hg
        obtain ⟨w, hw, hwi⟩ := (h2.holds.groups (groupId g)).1 ⟨g, hg, rfl⟩
        refine ⟨w, ⟨hw, fun hr => hn ((hrep g).2 ?_)⟩, hwi⟩
        have e1 : w.partition = g.partitionPath := congrArg Prod.fst hwi
        have e2 : w.fileId = g.fileId := congrArg Prod.snd hwi
        rw [← e1, ← e2]; exact hr
      · rintro ⟨w, ⟨hw, hn⟩, rfl⟩
        obtain ⟨g, hg, hgi⟩ := (h2.holds.groups w.id).2 ⟨w, hw, rfl⟩
        refine ⟨g, (hin g).2 ⟨hg, fun hr => hn ?_⟩, hgi⟩
        have e1 : g.partitionPath = w.partition := congrArg Prod.fst hgi
        have e2 : g.fileId = w.fileId := congrArg Prod.snd hgi
        rw [← e1, ← e2]; exact (hrep g).1 hr
    · obtain ⟨hg, hn⟩ := (hin g).1 hg
      refine (h2.holds.slices g hg).congr (fun w hw => ⟨fun h => ⟨h, fun hr => hn ((hrep g).2 ?_)⟩,
        fun h => h.1⟩)
      have e1 : w.partition = g.partitionPath := congrArg Prod.fst hw
      have e2 : w.fileId = g.fileId := congrArg Prod.snd hw
      rw [← e1, ← e2]; exact hr
  · exact ⟨.fileGroup, by simp [f2 hc]⟩

theorem changedGroups_first {E : Env} {o : Opts} {t0 t : Tree} {tl : Timeline}
    (hload : Timeline.load E o t0 = .ok tl) (hwf : ∀ n ∈ timelineNames t0, Spec.NormalName n)
    {start stop : Option Str} {tz : Str} {b e : Option Int} (htz : timezoneOf tl.opts = .ok tz)
    (hb : Bound E.ltz tz start b) (he : Bound E.ltz tz stop e)
    {ws : Instant → List Write}
    (hd : ∀ i, Within tl b e i → ∃ md, docOf t i = some md ∧ RecordsWrites md (ws i) ∧
      (∀ w ∈ ws i, w.WF) ∧ (i.action = .replaceCommit → ReadableReplaced md)) :
    (NoConflict (fun w => ∃ i, Within tl b e i ∧ FirstOf (ws i) w) →
      ∃ gs, tl.fileGroupsBetween E t start stop = .ok gs ∧
        HoldsAll gs (fun w => (∃ i, Within tl b e i ∧ FirstOf (ws i) w) ∧
          ¬ ∃ i, Within tl b e i ∧ i.action = .replaceCommit ∧
            ∃ md, docOf t i = some md ∧ Replaces md w.partition w.fileId) ∧
        ∀ g ∈ gs, GroupWF g) ∧
    (¬ NoConflict (fun w => ∃ i, Within tl b e i ∧ FirstOf (ws i) w) →
      ∃ k, tl.fileGroupsBetween E t start stop = .err k) := by
  have h := changedGroups_read (t := t) hload hwf htz hb he (ws := fun i => firstWrites [] (ws i)) (fun i hi => by
    obtain ⟨md, h1, h2, h3, h4⟩ := hd i hi
    exact ⟨md, h1, readsAs_first h2 h3, h4⟩)
  have e : ∀ (i : Instant) (w : Write), w ∈ firstWrites [] (ws i) ↔ FirstOf (ws i) w := by
    intro i w; rw [mem_firstWrites]; simp
  simpa only [e] using h

theorem changedGroups {E : Env} {o : Opts} {t0 t : Tree} {tl : Timeline}
    (hload : Timeline.load E o t0 = .ok tl) (hwf : ∀ n ∈ timelineNames t0, Spec.NormalName n)
    {start stop : Option Str} {tz : Str} {b e : Option Int} (htz : timezoneOf tl.opts = .ok tz)
    (hb : Bound E.ltz tz start b) (he : Bound E.ltz tz stop e)
    {ws : Instant → List Write}
    (hd : ∀ i, Within tl b e i → ∃ md, docOf t i = some md ∧ RecordsWrites md (ws i) ∧
      (∀ w ∈ ws i, w.WF) ∧ ((ws i).map Write.id).Nodup ∧
      (i.action = .replaceCommit → ReadableReplaced md)) :
    (NoConflict (fun w => ∃ i, Within tl b e i ∧ w ∈ ws i) →
      ∃ gs, tl.fileGroupsBetween E t start stop = .ok gs ∧
        HoldsAll gs (fun w => (∃ i, Within tl b e i ∧ w ∈ ws i) ∧
          ¬ ∃ i, Within tl b e i ∧ i.action = .replaceCommit ∧
            ∃ md, docOf t i = some md ∧ Replaces md w.partition w.fileId) ∧
        ∀ g ∈ gs, GroupWF g) ∧
    (¬ NoConflict (fun w => ∃ i, Within tl b e i ∧ w ∈ ws i) →
      ∃ k, tl.fileGroupsBetween E t start stop = .err k) :=
  changedGroups_read (t := t) hload hwf htz hb he (fun i hi => by
    obtain ⟨md, h1, h2, h3, h4, h5⟩ := hd i hi
    exact ⟨md, h1, ⟨h3, buildFileGroups_holds h2 h3 h4⟩, h5⟩)

/-- **C22, partial.**  On a loaded timeline, for bounds `b` and `e`, suppose that the metadata of
every instant in the range records the well-formed writes `ws i`, no two of one commit to one file
group, and that the replacecommits in the range list their replaced file groups.  Then, if no two
writes in the range give one slice different base files, the changed file groups are exactly those
written in the range and not replaced by a replacecommit in the range, each holding exactly the
slices written in the range; and otherwise the query is an error.  Missing: commits with several
write stats for one file group (`C22_false`). -/
theorem C22_changed_file_groups_partial (E : Env) (o : Opts) (t0 t : Tree) (tl : Timeline)
    (hload : Timeline.load E o t0 = .ok tl) (hwf : ∀ n ∈ timelineNames t0, Spec.NormalName n)
    (start stop : Option Str) (tz : Str) (b e : Option Int) (htz : timezoneOf tl.opts = .ok tz)
    (hb : Bound E.ltz tz start b) (he : Bound E.ltz tz stop e)
    (ws : Instant → List Write)
    (hd : ∀ i, Within tl b e i → ∃ md, docOf t i = some md ∧ RecordsWrites md (ws i) ∧
      (∀ w ∈ ws i, w.WF) ∧ ((ws i).map Write.id).Nodup ∧
      (i.action = .replaceCommit → ReadableReplaced md)) :
    (NoConflict (fun w => ∃ i, Within tl b e i ∧ w ∈ ws i) →
      ∃ gs, tl.fileGroupsBetween E t start stop = .ok gs ∧
        HoldsAll gs (fun w => (∃ i, Within tl b e i ∧ w ∈ ws i) ∧
          ¬ ∃ i, Within tl b e i ∧ i.action = .replaceCommit ∧
            ∃ md, docOf t i = some md ∧ Replaces md w.partition w.fileId)) ∧
    (¬ NoConflict (fun w => ∃ i, Within tl b e i ∧ w ∈ ws i) →
      ∃ k, tl.fileGroupsBetween E t start stop = .err k) := by
  obtain ⟨h1, h2⟩ := changedGroups (t := t) hload hwf htz hb he hd
  refine ⟨fun hc => ?_, h2⟩
  obtain ⟨gs, h3, h4, _⟩ := h1 hc
  exact ⟨gs, h3, h4⟩

/-- **C22, any commits.**  As `C22_changed_file_groups_partial`, for commits with any number of write stats for one
file group, of which the first counts. -/
theorem C22_first_writes_show_up (E : Env) (o : Opts) (t0 t : Tree) (tl : Timeline)
    (hload : Timeline.load E o t0 = .ok tl) (hwf : ∀ n ∈ timelineNames t0, Spec.NormalName n)
    (start stop : Option Str) (tz : Str) (b e : Option Int) (htz : timezoneOf tl.opts = .ok tz)
    (hb : Bound E.ltz tz start b) (he : Bound E.ltz tz stop e)
    (ws : Instant → List Write)
    (hd : ∀ i, Within tl b e i → ∃ md, docOf t i = some md ∧ RecordsWrites md (ws i) ∧
      (∀ w ∈ ws i, w.WF) ∧ (i.action = .replaceCommit → ReadableReplaced md)) :
    (NoConflict (fun w => ∃ i, Within tl b e i ∧ FirstOf (ws i) w) →
      ∃ gs, tl.fileGroupsBetween E t start stop = .ok gs ∧
        HoldsAll gs (fun w => (∃ i, Within tl b e i ∧ FirstOf (ws i) w) ∧
          ¬ ∃ i, Within tl b e i ∧ i.action = .replaceCommit ∧
            ∃ md, docOf t i = some md ∧ Replaces md w.partition w.fileId)) ∧
    (¬ NoConflict (fun w => ∃ i, Within tl b e i ∧ FirstOf (ws i) w) →
      ∃ k, tl.fileGroupsBetween E t start stop = .err k) := by
  obtain ⟨h1, h2⟩ := changedGroups_first (t := t) hload hwf htz hb he hd
  refine ⟨fun hc => ?_, h2⟩
  obtain ⟨gs, h3, h4, _⟩ := h1 hc
  exact ⟨gs, h3, h4⟩

namespace Demo

/-- A table with a delta commit and a replace commit. -/
def commitTree (d1 d2 : List (Str × Json)) : Tree := .dir c!".hoodie"
  (.file c!"20240103153000000.deltacommit" 1 (.json (.obj d1))
  (.file c!"20240103153100000.replacecommit" 1 (.json (.obj d2)) .nil)) .nil

/-- A replacecommit that writes to one file group and replaces another. -/
def docReplace : List (Str × Json) := [
  (c!"partitionToWriteStats", .obj [(c!"p1", .arr [morStat write3])]),
  (c!"partitionToReplaceFileIds", .obj [(c!"p2/x", .arr [.str c!"f2-0"])])]

theorem docReplace_records : RecordsWrites docReplace [write3] := by
  refine ⟨[(c!"p1", [(write3, morStat write3)])], rfl, rfl, ?_⟩
  simp only [List.mem_cons, List.not_mem_nil, or_false, forall_eq]
  exact ⟨rfl, encodes_mor _⟩

/-- The two instants of that table. -/
def inst1 : Instant := ⟨c!"20240103153000000", .deltaCommit, .completed, 1704295800000⟩
def inst2 : Instant := ⟨c!"20240103153100000", .replaceCommit, .completed, 1704295860000⟩

end Demo

/-- C21: the replacecommit hides one file group. -/
example : ∃ tl, Timeline.load Demo.env [] (Demo.commitTree Demo.doc24 Demo.docReplace) = .ok tl ∧
    (∀ n ∈ timelineNames (Demo.commitTree Demo.doc24 Demo.docReplace), Spec.NormalName n) ∧
    timezoneOf tl.opts = .ok Tz.utc.str ∧
    Bound Demo.env.ltz Tz.utc.str (some c!"20240103153100000") (some 1704295860000) ∧
    (∃ i, ReplacesUpTo tl 1704295860000 i) ∧
    (∀ i, ReplacesUpTo tl 1704295860000 i →
      ∃ md, docOf (Demo.commitTree Demo.doc24 Demo.docReplace) i = some md ∧ ReadableReplaced md) := by
  refine ⟨⟨[], [Demo.inst1, Demo.inst2]⟩, rfl, by decide, rfl, ⟨_, rfl, rfl⟩,
    ⟨Demo.inst2, by simp, rfl, by decide⟩, ?_⟩
  rintro i ⟨hi, ha, _⟩
  simp only [List.mem_cons, List.not_mem_nil, or_false] at hi
  rcases hi with rfl | rfl
  · cases ha
  · exact ⟨Demo.docReplace, rfl, (buildReplaced_ok_iff _).1 ⟨_, rfl⟩⟩

/-- C22: two commits write log files to one file group; the other file group is replaced. -/
example : ∃ (tl : Timeline) (ws : Instant → List Write), Timeline.load Demo.env [] (Demo.commitTree Demo.doc24 Demo.docReplace) = .ok tl ∧
    (∀ i, Within tl none none i → ∃ md,
      docOf (Demo.commitTree Demo.doc24 Demo.docReplace) i = some md ∧ RecordsWrites md (ws i) ∧
      (∀ w ∈ ws i, w.WF) ∧ ((ws i).map Write.id).Nodup ∧
      (i.action = .replaceCommit → ReadableReplaced md)) ∧
    NoConflict (fun w => ∃ i, Within tl none none i ∧ w ∈ ws i) ∧
    (∃ i, Within tl none none i ∧ (ws i).length = 2) ∧
    ∃ gs, tl.fileGroupsBetween Demo.env (Demo.commitTree Demo.doc24 Demo.docReplace) none none = .ok gs ∧
      gs.map groupId = [(c!"p1", c!"f1-0")] := by
  refine ⟨⟨[], [Demo.inst1, Demo.inst2]⟩,
    fun i => if i = Demo.inst1 then [Demo.write2, Demo.write4] else [Demo.write3], rfl, ?_, ?_,
    ⟨Demo.inst1, ⟨by simp, by simp, by simp⟩, rfl⟩, _, rfl, by decide⟩
  · rintro i ⟨hi, _⟩
    simp only [List.mem_cons, List.not_mem_nil, or_false] at hi
    rcases hi with rfl | rfl
    · refine ⟨Demo.doc24, rfl, Demo.doc24_records, ?_, by decide, fun h => by cases h⟩
      simp only [if_true, List.mem_cons, List.not_mem_nil, or_false, forall_eq_or_imp, forall_eq]
      exact ⟨Demo.write_wf.2.1, Demo.write_wf.2.2.2⟩
    · refine ⟨Demo.docReplace, rfl, Demo.docReplace_records, ?_, by decide,
        fun _ => (buildReplaced_ok_iff _).1 ⟨_, rfl⟩⟩
      intro w hw
      have : w = Demo.write3 := by simpa [Demo.inst1, Demo.inst2] using hw
      subst this
      exact Demo.write_wf.2.2.1
  · have hw : ∀ w, (∃ i, Within ⟨[], [Demo.inst1, Demo.inst2]⟩ none none i ∧
        w ∈ (if i = Demo.inst1 then [Demo.write2, Demo.write4] else [Demo.write3])) →
        w = Demo.write2 ∨ w = Demo.write4 ∨ w = Demo.write3 := by
      rintro w ⟨i, _, h⟩
      split at h <;> simp at h <;> tauto
    intro w w' h h' hid _
    rcases hw w h with rfl | rfl | rfl <;> rcases hw w' h' with rfl | rfl | rfl <;>
      first | rfl | (exfalso; revert hid; decide)

/-- **C22 is false**: with two write stats for one file group in one commit, the changed file groups
lack the log file of the second. -/
theorem C22_false : ∃ (t : Tree) (tl : Timeline) (i : Instant) (md : List (Str × Json))
    (ws : List Write) (gs : List FileGroup),
    Timeline.load Demo.env [] t = .ok tl ∧ tl.completed = [i] ∧ docOf t i = some md ∧
    RecordsWrites md ws ∧ (∀ w ∈ ws, w.WF) ∧
    tl.fileGroupsBetween Demo.env t none none = .ok gs ∧
    ∃ w ∈ ws, ∃ l ∈ w.logs, ∀ g ∈ gs, ∀ e ∈ g.slices, l ∉ e.2.logFiles := by
  refine ⟨.dir c!".hoodie"
    (.file c!"20240103153000000.deltacommit" 1 (.json (.obj Demo.doc23)) .nil) .nil,
    ⟨[], [Demo.inst1]⟩, Demo.inst1, Demo.doc23, [Demo.write2, Demo.write3], _, rfl, rfl, rfl,
    Demo.doc23_records, ?_, rfl,
    Demo.write3, by simp, Demo.logA c!"3", by simp [Demo.write3], by decide⟩
  simp only [List.mem_cons, List.not_mem_nil, or_false, forall_eq_or_imp, forall_eq]
  exact ⟨Demo.write_wf.2.1, Demo.write_wf.2.2.1⟩

end Hudi
