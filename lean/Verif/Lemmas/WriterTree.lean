import Verif.Lemmas.Writer

/-! # Lemmas: what readers find while writers work -/

namespace Hudi
open Spec

/-! ## Paths -/

/-- Where objects are. -/
def Place (S : Setting) (p : List Str) : Prop :=
  (∃ name, p = [c!".hoodie", name] ∧ NormalName name) ∨
  ∃ x name, p = inPartition x name ∧ Site S x ∧ NormalName name ∧ name ≠ c!".hoodie"

theorem ignored_ne {name : Str} (h : Ignored name) : name ≠ c!".hoodie" := by
  rintro rfl
  rcases h with ⟨rest, h⟩ | ⟨stem, h⟩
  · have := congrArg List.length h
    simp at this
  · have h1 : rsplitOnce '.' (c!".hoodie" : Str) = some (stem, c!"crc") := by
      rw [rsplitOnce_eq_some]; exact ⟨h, by decide⟩
    have h2 : rsplitOnce '.' (c!".hoodie" : Str) = some ([], c!"hoodie") := by
      rw [rsplitOnce_eq_some]; exact ⟨rfl, by decide⟩
    rw [h1] at h2
    have := (Prod.mk.inj (Option.some.inj h2)).2
    revert this; decide

theorem baseName_ne {f tok ts : Str} : baseName f tok ts ≠ c!".hoodie" := by
  intro h
  have : '_' ∈ (c!".hoodie" : Str) := by rw [← h]; simp [baseName]
  revert this; decide

theorem logName_ne {f base v tok : Str} : logName f base v tok ≠ c!".hoodie" := by
  intro h
  have : '_' ∈ (c!".hoodie" : Str) := by rw [← h]; simp [logName]
  revert this; decide

theorem kind_place {S : Setting} {s : Work} (hi : Inv S s) {p : List Str} {x : Stored} (h : Kind S s p x) :
    Place S p := by
  cases h with
  | unread p x h =>
    rcases h with ⟨name, rfl, h, _⟩ | ⟨x, name, rfl, hx, h, hg⟩
    · exact .inl ⟨name, rfl, h⟩
    · exact .inr ⟨x, name, rfl, hx, h, ignored_ne hg⟩
  | instant j hj =>
    obtain ⟨d1, hjob⟩ := hi.jobOf hj
    exact .inl ⟨_, rfl, instant_normal hjob.time.1⟩
  | base j k token hj hk =>
    obtain ⟨d1, hjob⟩ := hi.jobOf hj
    exact .inr ⟨_, _, rfl, hjob.sites _ hk, base_normal (hjob.ids _ hk) (hjob.tokens _ _ hk) (digits_part hjob.time.1),
      baseName_ne⟩
  | pending a k token ha hk =>
    have hjob := hi.attempt a ha
    exact .inr ⟨_, _, rfl, hjob.sites _ hk, base_normal (hjob.ids _ hk) (hjob.tokens _ _ hk) (digits_part hjob.time.1),
      baseName_ne⟩
  | log j k token l ws hj hk hl hw =>
    obtain ⟨d1, hjob⟩ := hi.jobOf hj
    exact .inr ⟨_, _, rfl, hjob.sites _ hk, log_normal (hjob.ids _ hk) (digits_part hjob.time.1) hl.1 hl.2, logName_ne⟩

theorem place_normal {S : Setting} {p : List Str} (h : Place S p) : p ≠ [] ∧ ∀ n ∈ p, NormalName n := by
  rcases h with ⟨name, rfl, h⟩ | ⟨x, name, rfl, hx, h, _⟩
  · refine ⟨by simp, ?_⟩
    intro n hn
    simp only [List.mem_cons, List.not_mem_nil, or_false] at hn
    rcases hn with rfl | rfl
    · decide
    · exact h
  · exact ⟨by simp [inPartition], inPartition_normal hx h⟩

theorem place_free {S : Setting} {p p' r : List Str} (h : Place S p) (h' : Place S p') (e : p' = p ++ r) : r = [] := by
  have hlen := congrArg List.length e
  rw [List.length_append] at hlen
  rcases h with ⟨name, rfl, _⟩ | ⟨x, name, rfl, hx, _, hn⟩ <;>
    rcases h' with ⟨name', rfl, _⟩ | ⟨x', name', rfl, hx', _, hn'⟩
  · simp at hlen; exact hlen
  · rcases site_segs hx' with ⟨_, _, e1⟩ | ⟨_, a, as, _, h1, e1, _⟩
    · rw [inPartition, e1] at e; simp at e
    · rw [inPartition, e1] at e
      simp only [List.cons_append, List.cons.injEq] at e
      rw [e.1] at h1
      exact absurd (by decide) h1
  · rcases site_segs hx with ⟨_, _, e1⟩ | ⟨_, a, as, _, h1, e1, _⟩
    · rw [inPartition, e1] at e
      simp only [List.nil_append, List.cons_append, List.cons.injEq] at e
      exact absurd e.1.symm hn
    · rw [inPartition, e1] at e
      simp only [List.cons_append, List.cons.injEq] at e
      rw [← e.1] at h1
      exact absurd (by decide) h1
  · rw [inPartition_length hx, inPartition_length hx'] at hlen
    rw [← List.length_eq_zero_iff]; omega

theorem Inv.place {S : Setting} {s : Work} (hi : Inv S s) {e : List Str × Stored} (he : e ∈ s.store) : Place S e.1 :=
  kind_place hi (hi.kinds e.1 e.2 (get_of_mem hi.nodup he))

theorem Inv.paths {S : Setting} {s : Work} (hi : Inv S s) : GoodPaths s.store where
  nodup := hi.nodup
  nonempty := fun _ he => (place_normal (hi.place he)).1
  normal := fun _ he => (place_normal (hi.place he)).2
  free := fun _ he _ he' _ e => place_free (hi.place he) (hi.place he') e

theorem Inv.treeWF {S : Setting} {s : Work} (hi : Inv S s) : TreeWF s.tree := wf_treeOf hi.paths

theorem Inv.fileAt {S : Setting} {s : Work} (hi : Inv S s) {p : List Str} (hp : p ≠ []) {x : Stored}
    (h : s.store.get p = some x) : s.tree.fileAt p = some (1, x.content) := by
  show (treeOf s.store).fileAt p = _
  rw [fileAt_treeOf hi.paths.nonempty hp, h]
  rfl

theorem mem_filesOf {S : Setting} {s : Work} (hi : Inv S s) {x name : Str} {size : Nat} :
    (name, size) ∈ filesOf s.tree x ↔ size = 1 ∧ ∃ y, s.store.get (inPartition x name) = some y :=
  files_treeOf hi.paths

/-! ## Partitions -/

theorem partition_of_place {S : Setting} {st : Objects} (hp : ∀ e ∈ st, Place S e.1) {x name : Str} {y : Stored}
    (hx : Site S x) (h : st.get (inPartition x name) = some y) : PartitionOf S.o (treeOf st) x := by
  rcases site_segs hx with ⟨h1, e, _⟩ | ⟨h1, n, ns, hn, hm, e1, e2⟩
  · exact .inl ⟨h1, e⟩
  · refine .inr ⟨h1, n, ns, ?_, hm, e2⟩
    rw [leafDir_treeOf (by simp)]
    refine ⟨⟨_, get_some h, name, by rw [inPartition, e1]⟩, ?_⟩
    intro z hz a b r he
    have hlen : (pathSegs x).length = S.depth := hx.2
    rw [e1] at hlen
    rcases hp z hz with ⟨m, h3, _⟩ | ⟨x', m, h3, hx', _⟩
    · rw [h3] at he
      simp only [List.cons_append, List.cons.injEq] at he
      rw [← he.1] at hm
      exact absurd (by decide) hm
    · have h4 := congrArg List.length he
      rw [h3, inPartition_length hx', List.length_append, hlen] at h4
      simp at h4

theorem partition_of_site {S : Setting} {s : Work} (hi : Inv S s) {x name : Str} {y : Stored} (hx : Site S x)
    (h : s.store.get (inPartition x name) = some y) : PartitionOf S.o s.tree x :=
  partition_of_place (fun _ he => hi.place he) hx h

theorem site_of_partition {S : Setting} {s : Work} (hi : Inv S s) {x : Str} (hx : PartitionOf S.o s.tree x)
    {f : Str × Nat} (hf : f ∈ filesOf s.tree x) : Site S x := by
  obtain ⟨_, y, hy⟩ := (mem_filesOf hi (size := f.2)).1 hf
  rcases hx with ⟨h1, rfl⟩ | ⟨h1, n, ns, hleaf, hm, rfl⟩
  · rcases hi.place (get_some hy) with ⟨m, h3, _⟩ | ⟨x', m, h3, hx', _⟩
    · have := congrArg List.length h3
      simp [inPartition, show pathSegs ([] : Str) = [] from rfl] at this
    · refine ⟨.inl ⟨h1, rfl⟩, ?_⟩
      have := congrArg List.length h3
      rw [inPartition_length hx'] at this
      simp only [inPartition, show pathSegs ([] : Str) = [] from rfl] at this ⊢
      simp at this ⊢
      omega
  · obtain ⟨⟨z, hz, m, hzm⟩, _⟩ := (leafDir_treeOf (s := s.store) (by simp)).1 hleaf
    have hn : ∀ a ∈ n :: ns, NormalName a := fun a ha => (place_normal (hi.place hz)).2 a (by rw [hzm]; simp at ha ⊢; tauto)
    refine ⟨.inr ⟨h1, n, ns, hn, hm, rfl⟩, ?_⟩
    rw [pathSegs_joinWith hn]
    rcases hi.place hz with ⟨m', h3, _⟩ | ⟨x', m', h3, hx', _⟩
    · rw [h3] at hzm
      simp only [List.cons_append, List.cons.injEq] at hzm
      rw [← hzm.1] at hm
      exact absurd (by decide) hm
    · have h4 := congrArg List.length hzm
      rw [h3, inPartition_length hx', List.length_append] at h4
      simp at h4 ⊢
      omega

/-! ## Data files -/

/-- The write has completed, or it has begun. -/
def Writes (s : Work) (j : Job) : Prop := j ∈ s.done ∨ ∃ a ∈ s.current, a.job = j

theorem Writes.ok {S : Setting} {s : Work} (hi : Inv S s) {j : Job} (h : Writes s j) : ∃ d1, JobOk S d1 j := by
  rcases h with h | ⟨a, h, rfl⟩
  · exact hi.jobOf h
  · exact ⟨_, hi.attempt a h⟩

theorem Writes.unique {S : Setting} {s : Work} (hi : Inv S s) {j j' : Job} (h : Writes s j) (h' : Writes s j')
    (ht : j.commit.ts = j'.commit.ts) : j = j' := by
  rcases h with h | ⟨a, h, rfl⟩ <;> rcases h' with h' | ⟨a', h', rfl⟩
  · exact hi.unique h h' ht
  · exact absurd ((hi.attempt a' h').later j h) (by rw [ht]; exact cmp_irrefl)
  · exact absurd ((hi.attempt a h).later j' h') (by rw [ht]; exact cmp_irrefl)
  · rw [hi.one a h a' h' ht]

/-- Everything that has completed by the time of a commit known to the handle was known to it. -/
theorem before_known {S : Setting} {s0 s : Work} (hi : Inv S s) {more : List Job} (hd : s.done = s0.done ++ more)
    {j0 j : Job} (hj0 : j0 ∈ s0.done) (hj : Writes s j) (hle : (compare j.commit.ts j0.commit.ts).isLE = true) :
    j ∈ s0.done := by
  have hgt : compare j0.commit.ts j.commit.ts ≠ .lt := by
    intro hlt
    rw [Std.OrientedCmp.eq_swap (cmp := (compare : Str → Str → Ordering)), hlt] at hle
    cases hle
  rcases hj with hj | ⟨a, ha, rfl⟩
  · rw [hd] at hj
    rcases List.mem_append.1 hj with hj | hj
    · exact hj
    · obtain ⟨m1, m2, rfl⟩ := List.append_of_mem hj
      exact absurd ((hi.jobs (s0.done ++ m1) j m2 (by rw [hd]; simp)).later j0 (by simp [hj0])) hgt
  · exact absurd ((hi.attempt a ha).later j0 (by rw [hd]; simp [hj0])) hgt

/-- The file of a partition that readers take for a data file. -/
theorem data_file {S : Setting} {s : Work} (hi : Inv S s) {x name : Str} {size : Nat} (hx : Site S x)
    (hf : (name, size) ∈ filesOf s.tree x) (hn : ¬ Ignored name) :
    (∃ j f token, Writes s j ∧ ((x, f), Change.write token) ∈ j.commit.changes ∧ name = baseName f token j.commit.ts) ∨
    ∃ j f token l ws, j ∈ s.done ∧ ((x, f), Change.write token) ∈ j.commit.changes ∧ (NamePart l.1 ∧ NamePart l.2) ∧
      name = logName f j.commit.ts l.1 l.2 ∧ s.store.get (logAt (x, f) j.commit.ts l) = some (.log ws) := by
  obtain ⟨_, y, hy⟩ := (mem_filesOf hi).1 hf
  have hkind := hi.kinds _ _ hy
  generalize hp : inPartition x name = p at hkind
  cases hkind with
  | unread p y h =>
    rcases h with ⟨m, h, _⟩ | ⟨x', m, h, hx', _, hg⟩
    · exact absurd (hp.trans h) (inPartition_ne hx)
    · obtain ⟨_, rfl⟩ := inPartition_inj hx hx' (hp.trans h)
      exact absurd hg hn
  | instant j hj => exact absurd hp (inPartition_ne hx)
  | base j k token hj hk =>
    obtain ⟨d1, hjob⟩ := hi.jobOf hj
    obtain ⟨rfl, rfl⟩ := inPartition_inj hx (hjob.sites _ hk) hp
    exact .inl ⟨j, k.2, token, .inl hj, hk, rfl⟩
  | pending a k token ha hk =>
    obtain ⟨rfl, rfl⟩ := inPartition_inj hx ((hi.attempt a ha).sites _ hk) hp
    exact .inl ⟨a.job, k.2, token, .inr ⟨a, ha, rfl⟩, hk, rfl⟩
  | log j k token l ws hj hk hl hw =>
    obtain ⟨d1, hjob⟩ := hi.jobOf hj
    have hp' := hp
    obtain ⟨rfl, rfl⟩ := inPartition_inj hx (hjob.sites _ hk) hp
    rw [hp'] at hy
    exact .inr ⟨j, k.2, token, l, ws, hj, hk, hl, rfl, hy⟩

theorem base_in {S : Setting} {s : Work} (hi : Inv S s) {x : Str} (hx : Site S x) {b : BaseFile}
    (hb : BaseIn (filesOf s.tree x) b) : ∃ j f token, Writes s j ∧ ((x, f), Change.write token) ∈ j.commit.changes ∧
      b = ⟨f, token, j.commit.ts, c!"parquet", some (FileMeta.new (baseName f token j.commit.ts) 1)⟩ := by
  obtain ⟨name, size, h1, h2, h3, h4⟩ := hb
  rcases data_file hi hx h1 h2 with ⟨j, f, token, hj, hk, rfl⟩ | ⟨j, f, token, l, ws, hj, hk, hl, rfl, _⟩
  · obtain ⟨d1, hjob⟩ := hj.ok hi
    have hsz := ((mem_filesOf hi).1 h1).1
    subst hsz
    rw [fromMeta_baseName (hjob.ids _ hk) (hjob.tokens _ _ hk) (digits_part hjob.time.1).2.1] at h4
    cases h4
    exact ⟨j, f, token, hj, hk, rfl⟩
  · exact absurd h3 (parquetName_log hl.1 hl.2)

theorem base_there {S : Setting} {s : Work} (hi : Inv S s) {j : Job} (hj : j ∈ s.done) {x f token : Str}
    (hk : ((x, f), Change.write token) ∈ j.commit.changes) :
    (baseName f token j.commit.ts, 1) ∈ filesOf s.tree x ∧ BaseIn (filesOf s.tree x)
      ⟨f, token, j.commit.ts, c!"parquet", some (FileMeta.new (baseName f token j.commit.ts) 1)⟩ := by
  obtain ⟨d1, hjob⟩ := hi.jobOf hj
  have h1 : (baseName f token j.commit.ts, 1) ∈ filesOf s.tree x :=
    (mem_filesOf hi).2 ⟨rfl, _, hi.bases j hj _ _ hk⟩
  exact ⟨h1, _, _, h1, base_not_ignored (hjob.ids _ hk), parquetName_base,
    fromMeta_baseName (hjob.ids _ hk) (hjob.tokens _ _ hk) (digits_part hjob.time.1).2.1⟩

theorem log_in {S : Setting} {s : Work} (hi : Inv S s) {x : Str} (hx : Site S x) {l : LogFile}
    (hl : LogIn (filesOf s.tree x) l) : ∃ j f token l' ws, j ∈ s.done ∧ ((x, f), Change.write token) ∈ j.commit.changes ∧
      (NamePart l'.1 ∧ NamePart l'.2) ∧ s.store.get (logAt (x, f) j.commit.ts l') = some (.log ws) ∧
      l = ⟨f, j.commit.ts, c!"log", l'.1, l'.2, some (FileMeta.new (logName f j.commit.ts l'.1 l'.2) 1)⟩ := by
  obtain ⟨name, size, h1, h2, h3, h4⟩ := hl
  rcases data_file hi hx h1 h2 with ⟨j, f, token, hj, hk, rfl⟩ | ⟨j, f, token, l', ws, hj, hk, hl, rfl, hw⟩
  · exact absurd parquetName_base h3
  · obtain ⟨d1, hjob⟩ := hi.jobOf hj
    have hsz := ((mem_filesOf hi).1 h1).1
    subst hsz
    have ht := digits_part hjob.time.1
    rw [fromMeta_logName (hjob.ids _ hk) ht.2.2.1 ht.1 hl.1 hl.2] at h4
    cases h4
    exact ⟨j, f, token, l', ws, hj, hk, hl, hw, rfl⟩

theorem log_there {S : Setting} {s : Work} (hi : Inv S s) {k : GroupKey} {base : Str} {l : Str × Str}
    {ws : List WBlock} (hk : KeyOk S k) (hb : WriterTimestamp base) (hl : NamePart l.1 ∧ NamePart l.2)
    (hw : s.store.get (logAt k base l) = some (.log ws)) : LogIn (filesOf s.tree k.1)
      ⟨k.2, base, c!"log", l.1, l.2, some (FileMeta.new (logName k.2 base l.1 l.2) 1)⟩ :=
  ⟨_, _, (mem_filesOf hi).2 ⟨rfl, _, hw⟩, log_not_ignored hk.2 hb hl.1 hl.2, parquetName_log hl.1 hl.2,
    fromMeta_logName hk.2 (digits_part hb).2.2.1 (digits_part hb).1 hl.1 hl.2⟩

theorem Inv.listable {S : Setting} {s : Work} (hi : Inv S s) {x : Str} (hx : PartitionOf S.o s.tree x) :
    Listable (filesOf s.tree x) := by
  refine ⟨?_, ?_, ?_⟩
  · intro name size h1 h2 h3
    rcases data_file hi (site_of_partition hi hx h1) h1 h2 with ⟨j, f, token, hj, hk, rfl⟩ |
        ⟨j, f, token, l, ws, hj, hk, hl, rfl, _⟩
    · obtain ⟨d1, hjob⟩ := hj.ok hi
      exact ⟨_, fromMeta_baseName (hjob.ids _ hk) (hjob.tokens _ _ hk) (digits_part hjob.time.1).2.1⟩
    · exact absurd h3 (parquetName_log hl.1 hl.2)
  · intro b b' hb hb' hf ht
    have hs : Site S x := by obtain ⟨_, _, h1, _⟩ := hb; exact site_of_partition hi hx h1
    obtain ⟨j, f, token, hj, hk, rfl⟩ := base_in hi hs hb
    obtain ⟨j', f', token', hj', hk', rfl⟩ := base_in hi hs hb'
    cases hj.unique hi hj' ht
    cases (show f = f' from hf)
    obtain ⟨d1, hjob⟩ := hj.ok hi
    have := (changeOf_iff hjob.once).2 hk
    rw [(changeOf_iff hjob.once).2 hk'] at this
    cases this
    rfl
  · intro l hl _
    have hs : Site S x := by obtain ⟨_, _, h1, _⟩ := hl; exact site_of_partition hi hx h1
    obtain ⟨j, f, token, l', ws, hj, hk, hl, hw, rfl⟩ := log_in hi hs hl
    exact ⟨_, (base_there hi hj hk).2, rfl, rfl⟩

theorem Inv.extensions {S : Setting} {s : Work} (hi : Inv S s) {x : Str} (hx : PartitionOf S.o s.tree x) :
    OneExtension (filesOf s.tree x) := by
  intro l l' hl hl' h1 h2 h3 h4
  have hs : Site S x := by obtain ⟨_, _, h1, _⟩ := hl; exact site_of_partition hi hx h1
  obtain ⟨j, f, token, m, ws, hj, hk, hm, hw, rfl⟩ := log_in hi hs hl
  obtain ⟨j', f', token', m', ws', hj', hk', hm', hw', rfl⟩ := log_in hi hs hl'
  cases (show f = f' from h1)
  cases hi.unique hj hj' h2
  cases (Prod.ext (show m.1 = m'.1 from h3) (show m.2 = m'.2 from h4) : m = m')
  rfl

theorem Inv.timeline {S : Setting} {s : Work} (hi : Inv S s) (name : Str) :
    ((∃ m ∈ listFiles s.tree c!".hoodie", m.name = name) ∧
      ∃ i, CompletedFile S.ltz S.tz [.commit, .deltaCommit, .replaceCommit] name i) ↔
    ∃ c ∈ s.history, name = c.ts ++ c!"." ++ suffix c.action .completed := by
  have hsegs : pathSegs c!".hoodie" = [c!".hoodie"] := by decide
  have hfile : (∃ m ∈ listFiles s.tree c!".hoodie", m.name = name) ↔
      ∃ y, s.store.get [c!".hoodie", name] = some y := by
    unfold listFiles
    rw [hsegs]
    constructor
    · rintro ⟨m, hm, rfl⟩
      obtain ⟨⟨n, size⟩, he, rfl⟩ := List.mem_map.1 hm
      exact ((files_treeOf hi.paths).1 he).2
    · rintro ⟨y, hy⟩
      exact ⟨_, List.mem_map.2 ⟨(name, 1), (files_treeOf hi.paths).2 ⟨rfl, y, hy⟩, rfl⟩, rfl⟩
  rw [hfile]
  constructor
  · rintro ⟨⟨y, hy⟩, hcomp⟩
    have hkind := hi.kinds _ _ hy
    generalize hp : [c!".hoodie", name] = p at hkind
    cases hkind with
    | unread p y h =>
      rcases h with ⟨m, rfl, _, hno⟩ | ⟨x', m, h, hx', _, hg⟩
      · simp only [List.cons.injEq, and_true, true_and] at hp
        subst hp
        exact absurd hcomp hno
      · exact absurd (h.symm.trans hp.symm) (inPartition_ne hx')
    | instant j hj =>
      simp only [instantAt, List.cons.injEq, and_true, true_and] at hp
      exact ⟨j.commit, mem_commitsOf.2 ⟨j, hj, rfl⟩, hp⟩
    | base j k token hj hk =>
      obtain ⟨d1, hjob⟩ := hi.jobOf hj
      exact absurd hp.symm (inPartition_ne (hjob.sites _ hk))
    | pending a k token ha hk => exact absurd hp.symm (inPartition_ne ((hi.attempt a ha).sites _ hk))
    | log j k token l ws hj hk hl hw =>
      obtain ⟨d1, hjob⟩ := hi.jobOf hj
      exact absurd hp.symm (inPartition_ne (hjob.sites _ hk))
  · rintro ⟨c, hc, rfl⟩
    obtain ⟨j, hj, rfl⟩ := mem_commitsOf.1 hc
    obtain ⟨d1, hjob⟩ := hi.jobOf hj
    exact ⟨⟨_, hi.instants j hj⟩, instant_completed hjob.time.1 hjob.parses⟩

/-! ## Blocks -/

/-- The blocks of the log file at the path. -/
def heldIn (s : Work) (path : Str) : List WBlock := (s.store.get (pathSegs path)).elim [] Stored.blocks

theorem log_path {S : Setting} {k : GroupKey} {base : Str} {l : Str × Str} {m : Option FileMeta} (hk : KeyOk S k)
    (hb : WriterTimestamp base) (hl : NamePart l.1 ∧ NamePart l.2) :
    pathSegs (pathPush k.1 (LogFile.fileName ⟨k.2, base, c!"log", l.1, l.2, m⟩)) = logAt k base l := by
  have : LogFile.fileName ⟨k.2, base, c!"log", l.1, l.2, m⟩ = logName k.2 base l.1 l.2 := by
    simp [LogFile.fileName, logName]
  rw [this, pathSegs_pathPush (log_normal hk.2 (digits_part hb) hl.1 hl.2)]
  rfl

theorem stored_block {S : Setting} {s : Work} (hi : Inv S s) {k : GroupKey} {base : Str} {w : WBlock}
    (hk : KeyOk S k) (hb : WriterTimestamp base) :
    StoredBlock s.tree (heldIn s) k base w ↔ StoredIn S s.store k base w := by
  constructor
  · rintro ⟨l, ⟨h1, h2, h3⟩, hw⟩
    obtain ⟨j, f, token, l', ws, hj, hc, hl, hg, rfl⟩ := log_in hi hk.1 h1
    obtain ⟨x, f'⟩ := k
    cases (show f = f' from h2)
    cases (show j.commit.ts = base from h3)
    unfold heldIn at hw
    rw [log_path (k := (x, f)) hk hb hl, hg] at hw
    exact ⟨hk, hb, l', ws, hl, hg, hw⟩
  · rintro ⟨_, _, l, ws, hl, hg, hw⟩
    refine ⟨_, ⟨log_there hi hk hb hl hg, rfl, rfl⟩, ?_⟩
    unfold heldIn
    rw [log_path hk hb hl, hg]
    exact hw

theorem stored_ok {S : Setting} {s : Work} (hi : Inv S s) {k : GroupKey} {base : Str} {w : WBlock}
    (h : StoredIn S s.store k base w) : BlockOk S s k base w := by
  obtain ⟨hk, hb, l, ws, hl, hg, hw⟩ := h
  obtain ⟨ws', e, h'⟩ := kind_log hi hk hb hl (hi.kinds _ _ hg)
  cases e
  exact h' w hw

end Hudi
