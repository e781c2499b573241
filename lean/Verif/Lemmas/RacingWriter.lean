import Verif.Spec.RacingWriter
import Verif.Lemmas.WriterTree
import Verif.Lemmas.Records

/-! # Lemmas: what a read finds while writers work -/

namespace Hudi
open Spec

/-! ## Log files only grow -/

/-- The blocks under the path. -/
def blocksAt (st : Objects) (p : List Str) : List WBlock := (st.get p).elim [] Stored.blocks

/-- A block that can be read, later than the completed writes. -/
def LaterBlock (S : Setting) (done : List Job) (w : WBlock) : Prop :=
  GoodBlock S.C S.ltz S.tz w ∧ ∃ i, WrittenBy w i ∧ (WriterTimestamp i ∧ i.length = S.width) ∧
    ∀ j ∈ done, compare j.commit.ts i = .lt

/-- Blocks are added at the path, all of them later than the completed writes. -/
def Grows (S : Setting) (done : List Job) (st st' : Objects) (p : List Str) : Prop :=
  (∃ more, blocksAt st' p = blocksAt st p ++ more ∧ ∀ w ∈ more, LaterBlock S done w) ∧
    (st.get p ≠ none → st'.get p ≠ none)

theorem grows_refl {S : Setting} {done : List Job} {st : Objects} {p : List Str} : Grows S done st st p :=
  ⟨⟨[], by simp, by simp⟩, id⟩

theorem grows_ne {S : Setting} {done : List Job} {st : Objects} {q : Request} {p : List Str} (h : p ≠ q.path) :
    Grows S done st (q.run st) p := by
  have e : (q.run st).get p = st.get p := by rw [get_run, if_neg h]
  exact ⟨⟨[], by simp [blocksAt, e], by simp⟩, by rw [e]; exact id⟩

theorem grows_append {S : Setting} {done : List Job} {st : Objects} {p p' : List Str} {ws : List WBlock}
    (h : ∀ w ∈ ws, LaterBlock S done w) : Grows S done st ((Request.append p' ws).run st) p := by
  by_cases hp : p = p'
  · subst hp
    have e : ((Request.append p ws).run st).get p = some (.log (blocksAt st p ++ ws)) := by
      rw [get_run, if_pos (show p = (Request.append p ws).path from rfl)]
      rfl
    exact ⟨⟨ws, by simp [blocksAt, e, Stored.blocks], h⟩, fun _ => by rw [e]; exact (fun e => nomatch e)⟩
  · exact grows_ne hp

theorem grows_step {S : Setting} {s s' : Work} (hi : Inv S s) (hs : WorkStep S s s') {k : GroupKey} {base : Str}
    {l : Str × Str} (hk : KeyOk S k) (hb : WriterTimestamp base) (hl : NamePart l.1 ∧ NamePart l.2) :
    Grows S s.done s.store s'.store (logAt k base l) := by
  cases hs with
  | aside q hq => exact grows_ne (fun e => log_read hk hb hl (e ▸ hq))
  | begin j hc hf hj => exact grows_refl
  | request a q hc hu hq =>
    have hjob := hi.attempt a hc
    rcases mem_requests hq with ⟨k', token, hk', rfl⟩ | ⟨k', ls, v, l', hk', hv, hl', rfl⟩
    · exact grows_ne (fun e => base_ne_log (job_key hjob hk') hk hl e.symm)
    · refine grows_append (fun w hw => ?_)
      obtain ⟨h1, h2, _⟩ := hjob.blocks k' ls v hk' hv l' hl' w hw
      exact ⟨h1, _, h2, hjob.time, hjob.later⟩
  | complete a hc hu hq => exact grows_ne (log_ne_instant hk)
  | rollback a r hc hf ht hp => exact grows_refl
  | delete a r k' token hc hu hk' =>
    exact grows_ne (fun e => base_ne_log (job_key (hi.attempt a hc) hk') hk hl e.symm)
  | block a r k' ls v l' w hc hu hk' hv hl' hg hw hr =>
    refine grows_append (fun w' hw' => ?_)
    rw [List.mem_singleton.1 hw']
    obtain ⟨h1, h2⟩ := hi.usedUndo a hc r hu
    exact ⟨hg, r, hw, hi.times r h1, fun j hj => cmp_trans ((hi.attempt a hc).later j hj) h2⟩
  | recovered a r hc hu hd hb => exact grows_refl

theorem grows_works {S : Setting} {s s' : Work} (hi : Inv S s) (hs : Works S s s') {k : GroupKey} {base : Str}
    {l : Str × Str} (hk : KeyOk S k) (hb : WriterTimestamp base) (hl : NamePart l.1 ∧ NamePart l.2) :
    Grows S s.done s.store s'.store (logAt k base l) := by
  induction hs with
  | refl => exact grows_refl
  | step hw hstep ih =>
    obtain ⟨more, hd⟩ := done_works hw
    obtain ⟨⟨m, h1, h2⟩, h3⟩ := ih
    obtain ⟨⟨m', h1', h2'⟩, h3'⟩ := grows_step (inv_works hi hw) hstep hk hb hl
    refine ⟨⟨m ++ m', by rw [h1', h1, List.append_assoc], ?_⟩, fun h => h3' (h3 h)⟩
    intro w hw
    rcases List.mem_append.1 hw with hw | hw
    · exact h2 w hw
    · obtain ⟨g1, i, g2, g3, g4⟩ := h2' w hw
      exact ⟨g1, i, g2, g3, fun j hj => g4 j (by rw [hd]; simp [hj])⟩

/-! ## What stays -/

/-- The object is of no completed write: readers do not look at it, or it is a base file of a write that has begun. -/
def Passing (S : Setting) (s : Work) (p : List Str) : Prop :=
  Unread S p ∨ ∃ a k token, a ∈ s.current ∧ (k, Change.write token) ∈ a.job.commit.changes ∧
    p = baseAt k token a.job.commit.ts

open Classical in
/-- The table without the objects that may go. -/
noncomputable def lasting (S : Setting) (s : Work) : Work where
  store := s.store.filter (fun e => decide (¬ Passing S s e.1))
  done := s.done
  current := s.current.map (fun a => { a with ran := a.ran.filter (fun q => match q with | .append _ _ => true | _ => false) })
  used := s.used

theorem lasting_nodup {S : Setting} {s : Work} (hi : Inv S s) : ((lasting S s).store.map Prod.fst).Nodup :=
  (List.Sublist.map _ List.filter_sublist).nodup hi.nodup

theorem get_lasting {S : Setting} {s : Work} (hi : Inv S s) {p : List Str} {x : Stored} :
    (lasting S s).store.get p = some x ↔ s.store.get p = some x ∧ ¬ Passing S s p := by
  rw [get_iff (lasting_nodup hi), get_iff hi.nodup]
  show (p, x) ∈ s.store.filter _ ↔ _
  rw [List.mem_filter]
  simp

theorem log_lasts {S : Setting} {s : Work} (hi : Inv S s) {k : GroupKey} {base : Str} {l : Str × Str} (hk : KeyOk S k)
    (hb : WriterTimestamp base) (hl : NamePart l.1 ∧ NamePart l.2) : ¬ Passing S s (logAt k base l) := by
  rintro (h | ⟨a, k', token, ha, hk', e⟩)
  · exact log_read hk hb hl h
  · exact base_ne_log (job_key (hi.attempt a ha) hk') hk hl e.symm

theorem base_lasts {S : Setting} {s : Work} (hi : Inv S s) {j : Job} (hj : j ∈ s.done) {k : GroupKey} {token : Str}
    (hk : (k, Change.write token) ∈ j.commit.changes) : ¬ Passing S s (baseAt k token j.commit.ts) := by
  obtain ⟨d1, hjob⟩ := hi.jobOf hj
  rintro (h | ⟨a, k', token', ha, hk', e⟩)
  · exact base_read (job_key hjob hk) h
  · have hjob' := hi.attempt a ha
    obtain ⟨_, _, e3⟩ := baseAt_inj (job_key hjob hk) (job_key hjob' hk') (hjob.tokens _ _ hk) (hjob'.tokens _ _ hk')
      hjob.time.1 hjob'.time.1 e
    have := hjob'.later j hj
    rw [e3] at this
    exact cmp_irrefl this

theorem instant_lasts {S : Setting} {s : Work} (hi : Inv S s) {j : Job} (hj : j ∈ s.done) :
    ¬ Passing S s (instantAt j.commit) := by
  obtain ⟨d1, hjob⟩ := hi.jobOf hj
  rintro (h | ⟨a, k', token', ha, hk', e⟩)
  · exact instant_read hjob.time.1 hjob.parses h
  · exact base_ne_instant (job_key (hi.attempt a ha) hk') e.symm

theorem stored_lasts {S : Setting} {s : Work} (hi : Inv S s) {k : GroupKey} {base : Str} {w : WBlock}
    (h : StoredIn S s.store k base w) : StoredIn S (lasting S s).store k base w := by
  obtain ⟨h1, h2, l, ws, h3, h4, h5⟩ := h
  exact ⟨h1, h2, l, ws, h3, (get_lasting hi).2 ⟨h4, log_lasts hi h1 h2 h3⟩, h5⟩

theorem current_lasting {S : Setting} {s : Work} {a' : Attempt} (h : a' ∈ (lasting S s).current) :
    ∃ a ∈ s.current, a'.job = a.job ∧ a'.undo = a.undo ∧ a'.undone = a.undone ∧
      ∀ q, q ∈ a'.ran ↔ q ∈ a.ran ∧ ∃ p ws, q = .append p ws := by
  obtain ⟨a, ha, rfl⟩ := List.mem_map.1 h
  refine ⟨a, ha, rfl, rfl, rfl, ?_⟩
  intro q
  rw [List.mem_filter]
  cases q <;> simp

theorem goes_lasting {S : Setting} {s : Work} (hi : Inv S s) : Goes S s (lasting S s) where
  done := rfl
  used := fun _ h => h
  fwd := by
    intro a ha
    refine ⟨_, List.mem_map.2 ⟨a, ha, rfl⟩, rfl, ?_⟩
    intro p ws h
    exact List.mem_filter.2 ⟨h, rfl⟩
  back := by
    intro a' ha'
    obtain ⟨a, h1, h2, h3, _⟩ := current_lasting ha'
    exact ⟨a, h1, h2, fun h => by rw [h3]; exact h⟩
  stored := fun _ _ _ h => stored_lasts hi h

theorem aside_lasting {S : Setting} {s : Work} {a a' : Attempt} {r : Str} (e : a'.job = a.job) (h : Aside s a r) :
    Aside (lasting S s) a' r := by
  intro b' hb'
  obtain ⟨b, h1, h2, _⟩ := current_lasting hb'
  rw [h2, e]
  exact h b h1

/-- What holds of the table holds without the objects that may go. -/
theorem inv_lasting {S : Setting} {s : Work} (hi : Inv S s) : Inv S (lasting S s) where
  nodup := lasting_nodup hi
  jobs := hi.jobs
  attempt := fun a' ha' => by
    obtain ⟨a, h1, h2, _⟩ := current_lasting ha'
    rw [h2]; exact hi.attempt a h1
  usedDone := hi.usedDone
  usedCurrent := fun a' ha' => by
    obtain ⟨a, h1, h2, _⟩ := current_lasting ha'
    rw [h2]; exact hi.usedCurrent a h1
  one := fun a' ha' b' hb' e => by
    obtain ⟨a, ha, rfl⟩ := List.mem_map.1 ha'
    obtain ⟨b, hb, rfl⟩ := List.mem_map.1 hb'
    rw [hi.one a ha b hb e]
  apart := fun a' ha' b' hb' hne => by
    obtain ⟨a, h1, h2, _⟩ := current_lasting ha'
    obtain ⟨b, g1, g2, _⟩ := current_lasting hb'
    rw [h2, g2] at hne ⊢
    exact hi.apart a h1 b g1 hne
  usedUndo := fun a' ha' r hr => by
    obtain ⟨a, h1, h2, h3, _⟩ := current_lasting ha'
    rw [h2]; exact hi.usedUndo a h1 r (h3 ▸ hr)
  undoAside := fun a' ha' r hr k ls hk => by
    obtain ⟨a, h1, h2, h3, _⟩ := current_lasting ha'
    exact aside_lasting h2 (hi.undoAside a h1 r (h3 ▸ hr) k ls (h2 ▸ hk))
  times := hi.times
  kinds := fun p x h => kind_goes (goes_lasting hi) (hi.kinds p x ((get_lasting hi).1 h).1)
  instants := fun j hj => (get_lasting hi).2 ⟨hi.instants j hj, instant_lasts hi hj⟩
  bases := fun j hj k token hk => (get_lasting hi).2 ⟨hi.bases j hj k token hk, base_lasts hi hj hk⟩
  blocks := fun d1 j d2 k ls v l w hd hk hv hl hw => stored_lasts hi (hi.blocks d1 j d2 k ls v l w hd hk hv hl hw)
  ran := fun a' ha' hu q hq => by
    obtain ⟨a, h1, h2, h3, _, h4⟩ := current_lasting ha'
    obtain ⟨h5, p, ws, rfl⟩ := (h4 q).1 hq
    obtain ⟨h6, ws', h7, h8⟩ := hi.ran a h1 (h3 ▸ hu) _ h5
    rw [h2]
    refine ⟨h6, ws', (get_lasting hi).2 ⟨h7, ?_⟩, h8⟩
    rcases mem_requests h6 with ⟨k, token, _, e⟩ | ⟨k, ls, v, l, hk, hv, hl, e⟩
    · cases e
    · cases e
      exact log_lasts hi (version_key hi hv).1 (version_key hi hv).2 ((hi.attempt a h1).logs k ls hk l hl)
  undone := fun a' ha' k hk => by
    obtain ⟨a, h1, h2, _, h3, _⟩ := current_lasting ha'
    obtain ⟨g0, g1⟩ := hi.undone a h1 k (h3 ▸ hk)
    refine ⟨h2 ▸ g0, fun v hv => ?_⟩
    obtain ⟨w, r, e1, e2, e3, e4, e5, e6⟩ := g1 v hv
    exact ⟨w, r, stored_lasts hi e1, h2 ▸ e2, e3, e4, h2 ▸ e5, aside_lasting h2 e6⟩

/-- What lasts: documents and base files of completed writes, and log files. -/
theorem lasting_kind {S : Setting} {s : Work} (hi : Inv S s) {p : List Str} {x : Stored}
    (h : (lasting S s).store.get p = some x) :
    (∃ j ∈ s.done, p = instantAt j.commit ∧ x = .file (.json (.obj j.doc))) ∨
    (∃ j ∈ s.done, ∃ k token, (k, Change.write token) ∈ j.commit.changes ∧ p = baseAt k token j.commit.ts ∧
      x = .file (.parquet 1 (j.base k))) ∨
    ∃ j ∈ s.done, ∃ k token l ws, (k, Change.write token) ∈ j.commit.changes ∧ (NamePart l.1 ∧ NamePart l.2) ∧
      p = logAt k j.commit.ts l ∧ x = .log ws := by
  obtain ⟨h1, h2⟩ := (get_lasting hi).1 h
  cases hi.kinds p x h1 with
  | unread p x h => exact absurd (.inl h) h2
  | instant j hj => exact .inl ⟨j, hj, rfl, rfl⟩
  | base j k token hj hk => exact .inr (.inl ⟨j, hj, k, token, hk, rfl, rfl⟩)
  | pending a k token ha hk => exact absurd (.inr ⟨a, k, token, ha, hk, rfl⟩) h2
  | log j k token l ws hj hk hl hw => exact .inr (.inr ⟨j, hj, k, token, l, ws, hk, hl, rfl, rfl⟩)

/-! ## What a read finds -/

theorem partition_path {S : Setting} {s : Work} (hi : Inv S s) {x : Str} (hx : PartitionOf S.o s.tree x) :
    PartitionPath S.o x := by
  rcases hx with h | ⟨h1, n, ns, hleaf, hm, rfl⟩
  · exact .inl h
  · obtain ⟨⟨z, hz, m, hzm⟩, _⟩ := (leafDir_treeOf (s := s.store) (by simp)).1 hleaf
    exact .inr ⟨h1, n, ns, fun a ha => (place_normal (hi.place hz)).2 a (by rw [hzm]; simp at ha ⊢; tauto), hm, rfl⟩

theorem site_of_path {S : Setting} {s : Work} (hi : Inv S s) {x : Str} (hx : PartitionPath S.o x)
    {f : Str × Nat} (hf : f ∈ filesOf s.tree x) : Site S x := by
  refine ⟨hx, ?_⟩
  obtain ⟨_, y, hy⟩ := (mem_filesOf hi (size := f.2)).1 hf
  rcases hi.place (get_some hy) with ⟨m, h3, _⟩ | ⟨x', m, h3, hx', _⟩
  · exfalso
    change inPartition x f.1 = _ at h3
    rcases hx with ⟨_, rfl⟩ | ⟨_, n, ns, hn, hm, rfl⟩
    · have := congrArg List.length h3
      simp [inPartition, show pathSegs ([] : Str) = [] from rfl] at this
    · rw [inPartition, pathSegs_joinWith hn] at h3
      simp only [List.cons_append, List.cons.injEq] at h3
      rw [h3.1] at hm
      exact absurd (by decide) hm
  · have := congrArg List.length h3
    change (inPartition x f.1).length = _ at this
    rw [inPartition_length hx'] at this
    simp only [inPartition, List.length_append, List.length_singleton] at this
    omega

theorem base_site {S : Setting} {s : Work} (hi : Inv S s) {x : Str} (hx : PartitionPath S.o x) {b : BaseFile}
    (hb : BaseIn (filesOf s.tree x) b) : Site S x := by
  obtain ⟨_, _, h1, _⟩ := hb; exact site_of_path hi hx h1

theorem log_site {S : Setting} {s : Work} (hi : Inv S s) {x : Str} (hx : PartitionPath S.o x) {l : LogFile}
    (hl : LogIn (filesOf s.tree x) l) : Site S x := by
  obtain ⟨_, _, h1, _⟩ := hl; exact site_of_path hi hx h1

theorem path_listable {S : Setting} {s : Work} (hi : Inv S s) {x : Str} (hx : PartitionPath S.o x) :
    Listable (filesOf s.tree x) := by
  refine ⟨?_, ?_, ?_⟩
  · intro name size h1 h2 h3
    exact (hi.listable (partition_of_site hi (site_of_path hi hx h1) ((mem_filesOf hi).1 h1).2.choose_spec)).names
      name size h1 h2 h3
  · intro b b' hb hb'
    obtain ⟨n, sz, h1, h2⟩ := hb
    exact (hi.listable (partition_of_site hi (site_of_path hi hx h1) ((mem_filesOf hi).1 h1).2.choose_spec)).unique
      b b' ⟨n, sz, h1, h2⟩ hb'
  · intro l hl
    obtain ⟨n, sz, h1, h2⟩ := hl
    exact (hi.listable (partition_of_site hi (site_of_path hi hx h1) ((mem_filesOf hi).1 h1).2.choose_spec)).logs
      l ⟨n, sz, h1, h2⟩

theorem path_extensions {S : Setting} {s : Work} (hi : Inv S s) {x : Str} (hx : PartitionPath S.o x) :
    OneExtension (filesOf s.tree x) := by
  intro l l' hl hl'
  obtain ⟨n, sz, h1, h2⟩ := hl
  exact hi.extensions (partition_of_site hi (site_of_path hi hx h1) ((mem_filesOf hi).1 h1).2.choose_spec)
    l l' ⟨n, sz, h1, h2⟩ hl'

theorem base_lasting {S : Setting} {s : Work} (hi : Inv S s) {x : Str} (hx : Site S x) {b : BaseFile}
    (hb : BaseIn (filesOf (lasting S s).tree x) b) :
    ∃ j f token, j ∈ s.done ∧ ((x, f), Change.write token) ∈ j.commit.changes ∧
      b = ⟨f, token, j.commit.ts, c!"parquet", some (FileMeta.new (baseName f token j.commit.ts) 1)⟩ := by
  obtain ⟨name, size, h1, h2, h3, h4⟩ := hb
  obtain ⟨rfl, y, hy⟩ := (mem_filesOf (inv_lasting hi)).1 h1
  rcases lasting_kind hi hy with ⟨j, hj, e, _⟩ | ⟨j, hj, k, token, hk, e, _⟩ | ⟨j, hj, k, token, l, ws, hk, hl, e, _⟩
  · exact absurd e (inPartition_ne hx)
  · obtain ⟨d1, hjob⟩ := hi.jobOf hj
    obtain ⟨rfl, rfl⟩ := inPartition_inj hx (hjob.sites _ hk) e
    rw [fromMeta_baseName (hjob.ids _ hk) (hjob.tokens _ _ hk) (digits_part hjob.time.1).2.1] at h4
    cases h4
    exact ⟨j, k.2, token, hj, hk, rfl⟩
  · obtain ⟨d1, hjob⟩ := hi.jobOf hj
    obtain ⟨_, rfl⟩ := inPartition_inj hx (hjob.sites _ hk) e
    exact absurd h3 (parquetName_log hl.1 hl.2)

/-- The parquet files that last are there at every later moment. -/
theorem lasting_parquet {S : Setting} {s0 s : Work} (hi0 : Inv S s0) (hi : Inv S s) {more : List Job}
    (hd : s.done = s0.done ++ more) {p : List Str} {size : Nat} {n : Int} {b : Batch} {footer : Schema}
    (h : (lasting S s0).tree.fileAt p = some (size, .parquet n b footer)) :
    s.tree.fileAt p = some (size, .parquet n b footer) := by
  have hsub : ∀ j ∈ s0.done, j ∈ s.done := fun j hj => by rw [hd]; simp [hj]
  have hi' := inv_lasting hi0
  by_cases hp : p = []
  · subst hp; exact (nomatch h)
  · have h' := h
    change (treeOf _).fileAt p = _ at h'
    rw [fileAt_treeOf hi'.paths.nonempty hp] at h'
    obtain ⟨x, hx, e⟩ := Option.map_eq_some_iff.1 h'
    rcases lasting_kind hi0 hx with ⟨j, hj, _, rfl⟩ | ⟨j, hj, k, token, hk, rfl, rfl⟩ | ⟨j, hj, k, token, l, ws, hk, hl, _, rfl⟩
    · cases e
    · rw [hi.fileAt hp (hi.bases j (hsub j hj) k token hk), ← h, hi'.fileAt hp hx]
    · cases e

theorem held_lasting {S : Setting} {s0 : Work} (hi0 : Inv S s0) {k : GroupKey} {base : Str} {l : Str × Str}
    (hk : KeyOk S k) (hb : WriterTimestamp base) (hl : NamePart l.1 ∧ NamePart l.2) {path : Str}
    (hp : pathSegs path = logAt k base l) : heldIn (lasting S s0) path = blocksAt s0.store (logAt k base l) := by
  unfold heldIn blocksAt
  rw [hp]
  congr 1
  cases h : s0.store.get (logAt k base l) with
  | some x => exact (get_lasting hi0).2 ⟨h, log_lasts hi0 hk hb hl⟩
  | none =>
    cases h' : (lasting S s0).store.get (logAt k base l) with
    | none => rfl
    | some x => rw [((get_lasting hi0).1 h').1] at h; cases h

theorem later_after {S : Setting} (hmono : MonotoneTz S.ltz) (hsec : WholeSecondsTz S.ltz) {done : List Job} {j0 : Job}
    (hj0 : j0 ∈ done) {before : List Job} (hjob : JobOk S before j0) {w : WBlock} (hw : LaterBlock S done w) :
    GoodBlock S.C S.ltz S.tz w ∧ WrittenAfter S.ltz S.tz j0.commit.ts w := by
  obtain ⟨hg, i, h1, h2, h3⟩ := hw
  refine ⟨hg, ?_⟩
  obtain ⟨i', d, g1, g2⟩ := hg.time
  have : i' = i := by
    unfold WrittenBy at g1 h1
    rw [h1] at g1
    exact (Option.some.inj g1).symm
  subst this
  obtain ⟨e, he⟩ := hjob.parses
  exact ⟨i', d, e, g1, g2, he,
    (writer_before hmono hsec hjob.time.1 h2.1 (by rw [h2.2, hjob.time.2]) he g2).2.1 (h3 j0 hj0)⟩

theorem log_file_name {f base : Str} {l : Str × Str} {m : Option FileMeta} :
    LogFile.fileName ⟨f, base, c!"log", l.1, l.2, m⟩ = logName f base l.1 l.2 := by
  simp [LogFile.fileName, logName]

/-- The partitions of lasting objects stay. -/
theorem partitions_works {S : Setting} {s0 s : Work} (hi0 : Inv S s0) (hs : Works S s0 s) {x : Str}
    (hx : PartitionOf S.o (lasting S s0).tree x) : PartitionOf S.o s.tree x := by
  have hi := inv_works hi0 hs
  have hi' := inv_lasting hi0
  obtain ⟨more, hd⟩ := done_works hs
  have hsub : ∀ j ∈ s0.done, j ∈ s.done := fun j hj => by rw [hd]; simp [hj]
  rcases hx with ⟨h1, h2⟩ | ⟨h1, n, ns, hleaf, hm, rfl⟩
  · exact .inl ⟨h1, h2⟩
  · obtain ⟨⟨⟨z, y⟩, hz, m, hzm⟩, _⟩ := (leafDir_treeOf (s := (lasting S s0).store) (by simp)).1 hleaf
    change z = _ at hzm
    subst hzm
    have hn : ∀ a ∈ n :: ns, NormalName a := fun a ha =>
      (place_normal (hi'.place hz)).2 a (by simp at ha ⊢; tauto)
    have hg : (lasting S s0).store.get (inPartition (joinWith '/' (n :: ns)) m) = some y := by
      rw [inPartition, pathSegs_joinWith hn]
      exact get_of_mem hi'.nodup hz
    have hsite : Site S (joinWith '/' (n :: ns)) :=
      site_of_path hi' (.inr ⟨h1, n, ns, hn, hm, rfl⟩) ((mem_filesOf hi' (size := 1)).2 ⟨rfl, y, hg⟩)
    rcases lasting_kind hi0 hg with ⟨j, hj, e, _⟩ | ⟨j, hj, k, token, hk, e, _⟩ |
        ⟨j, hj, k, token, l, ws, hk, hl, e, rfl⟩
    · exact absurd e (inPartition_ne hsite)
    · refine partition_of_site hi hsite (name := m) ?_ (y := .file (.parquet 1 (j.base k)))
      rw [e]
      exact hi.bases j (hsub j hj) k token hk
    · obtain ⟨d1, hjob⟩ := hi0.jobOf hj
      rw [e] at hg
      have h2 := ((get_lasting hi0).1 hg).1
      have h3 := (grows_works hi0 hs (job_key hjob hk) hjob.time.1 hl).2 (by rw [h2]; exact (fun e => nomatch e))
      obtain ⟨y', hy'⟩ := Option.ne_none_iff_exists'.1 h3
      exact partition_of_site hi hsite (name := m) (y := y') (by rw [e]; exact hy')

/-- At every later moment the storage is as writers may leave it while the read is running. -/
theorem meanwhile_works {S : Setting} {s0 s : Work} (hmono : MonotoneTz S.ltz) (hsec : WholeSecondsTz S.ltz)
    (hi0 : Inv S s0) (hs : Works S s0 s) {j0 : Job} (hj0 : j0 ∈ s0.done) {tl : Timeline}
    (htl : ∀ i ∈ tl.completed, ∃ c ∈ s0.history, ∃ d, parseDatetime S.ltz c.ts S.tz = .ok d ∧
      i = ⟨c.ts, c.action, .completed, d.epochMillis⟩) :
    Meanwhile S.C S.ltz S.tz S.o j0.commit.ts tl (lasting S s0).tree (heldIn (lasting S s0)) s.tree := by
  have hi := inv_works hi0 hs
  have hi' := inv_lasting hi0
  obtain ⟨more, hd⟩ := done_works hs
  have hsub : ∀ j ∈ s0.done, j ∈ s.done := fun j hj => by rw [hd]; simp [hj]
  obtain ⟨d1, hjob0⟩ := hi0.jobOf hj0
  have hpath : ∀ x, PartitionOf S.o (lasting S s0).tree x → PartitionPath S.o x := fun x hx => partition_path hi' hx
  refine ⟨hi.treeWF, fun x hx => path_extensions hi hx, ?_, ?_, fun x b hw => partitions_works hi0 hs hw.part, ?_, ?_, ?_,
    ?_, ?_⟩
  · intro i hi''
    obtain ⟨c, hc, d, _, rfl⟩ := htl i hi''
    obtain ⟨j, hj, rfl⟩ := mem_commitsOf.1 hc
    have h1 : docOf s.tree ⟨j.commit.ts, j.commit.action, .completed, d.epochMillis⟩ = some j.doc :=
      docOf_eq (size := 1) (hi.fileAt (p := instantAt j.commit) (by simp [instantAt]) (hi.instants j (hsub j hj)))
    have h2 : docOf (lasting S s0).tree ⟨j.commit.ts, j.commit.action, .completed, d.epochMillis⟩ = some j.doc :=
      docOf_eq (size := 1) (hi'.fileAt (p := instantAt j.commit) (by simp [instantAt]) (hi'.instants j hj))
    rw [h1, h2]
  · rintro _ _ path sc _ _ _ ⟨size, n, b, h⟩
    exact ⟨size, n, b, lasting_parquet hi0 hi hd h⟩
  · rintro x b ⟨hx, hb, _⟩
    obtain ⟨j, f, token, hj, hk, rfl⟩ := base_lasting hi0 (base_site hi' (hpath x hx) hb) hb
    exact (base_there hi (hsub j hj) hk).2
  · rintro x b _ rows ⟨size, n, footer, h⟩
    exact ⟨size, n, footer, lasting_parquet hi0 hi hd h⟩
  · rintro x _ ⟨hx, _⟩ l hl _
    obtain ⟨j, f, token, l', ws, hj, hk, hl', hg, rfl⟩ := log_in hi' (log_site hi' (hpath x hx) hl) hl
    obtain ⟨d1, hjob⟩ := hi0.jobOf hj
    have h3 := (grows_works hi0 hs (job_key hjob hk) hjob.time.1 hl').2
      (by rw [((get_lasting hi0).1 hg).1]; exact (fun e => nomatch e))
    obtain ⟨y', hy'⟩ := Option.ne_none_iff_exists'.1 h3
    obtain ⟨ws', rfl, _⟩ := kind_log hi (job_key hjob hk) hjob.time.1 hl' (hi.kinds _ _ hy')
    exact ⟨_, log_there hi (job_key hjob hk) hjob.time.1 hl' hy', rfl⟩
  · intro x b hx hb hle
    have hsite := base_site hi hx hb
    obtain ⟨j, f, token, hj, hk, rfl⟩ := base_in hi hsite hb
    have hj' := before_known hi hd hj0 hj hle
    exact ⟨partition_of_site hi' hsite (hi'.bases j hj' _ _ hk), (base_there hi' hj' hk).2⟩
  · rintro _ x _ ⟨hx, _⟩ l hl _
    obtain ⟨j, f, token, l', ws, hj, hk, hl', hg, rfl⟩ := log_in hi (log_site hi (hpath x hx) hl) hl
    obtain ⟨d1, hjob⟩ := hi.jobOf hj
    have hkey := job_key hjob hk
    obtain ⟨⟨more, h1, h2⟩, _⟩ := grows_works hi0 hs hkey hjob.time.1 hl'
    have hp := log_path (k := (x, f)) (m := some (FileMeta.new (logName f j.commit.ts l'.1 l'.2) 1)) hkey hjob.time.1 hl'
    refine ⟨more, ?_, fun w hw => later_after hmono hsec hj0 hjob0 (h2 w hw)⟩
    rw [held_lasting hi0 hkey hjob.time.1 hl' hp, ← h1]
    refine ⟨1, .bytes (logBytes ws), ?_, ?_⟩
    · rw [hp]
      exact hi.fileAt (by simp [logAt, inPartition]) hg
    · unfold blocksAt; rw [hg]; rfl

/-! ## The data files that last -/

/-- What the parquet file at the path holds. -/
def parquetIn (t : Tree) (path : Str) : Batch :=
  match t.fileAt (pathSegs path) with
  | some (_, .parquet _ b _) => b
  | _ => ⟨[], []⟩

theorem base_path {S : Setting} {k : GroupKey} {token ts : Str} {m : Option FileMeta} (hk : KeyOk S k)
    (ht : NamePart token) (hb : WriterTimestamp ts) :
    pathSegs (pathPush k.1 (BaseFile.fileName ⟨k.2, token, ts, c!"parquet", m⟩)) = baseAt k token ts := by
  have : BaseFile.fileName ⟨k.2, token, ts, c!"parquet", m⟩ = baseName k.2 token ts := by
    simp [BaseFile.fileName, baseName]
  rw [this, pathSegs_pathPush (base_normal hk.2 ht (digits_part hb))]
  rfl

/-- What is known of a base file that lasts. -/
theorem base_holds {S : Setting} {s : Work} (hi : Inv S s) {x : Str} (hx : PartitionOf S.o (lasting S s).tree x)
    {b : BaseFile} (hb : BaseIn (filesOf (lasting S s).tree x) b) :
    ∃ j f token, j ∈ s.done ∧ ((x, f), Change.write token) ∈ j.commit.changes ∧
      b = ⟨f, token, j.commit.ts, c!"parquet", some (FileMeta.new (baseName f token j.commit.ts) 1)⟩ ∧
      (lasting S s).tree.fileAt (pathSegs (pathPush x b.fileName)) = some (1, .parquet 1 (j.base (x, f)) (j.base (x, f)).schema) ∧
      parquetIn (lasting S s).tree (pathPush x b.fileName) = j.base (x, f) := by
  have hi' := inv_lasting hi
  obtain ⟨j, f, token, hj, hk, rfl⟩ := base_lasting hi (base_site hi' (partition_path hi' hx) hb) hb
  obtain ⟨d1, hjob⟩ := hi.jobOf hj
  have hf := hi'.fileAt (p := baseAt (x, f) token j.commit.ts) (by simp [baseAt, inPartition]) (hi'.bases j hj _ _ hk)
  have hp := base_path (m := some (FileMeta.new (baseName f token j.commit.ts) 1)) (job_key hjob hk)
    (hjob.tokens _ _ hk) hjob.time.1
  rw [← hp] at hf
  refine ⟨j, f, token, hj, hk, rfl, hf, ?_⟩
  unfold parquetIn
  rw [hf]
  rfl

theorem data_lasting {S : Setting} {s : Work} (hi : Inv S s) :
    DataFiles S.C S.ltz S.tz S.pre S.o (lasting S s).tree (parquetIn (lasting S s).tree) (heldIn (lasting S s)) ∧
    OneRowPerKey S.o (lasting S s).tree (parquetIn (lasting S s).tree) ∧
    HeldOnly S.o (lasting S s).tree (heldIn (lasting S s)) := by
  have hi' := inv_lasting hi
  refine ⟨⟨?_, ?_, ?_⟩, ?_, ?_⟩
  · intro x hx b hb
    obtain ⟨j, f, token, hj, hk, _, h1, h2⟩ := base_holds hi hx hb
    obtain ⟨d1, hjob⟩ := hi.jobOf hj
    obtain ⟨b1, b3⟩ := hjob.batches _ token hk
    rw [h2]
    exact ⟨⟨_, _, _, h1⟩, b1, fun hm => (b3 hm.1).2⟩
  · intro _ x hx l hl
    obtain ⟨j, f, token, l', ws, hj, hk, hl', hg, rfl⟩ := log_in hi' (log_site hi' (partition_path hi' hx) hl) hl
    obtain ⟨d1, hjob⟩ := hi.jobOf hj
    have hp := log_path (k := (x, f)) (m := some (FileMeta.new (logName f j.commit.ts l'.1 l'.2) 1)) (job_key hjob hk)
      hjob.time.1 hl'
    have hw : heldIn (lasting S s) (pathPush x (LogFile.fileName ⟨f, j.commit.ts, c!"log", l'.1, l'.2,
        some (FileMeta.new (logName f j.commit.ts l'.1 l'.2) 1)⟩)) = ws := by
      unfold heldIn; rw [hp, hg]; rfl
    rw [hw]
    refine ⟨⟨1, .bytes (logBytes ws), ?_, rfl⟩, ?_⟩
    · rw [hp]; exact hi'.fileAt (by simp [logAt, inPartition]) hg
    · intro w hm
      exact (stored_ok hi' ⟨job_key hjob hk, hjob.time.1, l', ws, hl', hg, hm⟩).good
  · intro _ x hx b hb l hl e1 e2
    obtain ⟨j, f, token, hj, hk, rfl, _, h2⟩ := base_holds hi hx hb
    obtain ⟨j', f', token', l', ws, hj', hk', hl', hg, rfl⟩ := log_in hi' (log_site hi' (partition_path hi' hx) hl) hl
    cases (show f' = f from e1)
    cases hi.unique hj' hj e2
    obtain ⟨d1, hjob⟩ := hi.jobOf hj
    have hp := log_path (k := (x, f)) (m := some (FileMeta.new (logName f j.commit.ts l'.1 l'.2) 1)) (job_key hjob hk)
      hjob.time.1 hl'
    rw [h2]
    intro w hw
    unfold heldIn at hw
    rw [hp, hg] at hw
    have := (stored_ok hi' ⟨job_key hjob hk, hjob.time.1, l', ws, hl', hg, hw⟩).fit w (by simp)
    have e : columnsBy (lasting S s).done j.commit.ts (x, f) = (j.base (x, f)).schema := by
      show columnsBy s.done j.commit.ts (x, f) = _
      simp [columnsBy, jobAt_mem (fun j hj j' hj' => hi.unique hj hj') hj]
    rw [e] at this
    exact this
  · intro hm x hx b hb
    obtain ⟨j, f, token, hj, hk, _, h1, h2⟩ := base_holds hi hx hb
    obtain ⟨d1, hjob⟩ := hi.jobOf hj
    rw [h2]
    exact ((hjob.batches _ token hk).2 hm.1).1
  · intro x hx n hn hno
    unfold heldIn
    rw [pathSegs_pathPush hn]
    change Option.elim ((lasting S s).store.get (inPartition x n)) _ _ = _
    cases hg : (lasting S s).store.get (inPartition x n) with
    | none => rfl
    | some y =>
      have hsite := site_of_path hi' (partition_path hi' hx) ((mem_filesOf hi' (size := 1)).2 ⟨rfl, y, hg⟩)
      rcases lasting_kind hi hg with ⟨j, hj, _, rfl⟩ | ⟨j, hj, k, token, hk, _, rfl⟩ |
          ⟨j, hj, k, token, l, ws, hk, hl, e, rfl⟩
      · rfl
      · rfl
      · exfalso
        obtain ⟨d1, hjob⟩ := hi.jobOf hj
        rw [e] at hg
        obtain ⟨rfl, rfl⟩ := inPartition_inj hsite (hjob.sites _ hk) e
        exact hno _ (log_there hi' (job_key hjob hk) hjob.time.1 hl hg) log_file_name

/-! ## The depth of directories -/

theorem height_addFile (n : Str) (c : Content) (t : Tree) : (addFile n c t).height = t.height := by
  induction t with
  | nil => rfl
  | file n' s c' rest ih => unfold addFile; split <;> simp [Tree.height, ih]
  | dir d sub rest _ ih => simp [addFile, Tree.height, ih]

theorem height_inDir (d : Str) (f : Tree → Tree) (k : Nat) (hf : ∀ t, t.height ≤ k → (f t).height ≤ k) (t : Tree)
    (ht : t.height ≤ k + 1) : (inDir d f t).height ≤ k + 1 := by
  induction t with
  | nil =>
    have := hf .nil (Nat.zero_le _)
    simp [inDir, Tree.height]
    omega
  | file n s c rest ih => exact ih ht
  | dir d' sub rest _ ih =>
    simp only [Tree.height] at ht
    unfold inDir
    split
    · have := hf sub (by omega)
      simp only [Tree.height]
      omega
    · have := ih (by omega)
      simp only [Tree.height]
      omega

theorem height_addAt (p : List Str) (c : Content) (t : Tree) (k : Nat) (hp : p.length ≤ k + 1) (ht : t.height ≤ k) :
    (addAt p c t).height ≤ k := by
  induction p generalizing t k with
  | nil => exact ht
  | cons d p ih =>
    cases p with
    | nil => rw [show addAt [d] c t = addFile d c t from rfl, height_addFile]; exact ht
    | cons n ns =>
      cases k with
      | zero => simp at hp
      | succ k => exact height_inDir d _ k (fun t ht => ih t k (by simp at hp ⊢; omega) ht) t ht

theorem height_treeOf (s : Objects) (k : Nat) (h : ∀ e ∈ s, e.1.length ≤ k + 1) : (treeOf s).height ≤ k := by
  induction s with
  | nil => exact Nat.zero_le _
  | cons e s ih =>
    exact height_addAt _ _ _ _ (h e (by simp)) (ih (fun e he => h e (by simp [he])))

/-- Directories are not nested deeper than partitions, and the timeline directory. -/
theorem Inv.height {S : Setting} {s : Work} (hi : Inv S s) : s.tree.height ≤ S.depth + 1 := by
  refine height_treeOf _ _ (fun e he => ?_)
  rcases hi.place he with ⟨m, h3, _⟩ | ⟨x', m, h3, hx', _⟩
  · rw [h3]; simp
  · rw [h3, inPartition_length hx']; omega

end Hudi
