import Verif.Lemmas.Cleaner
import Verif.Props.WriterChanges

/-!
# Lemmas for C92: what a cleaner leaves to reads of changes
-/

namespace Hudi
open Spec

/-- What a cleaner leaves alone: the versions that were current at the time up to which it cleans, or later. -/
theorem kept_at {S : Setting} {js : List Job} (hj : ∀ d1 j d2, js = d1 ++ j :: d2 → JobOk S d1 j) {k : GroupKey}
    {T : Str} {v : Version} (hv : tableAt (commitsOf js) T k = some v) {r : Str} (hr : (compare r T).isLE) :
    ¬ Superseded js r k v.base := by
  have hw := wf_commits hj
  obtain ⟨h1, h2, h3, c0, he, e3⟩ := endsWith_of hw hv
  rintro ⟨j, hm, hlt, hle, hch⟩
  have hmem : j.commit ∈ commitsOf js := mem_commitsOf.2 ⟨j, hm, rfl⟩
  have hle' : (compare j.commit.ts T).isLE := Std.TransCmp.isLE_trans hle hr
  have hord := hw.ordered
  have hmem' : j.commit ∈ (commitsOf js).filter (fun c => (compare c.ts T).isLE) := List.mem_filter.2 ⟨hmem, hle'⟩
  rw [he.upTo] at hmem'
  rw [he.split] at hord
  rcases List.mem_append.1 hmem' with h | h
  · have := (List.pairwise_append.1 hord).2.2 j.commit h c0 (by simp)
    rw [e3] at this
    exact cmp_irrefl (cmp_trans hlt this)
  · rcases List.mem_cons.1 h with h | h
    · rw [h, e3] at hlt
      exact cmp_irrefl hlt
    · have h4 := he.quiet _ h
      rcases hch with ⟨token, hch⟩ | hch
      · have h3 := (hw.of_mem hmem).2 hch
        rcases h4 with h4 | ⟨ls, h4⟩ <;> rw [h4] at h3 <;> cases h3
      · have h3 := (hw.of_mem hmem).2 hch
        rcases h4 with h4 | ⟨ls, h4⟩ <;> rw [h4] at h3 <;> cases h3

theorem tableAt_key {S : Setting} {s : Work} (hi : Inv S s) {k : GroupKey} {T : Str} {v : Version}
    (hv : tableAt s.history T k = some v) : KeyOk S k ∧ NamePart v.token ∧ WriterTimestamp v.base := by
  obtain ⟨h1, h2, h3, c0, he, e3⟩ := endsWith_of hi.wf hv
  have hmem : c0 ∈ s.history := by rw [he.split]; simp
  obtain ⟨j, hj, rfl⟩ := mem_commitsOf.1 hmem
  obtain ⟨d1, hjob⟩ := hi.jobOf hj
  have hk := changeOf_mem he.write
  exact ⟨job_key hjob hk, hjob.tokens _ _ hk, e3 ▸ hjob.time.1⟩

theorem basePath_segs {S : Setting} {k : GroupKey} {token ts : Str} (hk : KeyOk S k) (ht : NamePart token)
    (hb : WriterTimestamp ts) : pathSegs (basePathOf k token ts) = baseAt k token ts := by
  unfold basePathOf
  rw [pathSegs_pathPush (base_normal hk.2 ht (digits_part hb))]
  rfl

/-- At every later moment the storage is as writers and cleaners may leave it while changes are read. -/
theorem meanwhileAfter_sweep {S : Setting} {s0 v : Work} (hmono : MonotoneTz S.ltz) (hsec : WholeSecondsTz S.ltz)
    (hi0 : Inv S s0) (hs : Works S s0 v) {j0 : Job} (hj0 : j0 ∈ s0.done) {r : Str} (hr : (compare r j0.commit.ts).isLE)
    {gone : List (List Str)} (hg : Swept S r v gone) {tl : Timeline}
    (htl : ∀ i ∈ tl.completed, ∃ c ∈ s0.history, ∃ d, parseDatetime S.ltz c.ts S.tz = .ok d ∧
      i = ⟨c.ts, c.action, .completed, d.epochMillis⟩) {start : Str} {ss : List FileSlice}
    (hss : ShowsTable (changedAt s0.history start j0.commit.ts) (fun _ => True) ss) :
    MeanwhileAfter S.C S.ltz S.tz S.o j0.commit.ts tl (lasting S s0).tree ss (sweep v gone).tree := by
  have hi := inv_works hi0 hs
  obtain ⟨more, hd⟩ := done_works hs
  obtain ⟨f1, f2⟩ := files_after hmono hsec hi0 hs hj0
  have hspan : ∀ x ∈ ss, ∃ h1 h2 h3 c0 token,
      SpanSlice s0.history start j0.commit.ts (sliceKey x) x h1 h2 h3 c0 token := by
    intro x hx
    obtain ⟨w, hw⟩ := Option.ne_none_iff_exists'.1 ((hss.groups (sliceKey x)).1 ⟨x, hx, rfl⟩).2
    exact spanSlice_of hi0.wf rfl hw (hss.versions x hx w hw)
  have hkept : ∀ {k w}, tableAt s0.history j0.commit.ts k = some w → ¬ Superseded v.done r k w.base :=
    fun hw hsup => kept_at hi0.jobs hw hr (superseded_known hi hd hj0 hr hsup)
  refine ⟨?_, ?_, ?_⟩
  · intro i him
    rw [← (meanwhile_works hmono hsec hi0 hs hj0 htl).docs i him]
    unfold docOf
    rw [sweep_fileAt hi]
    obtain ⟨c, hc, d, _, rfl⟩ := htl i him
    exact fun hm => old_instant (c := c) hi (hg.old hm)
  · intro x hx b hb
    obtain ⟨h1, h2, h3, c0, token, hsl⟩ := hspan x hx
    obtain ⟨hk, ht, hts⟩ := tableAt_key hi0 hsl.table
    obtain ⟨size, n, footer, h⟩ := f1 _ b hb
    refine ⟨size, n, footer, ?_⟩
    rw [hsl.base, basePath_segs hk ht hts] at h ⊢
    rw [sweep_fileAt hi]
    · exact h
    · exact fun hm => hkept hsl.table (old_base hi hk ht hts (hg.old hm)).1
  · intro _ x hx l hl ws hws _
    obtain ⟨h1, h2, h3, c0, token, hsl⟩ := hspan x hx
    obtain ⟨hk, ht, hts⟩ := tableAt_key hi0 hsl.table
    obtain ⟨more, ⟨size, c, h4, h5⟩, h6⟩ := f2 _ ws hws
    refine ⟨more, ⟨size, c, ?_, h5⟩, h6⟩
    obtain ⟨c', hap, _⟩ := (hsl.named (l.version, l.writeToken)).1 ⟨l, hl, rfl⟩
    have hparts : NamePart l.version ∧ NamePart l.writeToken := by
      obtain ⟨b1, b2, ls, w, e1, e2, e3, e4, _⟩ := hap
      obtain ⟨d1, j, d2, hd', rfl, rfl, _⟩ := split_commits e1
      exact (hi0.jobs d1 j d2 hd').logs _ ls e2 _ e3
    rw [hsl.paths l hl, logPath_segs hk hts hparts] at h4 ⊢
    rw [sweep_fileAt hi]
    · exact h4
    · exact fun hm => hkept hsl.table (old_log hi hk hparts hts (hg.old hm))

/-- The log files of versions that were current then are as they were. -/
theorem blocks_sweep {S : Setting} {v : Work} (hi : Inv S v) {j0 : Job} {r : Str}
    (hr : (compare r j0.commit.ts).isLE) {gone : List (List Str)} (hg : Swept S r v gone) {k : GroupKey} {w : Version}
    (hw : tableAt v.history j0.commit.ts k = some w) {l : Str × Str} (hl : NamePart l.1 ∧ NamePart l.2) :
    (sweep v gone).store.get (logAt k w.base l) = v.store.get (logAt k w.base l) := by
  obtain ⟨hk, ht, hts⟩ := tableAt_key hi hw
  exact get_sweep (fun hm => kept_at hi.jobs hw hr (old_log hi hk hl hts (hg.old hm)))

end Hudi
