import Verif.Lemmas.Changes
import Verif.Props.Incremental
import Verif.Props.Records

/-!
# C60: incremental reads return what the commits of a span changed

Incremental reads are compared with the model of a table in `Verif/Spec/Changes.lean`.
-/

namespace Hudi
open Spec

theorem writeOf_wf {h : History} {n : Nat} (hw : h.WF n) {h1 h2 : History} {c : HCommit}
    (he : h = h1 ++ c :: h2) {k : GroupKey} {ch : Change} (hch : (k, ch) ∈ c.changes) {w : Write}
    (hwr : writeOf h1 c.ts k ch = some w) : w.WF ∧ w.base.fileId = w.fileId := by
  have hc : c ∈ h := by rw [he]; simp
  obtain ⟨c0, token, hr⟩ := recordsFor_of hw he hch hwr
  have i1 := hw.ids c hc _ hch
  have i2 := hw.tokens c0 hr.mem _ _ (changeOf_mem hr.write)
  have i3 := digits_part (hw.times c0 hr.mem).1
  have hid : w.fileId = k.2 := congrArg Prod.snd hr.id
  simp only at i1
  refine ⟨⟨?_, ?_, ?_⟩, by rw [hr.base, hid]⟩
  · rw [hr.base]
    refine ⟨i1.2.1, i2.2.1, i3.2.1, (by show '.' ∉ c!"parquet"; decide), ?_, rfl⟩
    unfold BaseFile.fileName
    simp only [List.mem_append, List.mem_cons, List.not_mem_nil, or_false, not_or]
    exact ⟨⟨⟨⟨⟨⟨i1.2.2.2.1, by decide⟩, i2.2.2.2.1⟩, by decide⟩, i3.2.2.2.1⟩, by decide⟩, by decide⟩
  · intro l hl
    obtain ⟨e, ⟨a, b, ls, v, g1, g2, g3, _⟩, rfl⟩ := (hr.logs l).1 hl
    obtain ⟨j1, j2⟩ := hw.logs c hc k ls g2 e g3
    exact ⟨i1.2.1, i3.2.2.1, j1.2.2.1, j2.2.1, i1.1, i3.1, j1.1, j2.1, rfl⟩
  · intro l hl
    obtain ⟨e, _, rfl⟩ := (hr.logs l).1 hl
    exact ⟨hid.symm, rfl, by rw [hr.base]⟩

/-- What a handle opened on `t0` knows of the commits `h`, and what the storage `t` says of those that replaced file
groups. -/
structure Knows (ltz : LocalTz) (tz : Str) (t0 t : Tree) (h : History) : Prop where
  names : ∀ n ∈ timelineNames t0, NormalName n
  timeline : ∀ name, ((∃ m ∈ listFiles t0 c!".hoodie", m.name = name) ∧
      ∃ i, CompletedFile ltz tz [.commit, .deltaCommit, .replaceCommit] name i) ↔
    ∃ c ∈ h, name = c.ts ++ c!"." ++ suffix c.action .completed
  replaced : ∀ c ∈ h, c.action = .replaceCommit → ∃ md size,
    t.fileAt [c!".hoodie", c.ts ++ c!"." ++ suffix c.action .completed] = some (size, .json (.obj md)) ∧
    ∀ x f, Replaces md x f ↔ ((x, f), Change.replace) ∈ c.changes

theorem knows_stored {ltz : LocalTz} {tz : Str} {o : Opts} {t : Tree} {h : History} (htree : TreeWF t)
    (hst : Stores ltz tz o t h) : Knows ltz tz t t h :=
  ⟨timelineNames_normal htree, hst.timeline, hst.replaced⟩

/-- The file slices of a span, from the documents of its commits. -/
theorem changed_slices {E : Env} {o : Opts} {t0 t : Tree} {tb : Table} {tz : Str} {h : History} {n : Nat}
    (hmono : MonotoneTz E.ltz) (hload : Timeline.load E o t0 = .ok tb.timeline)
    (hzone : timezoneOf tb.timeline.opts = .ok tz) (hw : h.WF n) (hk : Knows E.ltz tz t0 t h)
    (hdocs : StoresDocs t h) {start stop : Str} (hs : WriterTimestamp start ∧ start.length = n)
    (he : WriterTimestamp stop ∧ stop.length = n) (hps : ∃ d, parseDatetime E.ltz start tz = .ok d)
    (hpe : ∃ d, parseDatetime E.ltz stop tz = .ok d) :
    ∃ ss, tb.fileSlicesBetween E t (some start) (some stop) = .ok ss ∧
      ShowsTable (changedAt h start stop) (fun _ => True) ss := by
  obtain ⟨ds, hds⟩ := hps
  obtain ⟨de, hde⟩ := hpe
  obtain ⟨k1, k2, _⟩ := timeline_of hload hzone hw hk.timeline
  -- instants of the range are commits of the span
  have hspan : ∀ c ∈ h, ∀ d, parseDatetime E.ltz c.ts tz = .ok d →
      (InSpan start stop c ↔ ds.epochMillis < d.epochMillis ∧ d.epochMillis ≤ de.epochMillis) := by
    intro c hc d hd
    obtain ⟨q1, q2⟩ := hw.times c hc
    unfold InSpan
    rw [C04_same_width_partial E.ltz hmono tz _ _ _ _ q1 he.1 (by rw [q2, he.2]) hd hde,
      C04_same_width_partial E.ltz hmono tz _ _ _ _ hs.1 q1 (by rw [q2, hs.2]) hds hd,
      Int.isLE_compare, Int.compare_eq_lt]
  have hwi : ∀ i, Within tb.timeline (some ds.epochMillis) (some de.epochMillis) i ↔
      ∃ c ∈ h, InSpan start stop c ∧ ∃ d, parseDatetime E.ltz c.ts tz = .ok d ∧
        i = ⟨c.ts, c.action, .completed, d.epochMillis⟩ := by
    intro i
    constructor
    · rintro ⟨hi, hb, hb'⟩
      obtain ⟨c, hc, d, hd, rfl⟩ := k1 i hi
      exact ⟨c, hc, (hspan c hc d hd).2 ⟨hb _ rfl, hb' _ rfl⟩, d, hd, rfl⟩
    · rintro ⟨c, hc, hin, d, hd, rfl⟩
      obtain ⟨d', hd', hi⟩ := k2 c hc
      rw [hd] at hd'; cases hd'
      obtain ⟨x1, x2⟩ := (hspan c hc d hd).1 hin
      exact ⟨hi, by rintro m hm; cases hm; exact x1, by rintro m hm; cases hm; exact x2⟩
  -- the writes they record
  have hex : ∀ i, ∃ ws, Within tb.timeline (some ds.epochMillis) (some de.epochMillis) i →
      ∃ h1 c h2 md, h = h1 ++ c :: h2 ∧ InSpan start stop c ∧ c.ts = i.timestamp ∧ docOf t i = some md ∧
        RecordsWrites md ws ∧ (ws.map Write.id).Nodup ∧ (i.action = .replaceCommit → ReadableReplaced md) ∧
        ∀ w, w ∈ ws ↔ ∃ k ch, (k, ch) ∈ c.changes ∧ writeOf h1 c.ts k ch = some w := by
    intro i
    by_cases hi : Within tb.timeline (some ds.epochMillis) (some de.epochMillis) i
    · obtain ⟨c, hc, hin, d, hd, rfl⟩ := (hwi i).1 hi
      obtain ⟨h1, h2, rfl⟩ := List.append_of_mem hc
      obtain ⟨md, size, ws, g1, g2, g3, g4, g5⟩ := hdocs.docs h1 c h2 rfl
      exact ⟨ws, fun _ => ⟨h1, c, h2, md, rfl, hin, rfl, docOf_eq g1, g2, g3, g4, g5⟩⟩
    · exact ⟨[], fun h => absurd h hi⟩
  choose ws hws using hex
  have hP : ∀ w, (∃ i, Within tb.timeline (some ds.epochMillis) (some de.epochMillis) i ∧ w ∈ ws i) ↔
      ∃ h1 c h2 k ch, h = h1 ++ c :: h2 ∧ InSpan start stop c ∧ (k, ch) ∈ c.changes ∧
        writeOf h1 c.ts k ch = some w := by
    intro w
    constructor
    · rintro ⟨i, hi, hm⟩
      obtain ⟨h1, c, h2, md, e1, e2, _, _, _, _, _, e3⟩ := hws i hi
      obtain ⟨k, ch, e4, e5⟩ := (e3 w).1 hm
      exact ⟨h1, c, h2, k, ch, e1, e2, e4, e5⟩
    · rintro ⟨h1, c, h2, k, ch, e1, e2, e4, e5⟩
      have hc : c ∈ h := by rw [e1]; simp
      obtain ⟨d, hd, _⟩ := k2 c hc
      have hi := (hwi ⟨c.ts, c.action, .completed, d.epochMillis⟩).2 ⟨c, hc, e2, d, hd, rfl⟩
      refine ⟨_, hi, ?_⟩
      obtain ⟨h1', c', h2', md, f1, _, f2, _, _, _, _, f3⟩ := hws _ hi
      obtain ⟨rfl, rfl, rfl⟩ := split_unique hw.ordered e1 f1 f2.symm
      exact (f3 w).2 ⟨k, ch, e4, e5⟩
  -- the base file of a write
  have hrec : ∀ w, (∃ i, Within tb.timeline (some ds.epochMillis) (some de.epochMillis) i ∧ w ∈ ws i) →
      ∃ c ∈ h, InSpan start stop c ∧ (∃ ch, (w.id, ch) ∈ c.changes) ∧
        ∃ c0 token, RecordsFor h c w.id w c0 token := by
    intro w hPw
    obtain ⟨h1, c, h2, k, ch, e1, e2, e3, e4⟩ := (hP w).1 hPw
    obtain ⟨c0, token, hr⟩ := recordsFor_of hw e1 e3 e4
    have hid := hr.id
    subst hid
    exact ⟨c, by rw [e1]; simp, e2, ⟨ch, e3⟩, c0, token, hr⟩
  have hmem_eq : ∀ c ∈ h, ∀ c' ∈ h, c.ts = c'.ts → c = c' := by
    intro c hc c' hc' e
    obtain ⟨a, b, e1⟩ := List.append_of_mem hc
    obtain ⟨a', b', e2⟩ := List.append_of_mem hc'
    exact (split_unique hw.ordered e1 e2 e).2.1
  obtain ⟨ss, hss, hl⟩ := C58_slices_between_partial E o t0 t tb hload hk.names
    (some start) (some stop) stop tz ds.epochMillis de.epochMillis hzone (.inl rfl) ⟨ds, hds, rfl⟩
    ⟨de, hde, rfl⟩ ws (by
      intro i hi
      obtain ⟨h1, c, h2, md, e1, e2, _, e4, e5, e6, e7, e8⟩ := hws i hi
      refine ⟨md, e4, e5, ?_, e6, e7⟩
      intro w hm
      obtain ⟨k, ch, f1, f2⟩ := (e8 w).1 hm
      exact writeOf_wf hw e1 f1 f2) (by
      intro w w' hPw hPw' hid hb
      obtain ⟨c, hc, _, _, c0, token, hr⟩ := hrec w hPw
      obtain ⟨c', hc', _, _, c0', token', hr'⟩ := hrec w' hPw'
      have e := hmem_eq c0 hr.mem c0' hr'.mem (by rw [hr.base, hr'.base] at hb; exact hb)
      subst e
      have e := hr.write
      rw [hid, hr'.write] at e
      cases e
      rw [hr.base, hr'.base, hid])
  refine ⟨ss, hss, ?_⟩
  -- replaced in the range
  have hrep : ∀ w : Write, (∃ i, Within tb.timeline (some ds.epochMillis) (some de.epochMillis) i ∧
      i.action = .replaceCommit ∧ ∃ md, docOf t i = some md ∧ Replaces md w.partition w.fileId) ↔
      ∃ c ∈ h, InSpan start stop c ∧ (w.id, Change.replace) ∈ c.changes := by
    intro w
    constructor
    · rintro ⟨i, hi, ha, md, hmd, hr⟩
      obtain ⟨c, hc, hin, d, hd, rfl⟩ := (hwi i).1 hi
      obtain ⟨md', size, g1, g2⟩ := hk.replaced c hc ha
      rw [docOf_eq (i := ⟨c.ts, c.action, .completed, d.epochMillis⟩) g1] at hmd
      cases hmd
      exact ⟨c, hc, hin, (g2 _ _).1 hr⟩
    · rintro ⟨c, hc, hin, hch⟩
      have ha := hw.replaces c hc _ hch
      obtain ⟨md', size, g1, g2⟩ := hk.replaced c hc ha
      obtain ⟨d, hd, _⟩ := k2 c hc
      exact ⟨⟨c.ts, c.action, .completed, d.epochMillis⟩, (hwi _).2 ⟨c, hc, hin, d, hd, rfl⟩, ha, md', docOf_eq g1, (g2 _ _).2 hch⟩
  simp only [hrep] at hl
  -- the table at the end has the groups written and not replaced
  have hup : ∀ c ∈ h, InSpan start stop c → c ∈ h.filter (fun c => (compare c.ts stop).isLE) :=
    fun c hc hin => List.mem_filter.2 ⟨hc, hin.2⟩
  have htrans : ∀ a b c : Str, (compare a b).isLE = true → (compare b c).isLE = true →
      (compare a c).isLE = true := fun a b c => Std.TransCmp.isLE_trans
  have hlive : ∀ w, ((∃ i, Within tb.timeline (some ds.epochMillis) (some de.epochMillis) i ∧ w ∈ ws i) ∧
      ¬ ∃ c ∈ h, InSpan start stop c ∧ (w.id, Change.replace) ∈ c.changes) →
      tableAt h stop w.id ≠ none := by
    rintro w ⟨hPw, hnr⟩
    obtain ⟨c, hc, hin, ⟨ch, hch⟩, c0, token, hr⟩ := hrec w hPw
    unfold tableAt
    refine version_of_write (c := c0) (List.mem_filter.2 ⟨hr.mem, htrans _ _ _ hr.le hin.2⟩) hr.write ?_
    intro c' hc' hch'
    obtain ⟨hc', hle⟩ := List.mem_filter.1 hc'
    have hm' := (hw.of_mem hc').1 hch'
    by_cases hst' : compare start c'.ts = .lt
    · exact hnr ⟨c', hc', ⟨hst', hle⟩, hm'⟩
    · -- replaced before the span, then changed
      have hlt : compare c'.ts c.ts = .lt := by
        have h1 : (compare c'.ts start).isLE = true := by
          cases hx : compare start c'.ts with
          | lt => exact absurd hx hst'
          | eq => rw [Std.OrientedCmp.eq_swap (cmp := (compare : Str → Str → Ordering)), hx]; rfl
          | gt => rw [Std.OrientedCmp.eq_swap (cmp := (compare : Str → Str → Ordering)), hx]; rfl
        exact Std.TransCmp.lt_of_isLE_of_lt h1 hin.1
      obtain ⟨a, b, e1⟩ := List.append_of_mem hc'
      have hcm := hc
      rw [e1] at hcm
      have hg := hw.gone
      have ho := hw.ordered
      rw [e1] at hg ho
      rcases List.mem_append.1 hcm with hm | hm
      · have := (List.pairwise_append.1 ho).2.2 c hm c' (by simp)
        rw [Std.OrientedCmp.eq_swap (cmp := (compare : Str → Str → Ordering)), hlt] at this
        cases this
      · rcases List.mem_cons.1 hm with rfl | hm
        · rw [Std.ReflCmp.compare_self (cmp := (compare : Str → Str → Ordering))] at hlt; cases hlt
        · exact (List.pairwise_cons.1 (List.pairwise_append.1 hg).2.1).1 c hm _ hm' _ hch
  have hwritten : ∀ k, changedAt h start stop k ≠ none →
      ∃ w, ((∃ i, Within tb.timeline (some ds.epochMillis) (some de.epochMillis) i ∧ w ∈ ws i) ∧
        ¬ ∃ c ∈ h, InSpan start stop c ∧ (w.id, Change.replace) ∈ c.changes) ∧ w.id = k ∧
        ∀ v, tableAt h stop k = some v → w.base.commitTimestamp = v.base := by
    intro k hk
    obtain ⟨⟨c, hc, hin, ch, hch⟩, htab⟩ := (changedAt_ne_none hw).1 hk
    have hnr : ¬ ∃ c ∈ h, InSpan start stop c ∧ (k, Change.replace) ∈ c.changes := by
      rintro ⟨c', hc', hin', hr⟩
      exact htab (version_of_replace (hw.filter _) (hup c' hc' hin') hr)
    obtain ⟨v, hv⟩ := Option.ne_none_iff_exists'.1 htab
    obtain ⟨h1, h2, h3, c0, hew, hb⟩ := endsWith_of hw hv
    have hc0 : c0 ∈ h := by rw [hew.split]; simp
    have hc0s := hew.early c0 (by simp)
    by_cases hin0 : compare start c0.ts = .lt
    · refine ⟨⟨k.1, k.2, ⟨k.2, v.token, c0.ts, c!"parquet", none⟩, []⟩, ⟨(hP _).2 ⟨h1, c0, h2 ++ h3, k, .write v.token,
        hew.split, ⟨hin0, hc0s⟩, changeOf_mem hew.write, rfl⟩, hnr⟩, rfl, ?_⟩
      intro v' hv'
      rw [hv] at hv'; cases hv'
      exact hb
    · have hlt : compare c0.ts c.ts = .lt := by
        have h1 : (compare c0.ts start).isLE = true := by
          cases hx : compare start c0.ts with
          | lt => exact absurd hx hin0
          | eq => rw [Std.OrientedCmp.eq_swap (cmp := (compare : Str → Str → Ordering)), hx]; rfl
          | gt => rw [Std.OrientedCmp.eq_swap (cmp := (compare : Str → Str → Ordering)), hx]; rfl
        exact Std.TransCmp.lt_of_isLE_of_lt h1 hin.1
      have hm := (hew.after hw hc hin.2).2 hlt
      have hch' := (hw.of_mem hc).2 hch
      obtain ⟨ls, hls⟩ : ∃ ls, c.changeOf k = some (.append ls) := by
        rcases hew.quiet c hm with h | h
        · rw [h] at hch'; cases hch'
        · exact h
      rw [hls] at hch'; cases hch'
      obtain ⟨a, b, rfl⟩ := List.append_of_mem hm
      have hv1 : versionAfter (h1 ++ c0 :: a) k = some ⟨c0.ts, v.token, appendsUntilWrite a k⟩ :=
        versionAfter_some.2 ⟨h1, c0, a, rfl, hew.write, rfl, fun c hc => hew.quiet c (by simp [hc]), rfl⟩
      refine ⟨⟨k.1, k.2, ⟨k.2, v.token, c0.ts, c!"parquet", none⟩,
        ls.map (fun l => ⟨k.2, c0.ts, c!"log", l.1, l.2, none⟩)⟩, ⟨(hP _).2 ⟨h1 ++ c0 :: a, c, b ++ h3, k, _,
        by rw [hew.split]; simp, hin, hch, ?_⟩, hnr⟩, rfl, ?_⟩
      · show (versionAfter _ k).map _ = _
        rw [hv1]; rfl
      · intro v' hv'
        rw [hv] at hv'; cases hv'
        exact hb
  refine ⟨hl.distinct, ?_, ?_⟩
  · intro k
    constructor
    · rintro ⟨s, hs', rfl⟩
      obtain ⟨⟨w, hPw, hid, _⟩, _⟩ := hl.sound s hs'
      refine ⟨trivial, (changedAt_ne_none hw).2 ⟨?_, ?_⟩⟩
      · obtain ⟨c, hc, hin, ⟨ch, hch⟩, _⟩ := hrec w hPw.1
        exact ⟨c, hc, hin, ch, by rw [← show w.id = sliceKey s from hid]; exact hch⟩
      · rw [← show w.id = sliceKey s from hid]; exact hlive w hPw
    · rintro ⟨_, hk⟩
      obtain ⟨w, hPw, hid, _⟩ := hwritten k hk
      obtain ⟨c, hc, hin, _, c0, token, hr⟩ := hrec w hPw.1
      obtain ⟨s, hs', e⟩ := hl.groups w hPw (by rw [hr.base]; exact htrans _ _ _ hr.le hin.2)
      exact ⟨s, hs', by rw [← hid]; exact e⟩
  · intro s hs' v hv
    obtain ⟨_, h1, h2, h3, c0, hew, hb, hlogs⟩ := changedAt_some hw hv
    obtain ⟨⟨w, hPw, hid, hbase⟩, _⟩ := hl.sound s hs'
    replace hid : w.id = sliceKey s := hid
    -- its base file is that of the end
    have hle1 : (compare s.baseFile.commitTimestamp c0.ts).isLE = true := by
      obtain ⟨c, hc, hin, _, c1, token, hr⟩ := hrec w hPw.1
      rw [hbase, hr.base]
      refine hew.latest hw hr.mem (htrans _ _ _ hr.le hin.2) (tok := token) ?_
      rw [← hid]; exact hr.write
    have hle2 : (compare c0.ts s.baseFile.commitTimestamp).isLE = true := by
      obtain ⟨w', hPw', hid', hb'⟩ := hwritten (sliceKey s) (by rw [hv]; simp)
      obtain ⟨v0, hv0⟩ := Option.ne_none_iff_exists'.1
        ((changedAt_ne_none hw).1 (show changedAt h start stop (sliceKey s) ≠ none by rw [hv]; simp)).2
      have hx : v0.base = c0.ts := by
        have hv' := hv
        unfold changedAt at hv'
        split at hv'
        · rw [hv0] at hv'
          cases hv'
          exact hb.symm
        · cases hv'
      rw [← hx, ← hb' v0 hv0]
      obtain ⟨c, hc, hin, _, c1, token, hr⟩ := hrec w' hPw'.1
      exact hl.latest s hs' w' hPw' hid' (by rw [hr.base]; exact htrans _ _ _ hr.le hin.2)
    have heq : s.baseFile.commitTimestamp = c0.ts :=
      Std.LawfulEqCmp.eq_of_compare (Std.OrientedCmp.isLE_antisymm hle1 hle2)
    have htok : ∀ w', (∃ i, Within tb.timeline (some ds.epochMillis) (some de.epochMillis) i ∧ w' ∈ ws i) →
        w'.id = sliceKey s → w'.base.commitTimestamp = c0.ts → ∃ c ∈ h, InSpan start stop c ∧
        RecordsFor h c w'.id w' c0 v.token := by
      intro w' hPw' hid' hbt
      obtain ⟨c, hc, hin, _, c1, token, hr⟩ := hrec w' hPw'
      have e := hmem_eq c1 hr.mem c0 (by rw [hew.split]; simp) (by rw [hr.base] at hbt; exact hbt)
      subst e
      have e := hr.write
      rw [hid', hew.write] at e
      cases e
      exact ⟨c, hc, hin, hr⟩
    obtain ⟨c, hc, hin, hr⟩ := htok w hPw.1 hid (by rw [← hbase]; exact heq)
    refine ⟨by rw [heq, hb], by rw [hbase, hr.base], by rw [hbase, hr.base], ?_, ?_⟩
    · intro l hlm
      obtain ⟨w', hPw', hid', hbt, hlw⟩ := (hl.logs s hs' l).1 hlm
      obtain ⟨c', hc', hin', hr'⟩ := htok w' hPw'.1 hid' (by rw [hbt]; exact heq)
      obtain ⟨e, _, rfl⟩ := (hr'.logs l).1 hlw
      exact ⟨by rw [hid'], hb, rfl⟩
    · intro e
      rw [hlogs e]
      constructor
      · rintro ⟨c', hap, hin'⟩
        obtain ⟨a, b, ls, v', g1, g2, g3, g4, g5⟩ := id hap
        have hc' : c' ∈ h := by rw [g1]; simp
        have hPw' : ∃ i, Within tb.timeline (some ds.epochMillis) (some de.epochMillis) i ∧
            (⟨(sliceKey s).1, (sliceKey s).2, ⟨(sliceKey s).2, v'.token, v'.base, c!"parquet", none⟩,
              ls.map (fun l => ⟨(sliceKey s).2, v'.base, c!"log", l.1, l.2, none⟩)⟩ : Write) ∈ ws i := by
          refine (hP _).2 ⟨a, c', b, sliceKey s, _, g1, hin', g2, ?_⟩
          show (versionAfter _ _).map _ = _
          rw [g4]; rfl
        refine ⟨⟨(sliceKey s).2, c0.ts, c!"log", e.1, e.2, none⟩, (hl.logs s hs' _).2 ⟨_, ⟨hPw', ?_⟩, rfl, ?_, ?_⟩, rfl⟩
        · rw [← hid] at *
          exact hPw.2
        · simp only [g5, heq]
        · simp only [List.mem_map]
          exact ⟨e, g3, by rw [g5]⟩
      · rintro ⟨f, hf, rfl⟩
        obtain ⟨w', hPw', hid', hbt, hlw⟩ := (hl.logs s hs' f).1 hf
        obtain ⟨c', hc', hin', hr'⟩ := htok w' hPw'.1 hid' (by rw [hbt]; exact heq)
        obtain ⟨e, hap, rfl⟩ := (hr'.logs f).1 hlw
        rw [hid'] at hap
        exact ⟨c', hap, hin'⟩

/-- **C60, file slices.**  For every history of commits, every storage that holds what they wrote, and every
span of time: the file slices between `start` and `stop` can be listed and are exactly those of the file
groups that commits of the span changed and that are in the table at its end, each with its base file at
the end and the log files that commits of the span appended to. -/
theorem C60_changed_slices (E : Env) (o o' : Opts) (t : Tree) (tb : Table) (tz : Str) (h : History) (n : Nat)
    (hmono : MonotoneTz E.ltz) (hload : Timeline.load E o t = .ok tb.timeline) (htree : TreeWF t)
    (hzone : timezoneOf tb.timeline.opts = .ok tz) (hw : h.WF n) (hst : Stores E.ltz tz o' t h)
    (hdocs : StoresDocs t h) (start stop : Str) (hs : WriterTimestamp start ∧ start.length = n)
    (he : WriterTimestamp stop ∧ stop.length = n) (hps : ∃ d, parseDatetime E.ltz start tz = .ok d)
    (hpe : ∃ d, parseDatetime E.ltz stop tz = .ok d) :
    ∃ ss, tb.fileSlicesBetween E t (some start) (some stop) = .ok ss ∧
      ShowsTable (changedAt h start stop) (fun _ => True) ss :=
  changed_slices hmono hload hzone hw (knows_stored htree hst) hdocs hs he hps hpe

/-! ## The records of the span -/

/-- A slice of the groups changed in a span: its base file is that of the end, its log files are those that
commits of the span appended to. -/
structure SpanSlice (h : History) (start stop : Str) (k : GroupKey) (s : FileSlice) (h1 h2 h3 : History)
    (c0 : HCommit) (token : Str) : Prop where
  ends : EndsWith h stop k h1 h2 h3 c0 token
  base : s.basePath = basePathOf k token c0.ts
  logs : ∀ p, (∃ l ∈ s.logFiles, s.logPath l = p) ↔
    ∃ e c, AppendsTo h k c0.ts e c ∧ InSpan start stop c ∧ p = logPathOf k c0.ts e
  paths : ∀ l ∈ s.logFiles, s.logPath l = logPathOf k c0.ts (l.version, l.writeToken)
  named : ∀ e, (∃ l ∈ s.logFiles, (l.version, l.writeToken) = e) ↔
    ∃ c, AppendsTo h k c0.ts e c ∧ InSpan start stop c

theorem spanSlice_of {h : History} {n : Nat} (hw : h.WF n) {start stop : Str} {k : GroupKey} {s : FileSlice}
    {v : Version} (hk : sliceKey s = k) (hv : changedAt h start stop k = some v) (hs : ShowsVersion s v) :
    ∃ h1 h2 h3 c0 token, SpanSlice h start stop k s h1 h2 h3 c0 token := by
  obtain ⟨_, h1, h2, h3, c0, hew, e3, hlogs⟩ := changedAt_some hw hv
  obtain ⟨s1, s2, s3, s4, s5⟩ := hs
  have hpath : ∀ l ∈ s.logFiles, s.logPath l = logPathOf k c0.ts (l.version, l.writeToken) := by
    intro l hl
    obtain ⟨q1, q2, q3⟩ := s4 l hl
    unfold FileSlice.logPath FileSlice.relativePathFor logPathOf LogFile.fileName logName
    rw [q1, q2, q3, ← hk, e3]
    simp [sliceKey]
  refine ⟨h1, h2, h3, c0, v.token, hew, ?_, ?_, hpath, fun e => (s5 e).symm.trans (hlogs e)⟩
  · unfold FileSlice.basePath FileSlice.relativePathFor basePathOf BaseFile.fileName baseName
    rw [s1, s2, s3, ← hk, e3]
    simp [sliceKey]
  · intro p
    constructor
    · rintro ⟨l, hl, rfl⟩
      obtain ⟨c, hc, hin⟩ := (hlogs _).1 ((s5 _).2 ⟨l, hl, rfl⟩)
      exact ⟨_, c, hc, hin, hpath l hl⟩
    · rintro ⟨e, c, hc, hin, rfl⟩
      obtain ⟨l, hl, rfl⟩ := (s5 e).1 ((hlogs e).2 ⟨c, hc, hin⟩)
      exact ⟨l, hl, hpath l hl⟩

theorem SpanSlice.block {h : History} {start stop : Str} {k : GroupKey} {s : FileSlice} {h1 h2 h3 : History}
    {c0 : HCommit} {token : Str} (hs : SpanSlice h start stop k s h1 h2 h3 c0 token)
    {held : Str → List WBlock} {w : WBlock} :
    w ∈ (s.logFiles.map (fun l => held (s.logPath l))).flatten ↔
      SpanBlock h start stop held k c0.ts w := by
  rw [List.mem_flatten]
  constructor
  · rintro ⟨ws, h1, h2⟩
    obtain ⟨l, hl, rfl⟩ := List.mem_map.1 h1
    obtain ⟨e, c, g1, g3, g2⟩ := (hs.logs _).1 ⟨l, hl, rfl⟩
    exact ⟨e, c, g1, g3, by rw [← g2]; exact h2⟩
  · rintro ⟨e, c, g1, g4, g2⟩
    obtain ⟨l, hl, g3⟩ := (hs.logs _).2 ⟨e, c, g1, g4, rfl⟩
    exact ⟨_, List.mem_map.2 ⟨l, hl, rfl⟩, by rw [g3]; exact g2⟩

theorem spanBlock_of {h : History} {start stop : Str} {held : Str → List WBlock} {k : GroupKey} {base : Str}
    {w : WBlock} (hb : SpanBlock h start stop held k base w) : BlockOf h held k base w := by
  obtain ⟨l, c, h1, _, h2⟩ := hb
  exact ⟨l, c, h1, h2⟩

/-- The version of the file group at the end of the span. -/
theorem SpanSlice.table {h : History} {start stop : Str} {k : GroupKey} {s : FileSlice} {h1 h2 h3 : History}
    {c0 : HCommit} {token : Str} (hs : SpanSlice h start stop k s h1 h2 h3 c0 token) :
    tableAt h stop k = some ⟨c0.ts, token, appendsUntilWrite h2 k⟩ := by
  unfold tableAt
  rw [hs.ends.upTo]
  exact versionAfter_some.2 ⟨h1, c0, h2, rfl, hs.ends.write, rfl, hs.ends.quiet, rfl⟩

theorem SpanSlice.files {C : Codec} {ltz : LocalTz} {tz start stop : Str} {h : History} {k : GroupKey}
    {s : FileSlice} {h1 h2 h3 : History} {c0 : HCommit} {token : Str}
    (hs : SpanSlice h start stop k s h1 h2 h3 c0 token) {held : Str → List WBlock}
    {cols : Columns} {t : Tree} {W : Written} (hr : StoresEvolving C ltz tz cols t h W held)
    (r : InstantRange) :
    SliceFiles C ltz tz t r s ⟨cols c0.ts k, W.base c0.ts k⟩ (s.logFiles.map (fun l => held (s.logPath l))) := by
  have hc0 : c0 ∈ h := by rw [hs.ends.split]; simp
  obtain ⟨b1, b2, _⟩ := hr.bases c0 hc0 k token (changeOf_mem hs.ends.write)
  refine ⟨by rw [hs.base]; exact b1, b2, good_logs (fun l hl => ?_), ?_⟩
  · obtain ⟨e, c, g1, _, g2⟩ := (hs.logs _).1 ⟨l, hl, rfl⟩
    rw [g2]
    exact ⟨hr.logs k c0.ts e c g1, fun w hw => (hr.blocks k c0.ts w ⟨e, c, g1, hw⟩).1⟩
  · intro w hw
    have hb := spanBlock_of (hs.block.1 (List.mem_filter.1 hw).1)
    exact (hr.blocks k c0.ts w hb).2 w (by simp)

theorem blockIn_span {ltz : LocalTz} {tz start stop : Str} {w : WBlock} :
    BlockIn ltz tz ⟨tz, some start, some stop, false, true⟩ w ↔ WrittenIn ltz tz start stop w := by
  unfold BlockIn WrittenIn InRange AfterStart BeforeEnd
  constructor
  · rintro ⟨i, d, h1, h2, h3, h4⟩
    obtain ⟨x, h5, h6⟩ := h3 start rfl
    obtain ⟨e, h7, h8⟩ := h4 stop rfl
    exact ⟨i, d, x, e, h1, h2, h5, h7, h6.resolve_right (by rintro ⟨h, _⟩; cases h), h8.imp_right fun h => h.2⟩
  · rintro ⟨i, d, x, e, h1, h2, h3, h4, h5, h6⟩
    refine ⟨i, d, h1, h2, ?_, ?_⟩
    · intro s hs
      cases hs
      exact ⟨x, h3, .inl h5⟩
    · intro s hs
      cases hs
      exact ⟨e, h4, h6.imp_right fun h => ⟨rfl, h⟩⟩

theorem writtenIn_iff {ltz : LocalTz} (hmono : MonotoneTz ltz) (hsec : WholeSecondsTz ltz)
    {tz start stop : Str} {c : HCommit} {ds de : DateTime} {w : WBlock} (hi : WriterTimestamp c.ts)
    (hs : WriterTimestamp start) (he : WriterTimestamp stop) (hlen : c.ts.length = start.length)
    (hlen' : c.ts.length = stop.length) (hds : parseDatetime ltz start tz = .ok ds)
    (hde : parseDatetime ltz stop tz = .ok de)
    (hgood : ∃ i d, WrittenBy w i ∧ parseDatetime ltz i tz = .ok d) (hw : WrittenBy w c.ts) :
    WrittenIn ltz tz start stop w ↔ InSpan start stop c := by
  obtain ⟨i', e, h1, h2⟩ := hgood
  unfold WrittenBy at h1 hw
  rw [hw] at h1; cases h1
  unfold InSpan
  rw [(writer_before hmono hsec hi he hlen' h2 hde).1, (writer_before hmono hsec hs hi hlen.symm hds h2).2]
  constructor
  · rintro ⟨j, x, y, z, k1, k2, k3, k4, k5, k6⟩
    unfold WrittenBy at k1
    rw [hw] at k1; cases k1
    rw [h2] at k2; cases k2
    rw [hds] at k3; cases k3
    rw [hde] at k4; cases k4
    exact ⟨k5, k6⟩
  · rintro ⟨h, h'⟩
    exact ⟨c.ts, e, ds, de, hw, h2, hds, hde, h, h'⟩

/-- The rows of a slice that are read are the versions of records committed in the span,
and those of pending blocks. -/
theorem SpanSlice.records {C : Codec} {ltz : LocalTz} {tz start stop : Str} {h : History} {n : Nat}
    (hw : h.WF n) (hmono : MonotoneTz ltz) (hsec : WholeSecondsTz ltz)
    (hst : WriterTimestamp start ∧ start.length = n) (hsp : WriterTimestamp stop ∧ stop.length = n)
    {ds de : DateTime} (hds : parseDatetime ltz start tz = .ok ds) (hde : parseDatetime ltz stop tz = .ok de)
    {k : GroupKey} {s : FileSlice} {h1 h2 h3 : History}
    {c0 : HCommit} {token : Str} (hs : SpanSlice h start stop k s h1 h2 h3 c0 token)
    {held : Str → List WBlock} {cols : Columns} {t : Tree} {W : Written}
    (hr : StoresEvolving C ltz tz cols t h W held) (hdt : DatedEvolving cols h W held)
    {keep : List Cell → Bool}
    (hkeep : ∀ r ∈ W.base c0.ts k, keep r = true ↔ CommittedIn (cols c0.ts k) start (some stop) r)
    {logRows : List (List Cell)}
    (hl : RecordsOf C (surviving ltz tz ⟨tz, some start, some stop, false, true⟩
      (s.logFiles.map (fun l => held (s.logPath l))).flatten) logRows) (r : List Cell) :
    r ∈ (W.base c0.ts k).filter keep ++ logRows ↔
      (r ∈ recordsAt W h stop k ∧ CommittedIn (cols c0.ts k) start (some stop) r) ∨
        PendingChange C ltz tz start stop h held k r := by
  have htab := hs.table
  have hbase : ∀ v, tableAt h stop k = some v → v.base = c0.ts := by
    intro v hv
    rw [htab] at hv
    cases hv
    rfl
  unfold recordsAt
  rw [hs.ends.upTo, mem_recordsAfter hs.ends.write hs.ends.quiet, List.mem_append, mem_recordsOf hl,
    List.mem_filter, or_and_right, or_assoc]
  have inSpan : ∀ w c, BlockOf h held k c0.ts w → c ∈ h → WrittenBy w c.ts →
      (WrittenIn ltz tz start stop w ↔ InSpan start stop c) := by
    intro w c hb hc hwr
    obtain ⟨q1, q2⟩ := hw.times c hc
    exact writtenIn_iff hmono hsec q1 hst.1 hsp.1 (by rw [q2, hst.2]) (by rw [q2, hsp.2]) hds hde
      (hr.blocks k c0.ts w hb).1.time hwr
  refine or_congr (and_congr_right fun hm => hkeep r hm) ?_
  constructor
  · rintro ⟨w, hsv, bs, hdec, hrow⟩
    rw [mem_surviving] at hsv
    obtain ⟨hin, hup, hno⟩ := hsv
    rw [blockIn_span] at hup
    have hsb := hs.block.1 hin
    have hb := spanBlock_of hsb
    obtain ⟨i, x, hwr, _⟩ := (hr.blocks k c0.ts w hb).1.time
    by_cases hcomp : ∃ l c, AppendsTo h k c0.ts l c ∧ WrittenBy w c.ts
    · obtain ⟨l, c, hap, hwr⟩ := hcomp
      have hc : c ∈ h := by
        obtain ⟨a, b, _, _, e, _⟩ := hap
        rw [e]; simp
      have hle := (inSpan w c hb hc hwr).1 hup
      obtain ⟨hm, ls, e1, e2⟩ := (hs.ends.appends hw hle.2).1 hap
      have hmem := (hr.rows k c0.ts l c hap r).2 ⟨w, bs, hb, hwr, hdec, hrow⟩
      exact .inl ⟨⟨c, hm, ls, e1, hmem⟩, c.ts, hdt.records k c0.ts l c hap r hmem, hle.1,
        by intro e he; cases he; exact hle.2⟩
    · refine .inr ⟨_, w, bs, htab, ⟨hsb, hup, fun l c h1 h2 => hcomp ⟨l, c, h1, h2⟩, ?_⟩, hdec, hrow⟩
      intro w' i' hb' hrb hup' hwr'
      exact hno ⟨w', hs.block.2 hb', blockIn_span.2 hup', i', hrb, hwr'⟩
  · rintro (⟨⟨c, hc, ls, hch, hrow⟩, ci, hci, hci1, hci2⟩ | ⟨v, w, bs, hv, hpb, hdec, hrow⟩)
    rotate_left
    · rw [hbase v hv] at hpb
      refine ⟨w, ?_, bs, hdec, hrow⟩
      rw [mem_surviving]
      refine ⟨hs.block.2 hpb.block, blockIn_span.2 hpb.inSpan, ?_⟩
      rintro ⟨w', hin', hup', i, hrb, hwr'⟩
      exact hpb.notRolledBack w' i (hs.block.1 hin') hrb (blockIn_span.1 hup') hwr'
    have hc' : c ∈ h := by rw [hs.ends.split]; simp [hc]
    have hle : (compare c.ts stop).isLE = true := hs.ends.early c (by simp [hc])
    cases ls with
    | nil =>
      rw [hr.nothing c hc' k (changeOf_mem hch)] at hrow
      cases hrow
    | cons l ls =>
      have hap : AppendsTo h k c0.ts l c := (hs.ends.appends hw hle).2 ⟨hc, l :: ls, hch, by simp⟩
      rw [hdt.records k c0.ts l c hap r hrow] at hci
      cases hci
      have hin : InSpan start stop c := ⟨hci1, hle⟩
      obtain ⟨w, bs, hb, hwr, hdec, hrow⟩ := (hr.rows k c0.ts l c hap r).1 hrow
      obtain ⟨l', hap', hheld⟩ := hdt.blocks k c0.ts l c hap w hb hwr
      refine ⟨w, ?_, bs, hdec, hrow⟩
      rw [mem_surviving]
      refine ⟨hs.block.2 ⟨l', c, hap', hin, hheld⟩, blockIn_span.2 ((inSpan w c hb hc' hwr).2 hin), ?_⟩
      rintro ⟨w', hin', _, i, hrb, hwr'⟩
      unfold WrittenBy at hwr hwr'
      rw [hwr] at hwr'
      cases hwr'
      exact hr.rollbacks k c0.ts w' c.ts (spanBlock_of (hs.block.1 hin')) hrb c hc' rfl

/-- Records of one set of columns are dated as records whose columns never change. -/
theorem Spec.Dated.evolving {schema : Schema} {h : History} {W : Written}
    {held : Str → List WBlock} (hdt : Dated schema h W held) : DatedEvolving (fun _ _ => schema) h W held :=
  ⟨hdt.blocks, fun k _ _ c ⟨h1, h2, ls, _, e, hm, _⟩ r hr => hdt.records c (by rw [e]; simp) k ls hm r hr⟩

/-- Reading the changes between two times, whatever the columns of the files, through a handle
opened on `t0`. -/
theorem changes_read {E : Env} {A : Arrow} {C : Codec} (M : MergeEnv A) {o : Opts}
    {t0 t : Tree} {tb : Table} {tz pre : Str} {h : History} {n : Nat} (hmono : MonotoneTz E.ltz)
    (hsec : WholeSecondsTz E.ltz) (hload : Timeline.load E o t0 = .ok tb.timeline)
    (hzone : timezoneOf tb.timeline.opts = .ok tz) (hw : h.WF n) (hk : Knows E.ltz tz t0 t h)
    (hdocs : StoresDocs t h) (hm : MergingReader tb tz pre) (hmeta : MetaFields tb.opts)
    {cols : Columns} (hcol : EveryFile h cols (MergeColumns · pre)) (hct : EveryFile h cols HasCommitTime)
    {W : Written} {held : Str → List WBlock} (hr : StoresEvolving C E.ltz tz cols t h W held)
    (hdt : DatedEvolving cols h W held) {start stop : Str} (hs : WriterTimestamp start ∧ start.length = n)
    (he : WriterTimestamp stop ∧ stop.length = n) (hps : ∃ d, parseDatetime E.ltz start tz = .ok d)
    (hpe : ∃ d, parseDatetime E.ltz stop tz = .ok d) :
    ∃ outs, tb.readIncremental E A C M t start (some stop) = .ok outs ∧
      ReadsEvolvingChanges A cols pre start stop h (fun schema k r =>
        (r ∈ recordsAt W h stop k ∧ CommittedIn schema start (some stop) r) ∨
          PendingChange C E.ltz tz start stop h held k r) outs := by
  classical
  obtain ⟨ss, hss, hsh⟩ := changed_slices hmono hload hzone hw hk hdocs hs he hps hpe
  have hsl : ∀ s ∈ ss, ∃ c0 h1 h2 h3 token, SpanSlice h start stop (sliceKey s) s h1 h2 h3 c0 token := by
    intro s hs
    have hne := ((hsh.groups (sliceKey s)).1 ⟨s, hs, rfl⟩).2
    obtain ⟨v, hv⟩ := Option.ne_none_iff_exists'.1 hne
    obtain ⟨h1, h2, h3, c0, token, h⟩ := spanSlice_of hw rfl hv (hsh.versions s hs v hv)
    exact ⟨c0, h1, h2, h3, token, h⟩
  have hex : ∀ s, ∃ ts : Str, s ∈ ss → ∃ c0 h1 h2 h3 token,
      SpanSlice h start stop (sliceKey s) s h1 h2 h3 c0 token ∧ ts = c0.ts := by
    intro s
    by_cases hm : s ∈ ss
    · obtain ⟨c0, h1, h2, h3, token, h⟩ := hsl s hm
      exact ⟨c0.ts, fun _ => ⟨c0, h1, h2, h3, token, h, rfl⟩⟩
    · exact ⟨[], fun h => absurd h hm⟩
  choose base hbase using hex
  obtain ⟨outs, h1, h2⟩ := C51_incremental_rows_partial E A C M tb t start stop tz pre ss hm.plain hm.merges
    hmeta hm.zone hps hpe hss
    (fun s => (⟨cols (base s) (sliceKey s), W.base (base s) (sliceKey s)⟩, s.logFiles.map (fun l => held (s.logPath l)))) (by
      intro s hs
      obtain ⟨c0, h1, h2, h3, token, hso, e⟩ := hbase s hs
      simp only [e]
      have hin : c0 ∈ h := by rw [hso.ends.split]; simp
      have hch := changeOf_mem hso.ends.write
      exact ⟨hso.files hr _, hcol c0 hin _ _ hch, hct c0 hin _ _ hch⟩)
  obtain ⟨ds, hds⟩ := hps
  obtain ⟨de, hde⟩ := hpe
  refine ⟨outs, h1, ss.map sliceKey, hsh.distinct, ?_, ?_⟩
  · intro k
    rw [List.mem_map, hsh.groups k, changedAt_ne_none hw]
    simp
  · rw [List.forall₂_map_left_iff]
    refine ((List.forall₂_and_left (p := (· ∈ ss)) ss outs).2 ⟨fun s hs => hs, h2⟩).imp ?_
    rintro s out ⟨hmem, keep, hkeep, q1, q2, q3⟩
    obtain ⟨c0, h1, h2, h3, token, hso, e⟩ := hbase s hmem
    simp only [e] at hkeep q1 q2 q3
    have hkeys := (hr.bases c0 (by rw [hso.ends.split]; simp) (sliceKey s) token
      (changeOf_mem hso.ends.write)).2.2
    by_cases hnil : s.logFiles = []
    · refine ⟨_, (W.base c0.ts (sliceKey s)).filter keep, hso.table, q1, ?_, ?_⟩
      · intro r
        show _ ↔ (r ∈ recordsAt W h stop (sliceKey s) ∧ CommittedIn (cols c0.ts (sliceKey s)) start (some stop) r) ∨
          PendingChange C E.ltz tz start stop h held (sliceKey s) r
        rw [← hso.records hw hmono hsec hs he hds hde hr hdt hkeep (logRows := []) ?_ r,
          List.append_nil]
        rw [hnil]
        exact ⟨[], .nil, rfl⟩
      · rw [q2 hnil]
        exact latest_self (hkeys.sublist (List.filter_sublist.map _))
    · obtain ⟨logRows, q4, q5⟩ := q3 hnil
      exact ⟨_, _, hso.table, q1, hso.records hw hmono hsec hs he hds hde hr hdt hkeep q4, q5⟩

/-- Reading the changes between two times, whatever the columns of the files. -/
theorem evolving_changes {E : Env} {A : Arrow} {C : Codec} (M : MergeEnv A) {o o' : Opts}
    {t : Tree} {tb : Table} {tz pre : Str} {h : History} {n : Nat} (hmono : MonotoneTz E.ltz)
    (hsec : WholeSecondsTz E.ltz) (hload : Timeline.load E o t = .ok tb.timeline) (htree : TreeWF t)
    (hzone : timezoneOf tb.timeline.opts = .ok tz) (hw : h.WF n) (hst : Stores E.ltz tz o' t h)
    (hdocs : StoresDocs t h) (hm : MergingReader tb tz pre) (hmeta : MetaFields tb.opts)
    {cols : Columns} (hcol : EveryFile h cols (MergeColumns · pre)) (hct : EveryFile h cols HasCommitTime)
    {W : Written} {held : Str → List WBlock} (hr : StoresEvolving C E.ltz tz cols t h W held)
    (hdt : DatedEvolving cols h W held) {start stop : Str} (hs : WriterTimestamp start ∧ start.length = n)
    (he : WriterTimestamp stop ∧ stop.length = n) (hps : ∃ d, parseDatetime E.ltz start tz = .ok d)
    (hpe : ∃ d, parseDatetime E.ltz stop tz = .ok d) :
    ∃ outs, tb.readIncremental E A C M t start (some stop) = .ok outs ∧
      ReadsEvolvingChanges A cols pre start stop h (fun schema k r =>
        (r ∈ recordsAt W h stop k ∧ CommittedIn schema start (some stop) r) ∨
          PendingChange C E.ltz tz start stop h held k r) outs :=
  changes_read M hmono hsec hload hzone hw (knows_stored htree hst) hdocs hm hmeta hcol hct hr hdt hs he hps hpe

/-- **C60, with writes in flight.**  For every history of commits that write base files, append records to log
files and replace file groups, every storage that holds what they wrote, and every span of time: reading
the changes between `start` and `stop` succeeds and returns, for each file group that commits of the
span changed and that is in the table at `stop`, the latest version of each record among the versions
committed in the span and those in log blocks, dated in the span, of writes that neither completed nor
were rolled back in the span. -/
theorem C60_changes_and_pending (E : Env) (A : Arrow) (C : Codec) (M : MergeEnv A) (o o' : Opts)
    (t : Tree) (tb : Table) (tz pre : Str) (h : History) (n : Nat) (hmono : MonotoneTz E.ltz)
    (hsec : WholeSecondsTz E.ltz) (hload : Timeline.load E o t = .ok tb.timeline) (htree : TreeWF t)
    (hzone : timezoneOf tb.timeline.opts = .ok tz) (hw : h.WF n) (hst : Stores E.ltz tz o' t h)
    (hdocs : StoresDocs t h) (hm : MergingReader tb tz pre) (hmeta : MetaFields tb.opts)
    (schema : Schema) (hcol : MergeColumns schema pre) (hct : HasCommitTime schema) (W : Written)
    (held : Str → List WBlock) (hr : StoresRecords C E.ltz tz schema t h W held)
    (hdt : Dated schema h W held) (start stop : Str) (hs : WriterTimestamp start ∧ start.length = n)
    (he : WriterTimestamp stop ∧ stop.length = n) (hps : ∃ d, parseDatetime E.ltz start tz = .ok d)
    (hpe : ∃ d, parseDatetime E.ltz stop tz = .ok d) :
    ∃ outs, tb.readIncremental E A C M t start (some stop) = .ok outs ∧
      ReadsChangedRows A schema pre start stop h (fun k r =>
        (r ∈ recordsAt W h stop k ∧ CommittedIn schema start (some stop) r) ∨
          PendingChange C E.ltz tz start stop h held k r) outs := by
  obtain ⟨outs, h1, ks, h2, h3, h4⟩ := evolving_changes (A := A) M hmono hsec hload htree hzone hw hst hdocs hm hmeta
    (cols := fun _ _ => schema) (fun _ _ _ _ _ => hcol) (fun _ _ _ _ _ => hct) hr.evolving hdt.evolving hs he
    hps hpe
  exact ⟨outs, h1, ks, h2, h3, h4.imp fun _ _ ⟨_, rows, _, q1, q2, q3⟩ => ⟨q1, rows, q2, q3⟩⟩

/-- Without pending blocks there are no rows of pending blocks. -/
theorem no_pending_change_at {C : Codec} {ltz : LocalTz} {tz start stop : Str} {h : History}
    {held : Str → List WBlock} {k : GroupKey} (hp : ∀ v, tableAt h stop k = some v → ∀ w i,
      SpanBlock h start stop held k v.base w → WrittenBy w i → WrittenIn ltz tz start stop w →
      IsRollback w ∨ (∃ l c, AppendsTo h k v.base l c ∧ c.ts = i) ∨
      ∃ w', SpanBlock h start stop held k v.base w' ∧ RollsBack w' i ∧ WrittenIn ltz tz start stop w') {r : List Cell} :
    ¬ PendingChange C ltz tz start stop h held k r := by
  rintro ⟨v, w, bs, hv, hb, hdec, hrow⟩
  obtain ⟨i, d, x, e, hwr, _⟩ := hb.inSpan
  rcases hp v hv w i hb.block hwr hb.inSpan with hroll | ⟨l, c, hap, rfl⟩ | ⟨w', hb', hrb, hup'⟩
  · unfold Decodes at hdec
    rw [hroll.1] at hdec
    simp only at hdec
    subst hdec
    cases hrow
  · exact hb.notCompleted l c hap hwr
  · exact hb.notRolledBack w' i hb' hrb hup' hwr

theorem no_pending_change {C : Codec} {ltz : LocalTz} {tz start stop : Str} {h : History}
    {held : Str → List WBlock} (hp : NoPendingInSpan ltz tz start stop h held) {k : GroupKey} {r : List Cell} :
    ¬ PendingChange C ltz tz start stop h held k r :=
  no_pending_change_at (fun v _ => hp k v.base)

/-- **C60, records (partial).**  For every history of commits that write base files, append records to log
files and replace file groups, every storage that holds what they wrote, and every span of time: reading
the changes between `start` and `stop` succeeds and returns, for each file group that commits of the
span changed and that is in the table at `stop`, the latest version of each record among the versions
committed in the span.  Missing: log blocks of writes that neither completed nor were rolled back in
the span (`C60_false`), file groups without base file, and timestamps of different widths
(`C51_false`). -/
theorem C60_changed_records_partial (E : Env) (A : Arrow) (C : Codec) (M : MergeEnv A) (o o' : Opts)
    (t : Tree) (tb : Table) (tz pre : Str) (h : History) (n : Nat) (hmono : MonotoneTz E.ltz)
    (hsec : WholeSecondsTz E.ltz) (hload : Timeline.load E o t = .ok tb.timeline) (htree : TreeWF t)
    (hzone : timezoneOf tb.timeline.opts = .ok tz) (hw : h.WF n) (hst : Stores E.ltz tz o' t h)
    (hdocs : StoresDocs t h) (hm : MergingReader tb tz pre) (hmeta : MetaFields tb.opts)
    (schema : Schema) (hcol : MergeColumns schema pre) (hct : HasCommitTime schema) (W : Written)
    (held : Str → List WBlock) (hr : StoresRecords C E.ltz tz schema t h W held)
    (hdt : Dated schema h W held) (start stop : Str) (hs : WriterTimestamp start ∧ start.length = n)
    (he : WriterTimestamp stop ∧ stop.length = n) (hps : ∃ d, parseDatetime E.ltz start tz = .ok d)
    (hpe : ∃ d, parseDatetime E.ltz stop tz = .ok d)
    (hpend : NoPendingInSpan E.ltz tz start stop h held) :
    ∃ outs, tb.readIncremental E A C M t start (some stop) = .ok outs ∧
      ReadsChanges A schema pre start stop h W outs := by
  obtain ⟨outs, h1, ks, h2, h3, h4⟩ := C60_changes_and_pending E A C M o o' t tb tz pre h n hmono hsec hload htree
    hzone hw hst hdocs hm hmeta schema hcol hct W held hr hdt start stop hs he hps hpe
  refine ⟨outs, h1, ks, h2, h3, h4.imp ?_⟩
  rintro k out ⟨q1, rows, q2, q3⟩
  exact ⟨q1, rows, fun r => (q2 r).trans (by simp [no_pending_change hpend]), q3⟩

end Hudi
