import Verif.Lemmas.Timeline
import Verif.Lemmas.Lists
import Verif.Lemmas.Store
import Verif.Spec.Demo

/-! # C05, C06, C07, C08, C10, C11: the loaded timeline -/

namespace Hudi

/-- The names in the timeline directory, in listing order. -/
abbrev timelineNames (t : Tree) : List Str := (listFiles t c!".hoodie").map (fun m => m.name)

/-- What it means for a list of instants to be the completed instants of `acts` recorded in a
listing, in time order: there is exactly one entry for each file that records a completed action of
`acts` (with multiplicity), and times do not decrease. -/
def Spec.IsCompletedTimeline (ltz : LocalTz) (tz : Str) (acts : List Action) (names : List Str)
    (is : List Instant) : Prop :=
  (∃ f : Str → Option Instant, (∀ n i, f n = some i ↔ Spec.CompletedFile ltz tz acts n i) ∧
    is.Perm (names.filterMap f)) ∧
  is.Pairwise (fun a b => a.epochMillis ≤ b.epochMillis)

theorem loadSelector_timeline {E : Env} {tz : Str} {acts : List Action} (hne : acts ≠ [])
    {ns : List Str} {js : List Instant}
    (h : createInstants E.ltz (loadSelector tz acts) ns = .ok js) :
    Spec.IsCompletedTimeline E.ltz tz acts ns (E.sort js) := by
  have hj := createInstants_ok h
  have hf : ∀ n i, ((loadSelector tz acts).tryCreateInstant E.ltz n).toOption = some i ↔
      Spec.CompletedFile E.ltz tz acts n i := by
    intro n i
    rw [← loadSelector_tryCreate hne]
    cases (loadSelector tz acts).tryCreateInstant E.ltz n <;> simp [Res.toOption]
  refine ⟨⟨_, hf, ?_⟩, ?_⟩
  · rw [← hj]; exact E.sort_perm js
  · apply sort_ascending
    intro i hi
    rw [hj, List.mem_filterMap] at hi
    obtain ⟨n, _, h'⟩ := hi
    obtain ⟨_, _, _, _, _, _, _, rfl⟩ := (hf n i).1 h'
    rfl

/-- **C05.** The timeline loaded when a table is opened is exactly the completed commits,
deltacommits and replacecommits of the listing in time order, for every listing. -/
theorem C05_loaded_timeline (E : Env) (o : Opts) (t : Tree) (tl : Timeline)
    (h : Timeline.load E o t = .ok tl) :
    ∃ tz, timezoneOf o = .ok tz ∧ tl.opts = o ∧
      Spec.IsCompletedTimeline E.ltz tz [.commit, .deltaCommit, .replaceCommit] (timelineNames t)
        tl.completed := by
  obtain ⟨tz, htz, hsel⟩ := completedActionsInRange_load E.ltz defaultLoadingActions o
  unfold Timeline.load at h
  rw [hsel] at h
  simp only [Res.ok_bind] at h
  obtain ⟨is, h1, h2⟩ := Res.bind_eq_ok.1 h
  obtain ⟨js, h3, h4⟩ := loadInstants_ok h1
  cases h2
  refine ⟨tz.str, htz, rfl, ?_⟩
  simp only [Bool.false_eq_true, if_false] at h4
  rw [h4]
  exact loadSelector_timeline (by decide) h3

/-- **C05.** The listings of one kind of completed instants (`get_completed_commits`,
`..._deltacommits`, `..._replacecommits`): exactly those of that action, ascending or reversed. -/
theorem C05_completed_of_action (E : Env) (tl : Timeline) (a : Action) (t : Tree) (desc : Bool)
    (is : List Instant) (h : tl.completedOf E a t desc = .ok is) :
    ∃ tz, timezoneOf tl.opts = .ok tz ∧
      Spec.IsCompletedTimeline E.ltz tz [a] (timelineNames t) (if desc then is.reverse else is) := by
  obtain ⟨tz, htz, hsel⟩ := completedActionsInRange_load E.ltz [a] tl.opts
  unfold Timeline.completedOf at h
  rw [hsel] at h
  simp only [Res.ok_bind] at h
  obtain ⟨js, h3, h4⟩ := loadInstants_ok h
  refine ⟨tz.str, htz, ?_⟩
  have : Spec.IsCompletedTimeline E.ltz tz.str [a] (timelineNames t) (E.sort js) :=
    loadSelector_timeline (by simp) h3
  rw [h4]
  cases desc
  · simpa only [Bool.false_eq_true, if_false] using this
  · simpa only [if_true, List.reverse_reverse] using this

/-- The demo store loads to its three completed instants in time order. -/
example : Timeline.load Demo.env [] Demo.store = .ok Demo.timeline := by decide

/-- Two time-ordered arrangements of the same instants are equal when no two instants have the same
time. -/
theorem eq_of_perm_sorted {l₁ l₂ : List Instant} (hp : l₁.Perm l₂)
    (h1 : l₁.Pairwise (fun a b => a.epochMillis ≤ b.epochMillis))
    (h2 : l₂.Pairwise (fun a b => a.epochMillis ≤ b.epochMillis))
    (hd : (l₁.map (fun i => i.epochMillis)).Nodup) : l₁ = l₂ := by
  have hinj : ∀ a ∈ l₁, ∀ b ∈ l₁, a.epochMillis = b.epochMillis → a = b :=
    fun a ha b hb hab => inj_of_nodup_map hd ha hb hab
  exact List.Perm.eq_of_pairwise (fun a b ha hb h h' => hinj a ha b (hp.mem_iff.2 hb) (by omega))
    h1 h2 hp

/-- **C06.** Two listings of the timeline directory in different orders give the same timeline (even
for different placements of ties by the sort), provided no two completed instants have the same
time. -/
theorem C06_listing_order_irrelevant (E E' : Env) (hE : E.ltz = E'.ltz) (o : Opts) (t t' : Tree)
    (tl tl' : Timeline)
    (hp : (timelineNames t).Perm (timelineNames t'))
    (h : Timeline.load E o t = .ok tl) (h' : Timeline.load E' o t' = .ok tl')
    (hd : (tl.completed.map (fun i => i.epochMillis)).Nodup) : tl = tl' := by
  obtain ⟨tz, h1, h2, ⟨f, hf, hfp⟩, h4⟩ := C05_loaded_timeline E o t tl h
  obtain ⟨tz', h1', h2', ⟨f', hf', hfp'⟩, h4'⟩ := C05_loaded_timeline E' o t' tl' h'
  rw [h1] at h1'
  cases h1'
  have hff : f = f' := by
    funext n
    cases hn : f n with
    | none =>
      cases hn' : f' n with
      | none => rfl
      | some j =>
        have := (hf n j).2 (by rw [hE]; exact (hf' n j).1 hn')
        rw [hn] at this; cases this
    | some i => exact ((hf' n i).2 (by rw [← hE]; exact (hf n i).1 hn)).symm
  have hperm : tl.completed.Perm tl'.completed := by
    refine hfp.trans (List.Perm.trans ?_ hfp'.symm)
    rw [hff]
    exact hp.filterMap f'
  have := eq_of_perm_sorted hperm h4 h4' hd
  cases tl; cases tl'
  simp_all

/-- Listing order also does not influence whether loading fails. -/
theorem C06_failure_order_irrelevant (E E' : Env) (hE : E.ltz = E'.ltz) (o : Opts) (t t' : Tree)
    (hp : (timelineNames t).Perm (timelineNames t')) (tl : Timeline)
    (h : Timeline.load E o t = .ok tl) : ∃ tl', Timeline.load E' o t' = .ok tl' := by
  obtain ⟨tz, _, hsel⟩ := completedActionsInRange_load E.ltz defaultLoadingActions o
  unfold Timeline.load loadInstants at h ⊢
  rw [hsel] at h
  rw [← hE, hsel]
  simp only [Res.ok_bind] at h ⊢
  obtain ⟨is, h1, _⟩ := Res.bind_eq_ok.1 h
  obtain ⟨js, h3, _⟩ := Res.bind_eq_ok.1 h1
  cases hc : createInstants E.ltz (loadSelector tz.str defaultLoadingActions)
      ((listFiles t' hudiMetadataDir).map (fun m => m.name)) with
  | ok js' => exact ⟨⟨o, E'.sort js'⟩, rfl⟩
  | err e => exact absurd hc (createInstants_not_err e)
  | panic =>
    exfalso
    obtain ⟨n, hn, hpn⟩ := createInstants_panic.1 hc
    have := createInstants_panic.2 ⟨n, hp.mem_iff.2 hn, hpn⟩
    have e : (listFiles t hudiMetadataDir).map (fun m => m.name) = timelineNames t := rfl
    rw [e, this] at h3
    cases h3

/-- C06 is about listings such as these two, which load to timelines with distinct times. -/
example : ∃ tl tl', Timeline.load Demo.env [] Demo.store = .ok tl ∧
    Timeline.load Demo.env []
      (.dir c!".hoodie" (.file c!"20240103153005123.deltacommit" 1 .junk
        (.file c!"20240103153000.commit" 1 .junk
        (.file c!"20240103153010000.replacecommit" 1 .junk .nil))) .nil) = .ok tl' ∧
    (tl.completed.map (fun i => i.epochMillis)).Nodup ∧ tl = tl' :=
  ⟨Demo.timeline, Demo.timeline, by decide, by decide, by decide, rfl⟩

/-- The instants with a time in the half-open interval (start, stop], where an absent bound does not
restrict, whose action is among `acts`, in the given order. -/
def Spec.inRange (acts : List Action) (start stop : Option Int) (is : List Instant) :
    List Instant :=
  is.filter (fun i => decide (i.action ∈ acts) &&
    (start.all (fun s => decide (s < i.epochMillis)) &&
      stop.all (fun e => decide (i.epochMillis ≤ e))))

theorem getElem_takeWhile {α : Type} {r : α → α → Prop} {p : α → Bool} {l : List α} (hl : l.Pairwise r)
    (hp : ∀ a b, r a b → p b = true → p a = true) {i : Nat} (hi : i < l.length) :
    (l[i]?).any p = decide (i < (l.takeWhile p).length) := by
  induction l generalizing i with
  | nil => simp at hi
  | cons x xs ih =>
    rw [List.pairwise_cons] at hl
    cases hx : p x with
    | true =>
      cases i with
      | zero => simp [hx]
      | succ i =>
        simp only [List.length_cons, Nat.add_lt_add_iff_right] at hi
        simp [hx, ih hl.2 hi]
    | false =>
      cases i with
      | zero => simp [hx]
      | succ i =>
        simp only [List.length_cons, Nat.add_lt_add_iff_right] at hi
        have hq : p xs[i] = false := by
          cases h : p xs[i] with
          | false => rfl
          | true => rw [hp x _ (hl.1 _ (List.getElem_mem hi)) h] at hx; cases hx
        simp [hx, hi, hq]

theorem bisect_spec {α : Type} {p : α → Bool} {l : List α} {k : Nat}
    (hk : ∀ i, i < l.length → (l[i]?).any p = decide (i < k)) :
    ∀ fuel base size, size ≤ fuel → 1 ≤ size → base + size ≤ l.length → (base = 0 ∨ base < k) →
      k ≤ base + size →
      bisect p l fuel base size < l.length ∧
        (bisect p l fuel base size = 0 ∨ bisect p l fuel base size < k) ∧
        k ≤ bisect p l fuel base size + 1 := by
  intro fuel
  induction fuel with
  | zero => intro base size h1 h2; omega
  | succ fuel ih =>
    intro base size h1 h2 h3 h4 h5
    unfold bisect
    by_cases hs : size ≤ 1
    · rw [if_pos hs]
      exact ⟨by omega, h4, by omega⟩
    · rw [if_neg hs]
      simp only
      rw [hk (base + size / 2) (by omega)]
      by_cases hm : base + size / 2 < k
      · simp only [hm, decide_true, if_true]
        exact ih _ _ (by omega) (by omega) (by omega) (by omega) (by omega)
      · simp only [hm, decide_false, Bool.false_eq_true, if_false]
        exact ih _ _ (by omega) (by omega) (by omega) h4 (by omega)

/-- On a sorted list the binary search finds the number of elements that satisfy the predicate. -/
theorem partitionPoint_eq {α : Type} {r : α → α → Prop} {p : α → Bool} {l : List α} (hl : l.Pairwise r)
    (hp : ∀ a b, r a b → p b = true → p a = true) :
    partitionPoint p l = (l.takeWhile p).length := by
  unfold partitionPoint
  by_cases hne : l = []
  · subst hne; rfl
  · rw [if_neg hne]
    have hlen : 1 ≤ l.length := by cases l <;> simp_all
    have hk := fun i (hi : i < l.length) => getElem_takeWhile hl hp hi
    have hle := (List.takeWhile_prefix p (l := l)).length_le
    obtain ⟨h1, h2, h3⟩ := bisect_spec hk l.length 0 l.length (Nat.le_refl _) hlen (by omega) (.inl rfl)
      (by omega)
    simp only
    rw [hk _ h1]
    by_cases hb : bisect p l l.length 0 l.length < (l.takeWhile p).length
    · simp only [hb, decide_true, if_true]; omega
    · simp only [hb, decide_false, Bool.false_eq_true, if_false]; omega

theorem select_eq {s : Selector} {l : List Instant} (hst : s.states = [.completed])
    (hne : s.actions ≠ []) (hc : ∀ i ∈ l, i.state = .completed)
    (hs : l.Pairwise (fun a b => a.epochMillis ≤ b.epochMillis)) :
    s.select l = Spec.inRange s.actions (s.start.map DateTime.epochMillis)
      (s.stop.map DateTime.epochMillis) l := by
  have hemp : s.actions.isEmpty = false := by cases h : s.actions <;> simp_all
  have hdown : ∀ m : Int, ∀ a b : Instant, a.epochMillis ≤ b.epochMillis →
      decide (b.epochMillis ≤ m) = true → decide (a.epochMillis ≤ m) = true := by
    intro m a b h1 h2
    simp only [decide_eq_true_eq] at *
    omega
  have hfil : ∀ (p : Instant → Bool) (q : Instant → Bool),
      (∀ i ∈ l, (p i && q i) = (p i && s.includesAction i.action && s.includesState i.state)) →
      (l.filter p).filter (fun i => s.includesAction i.action && s.includesState i.state) =
        l.filter (fun i => p i && q i) := by
    intro p q h
    rw [List.filter_filter]
    apply List.filter_congr
    intro i hi
    rw [h i hi]
    cases p i <;> simp
  have hinc : ∀ i ∈ l, (s.includesAction i.action && s.includesState i.state) =
      decide (i.action ∈ s.actions) := by
    intro i hi
    simp [Selector.includesAction, Selector.includesState, hemp, hst, hc i hi]
  have hpp : ∀ (m : Int) (l' : List Instant), l'.Pairwise (fun a b => a.epochMillis ≤ b.epochMillis) →
      partitionPoint (fun i : Instant => decide (i.epochMillis ≤ m)) l' =
        (l'.takeWhile (fun i : Instant => decide (i.epochMillis ≤ m))).length :=
    fun m l' h => partitionPoint_eq h (hdown m)
  unfold Selector.select Spec.inRange
  cases hb : s.start with
  | none =>
    cases he : s.stop with
    | none =>
      simp only [Option.map_none, Option.all_none, Bool.and_true]
      exact List.filter_congr hinc
    | some e =>
      simp only [Option.map_some, Option.all_some, Option.map_none, Option.all_none, hpp _ _ hs,
        take_takeWhile_length]
      rw [takeWhile_eq_filter hs (hdown _), List.filter_filter]
      apply List.filter_congr
      intro i hi
      rw [hinc i hi]
      cases decide (i.action ∈ s.actions) <;> simp
  | some b =>
    simp only [hpp _ _ hs, drop_takeWhile_length]
    rw [dropWhile_eq_filter hs (hdown _)]
    cases he : s.stop with
    | none =>
      simp only [Option.map_some, Option.all_some, Option.map_none, Option.all_none]
      rw [List.filter_filter]
      apply List.filter_congr
      intro i hi
      rw [hinc i hi]
      by_cases h : i.epochMillis ≤ b.epochMillis
      · have : ¬ b.epochMillis < i.epochMillis := by omega
        simp [h, this]
      · have : b.epochMillis < i.epochMillis := by omega
        simp [this]
    | some e =>
      have hs2 := hs.filter (fun i => !decide (i.epochMillis ≤ b.epochMillis))
      simp only [Option.map_some, Option.all_some, hpp _ _ hs2, take_takeWhile_length]
      rw [takeWhile_eq_filter hs2 (hdown _), List.filter_filter, List.filter_filter]
      apply List.filter_congr
      intro i hi
      rw [hinc i hi]
      by_cases h : i.epochMillis ≤ b.epochMillis
      · have : ¬ b.epochMillis < i.epochMillis := by omega
        simp [h, this]
      · have : b.epochMillis < i.epochMillis := by omega
        simp [this]

theorem loaded_completed {E : Env} {o : Opts} {t : Tree} {tl : Timeline}
    (h : Timeline.load E o t = .ok tl) :
    (∀ i ∈ tl.completed, i.state = .completed) ∧
      tl.completed.Pairwise (fun a b => a.epochMillis ≤ b.epochMillis) := by
  obtain ⟨tz, _, _, ⟨f, hf, hp⟩, hs⟩ := C05_loaded_timeline E o t tl h
  refine ⟨fun i hi => ?_, hs⟩
  obtain ⟨n, _, h'⟩ := List.mem_filterMap.1 (hp.mem_iff.1 hi)
  obtain ⟨_, _, _, _, _, _, _, rfl⟩ := (hf n i).1 h'
  rfl

/-- The times denoted by optional bounds. -/
def Spec.Bound (ltz : LocalTz) (tz : Str) (b : Option Str) (m : Option Int) : Prop :=
  match b, m with
  | none, none => True
  | some ts, some m => ∃ dt, parseDatetime ltz ts tz = .ok dt ∧ dt.epochMillis = m
  | _, _ => False

theorem completedActionsInRange_ok {ltz : LocalTz} {acts : List Action} {o : Opts}
    {start stop : Option Str} {s : Selector}
    (h : completedActionsInRange ltz acts o start stop = .ok s) :
    s.states = [.completed] ∧ s.actions = acts ∧ ∃ tz, timezoneOf o = .ok tz ∧
      Spec.Bound ltz tz start (s.start.map DateTime.epochMillis) ∧
      Spec.Bound ltz tz stop (s.stop.map DateTime.epochMillis) := by
  unfold completedActionsInRange at h
  obtain ⟨tz, h1, h⟩ := Res.bind_eq_ok.1 h
  obtain ⟨a, h2, h⟩ := Res.bind_eq_ok.1 h
  obtain ⟨b, h3, h⟩ := Res.bind_eq_ok.1 h
  cases h
  have hb : ∀ (x : Option Str) (y : Option DateTime), parseOpt ltz tz x = .ok y →
      Spec.Bound ltz tz x (y.map DateTime.epochMillis) := by
    intro x y hxy
    cases x with
    | none => cases hxy; trivial
    | some ts =>
      obtain ⟨d, h4, h5⟩ := Res.bind_eq_ok.1 hxy
      cases h5
      exact ⟨d, h4, rfl⟩
  exact ⟨rfl, rfl, tz, h1, hb _ _ h2, hb _ _ h3⟩

/-- **C07.** On a loaded timeline, selecting the completed instants of some actions with optional
bounds returns, in time order, exactly those instants of the timeline whose time is after the start
and at or before the end. -/
theorem C07_select_is_half_open_interval (E : Env) (o o' : Opts) (t : Tree) (tl : Timeline)
    (hload : Timeline.load E o t = .ok tl) (acts : List Action) (hne : acts ≠ [])
    (start stop : Option Str) (s : Selector)
    (hsel : completedActionsInRange E.ltz acts o' start stop = .ok s) :
    ∃ tz b e, timezoneOf o' = .ok tz ∧ Spec.Bound E.ltz tz start b ∧ Spec.Bound E.ltz tz stop e ∧
      s.select tl.completed = Spec.inRange acts b e tl.completed := by
  obtain ⟨h1, h2, tz, h3, h4, h5⟩ := completedActionsInRange_ok hsel
  obtain ⟨hc, hs⟩ := loaded_completed hload
  refine ⟨tz, _, _, h3, h4, h5, ?_⟩
  rw [← h2]
  exact select_eq h1 (by rw [h2]; exact hne) hc hs

example : ∃ tl s, Timeline.load Demo.env [] Demo.store = .ok tl ∧
    completedActionsInRange Demo.env.ltz defaultLoadingActions []
      (some c!"20240103153000000") (some c!"20240103153010000") = .ok s ∧
    (s.select tl.completed).map (fun i => i.timestamp)
      = [c!"20240103153005123", c!"20240103153010000"] :=
  ⟨_, _, rfl, rfl, by decide⟩

/-- **C08.** For bounds a ≤ b ≤ c, selecting (a, b] and then (b, c] gives, concatenated, exactly what
selecting (a, c] gives. -/
theorem C08_adjacent_ranges_partition (E : Env) (o o' : Opts) (t : Tree) (tl : Timeline)
    (hload : Timeline.load E o t = .ok tl) (acts : List Action) (hne : acts ≠ [])
    (a b c : Str) (sab sbc sac : Selector)
    (hab : completedActionsInRange E.ltz acts o' (some a) (some b) = .ok sab)
    (hbc : completedActionsInRange E.ltz acts o' (some b) (some c) = .ok sbc)
    (hac : completedActionsInRange E.ltz acts o' (some a) (some c) = .ok sac)
    (tz : Str) (htz : timezoneOf o' = .ok tz) (da db dc : DateTime)
    (ha : parseDatetime E.ltz a tz = .ok da) (hb : parseDatetime E.ltz b tz = .ok db)
    (hc : parseDatetime E.ltz c tz = .ok dc)
    (h1 : da.epochMillis ≤ db.epochMillis) (h2 : db.epochMillis ≤ dc.epochMillis) :
    sab.select tl.completed ++ sbc.select tl.completed = sac.select tl.completed := by
  have key : ∀ (x y : Str) (s : Selector) (dx dy : DateTime),
      completedActionsInRange E.ltz acts o' (some x) (some y) = .ok s →
      parseDatetime E.ltz x tz = .ok dx → parseDatetime E.ltz y tz = .ok dy →
      s.select tl.completed
        = Spec.inRange acts (some dx.epochMillis) (some dy.epochMillis) tl.completed := by
    intro x y s dx dy hs hx hy
    obtain ⟨tz', p, q, h3, h4, h5, h6⟩ :=
      C07_select_is_half_open_interval E o o' t tl hload acts hne _ _ s hs
    rw [htz] at h3
    cases h3
    cases p with
    | none => exact absurd h4 (by simp [Spec.Bound])
    | some p =>
      cases q with
      | none => exact absurd h5 (by simp [Spec.Bound])
      | some q =>
        obtain ⟨d, h7, h8⟩ := h4
        obtain ⟨d', h9, h10⟩ := h5
        rw [hx] at h7; cases h7
        rw [hy] at h9; cases h9
        rw [h6, ← h8, ← h10]
  rw [key a b sab da db hab ha hb, key b c sbc db dc hbc hb hc, key a c sac da dc hac ha hc]
  obtain ⟨_, hs⟩ := loaded_completed hload
  have := filter_split (p := fun i : Instant => decide (i.epochMillis ≤ db.epochMillis)) hs
    (fun x y hxy hy => by simp only [decide_eq_true_eq] at *; omega)
    (fun i => decide (i.action ∈ acts) && (decide (da.epochMillis < i.epochMillis) &&
      decide (i.epochMillis ≤ dc.epochMillis)))
  unfold Spec.inRange
  simp only [Option.all_some]
  rw [← this]
  congr 1
  · apply List.filter_congr
    intro i _
    cases decide (i.action ∈ acts)
    · simp
    · rw [Bool.eq_iff_iff]; simp; omega
  · apply List.filter_congr
    intro i _
    cases decide (i.action ∈ acts)
    · simp
    · rw [Bool.eq_iff_iff]; simp; omega

example : ∃ tl s1 s2 s3, Timeline.load Demo.env [] Demo.store = .ok tl ∧
    completedActionsInRange Demo.env.ltz defaultLoadingActions []
      (some c!"20240103152959") (some c!"20240103153005123") = .ok s1 ∧
    completedActionsInRange Demo.env.ltz defaultLoadingActions []
      (some c!"20240103153005123") (some c!"20240103153010000") = .ok s2 ∧
    completedActionsInRange Demo.env.ltz defaultLoadingActions []
      (some c!"20240103152959") (some c!"20240103153010000") = .ok s3 ∧
    (s1.select tl.completed).length = 2 ∧ (s2.select tl.completed).length = 1 :=
  ⟨_, _, _, _, rfl, rfl, rfl, rfl, by decide, by decide⟩

/-- **C10.** The latest commit timestamp is that of a completed instant of the listing whose time is
not before that of any completed instant; it is absent exactly when the listing has none. -/
theorem C10_latest_commit_is_latest (E : Env) (o : Opts) (t : Tree) (tl : Timeline)
    (hload : Timeline.load E o t = .ok tl) (tz : Str) (htz : timezoneOf o = .ok tz) :
    let done := Spec.CompletedFile E.ltz tz [.commit, .deltaCommit, .replaceCommit]
    (∀ ts, tl.latestTimestamp = some ts →
      ∃ n ∈ timelineNames t, ∃ i, done n i ∧ i.timestamp = ts ∧
        ∀ n' ∈ timelineNames t, ∀ j, done n' j → j.epochMillis ≤ i.epochMillis) ∧
    (tl.latestTimestamp = none ↔ ∀ n ∈ timelineNames t, ∀ i, ¬ done n i) ∧
    (tl.latestTimestampR = match tl.latestTimestamp with | some ts => .ok ts | none => .err .timeline)
    := by
  intro done
  obtain ⟨tz', h1, _, ⟨f, hf, hp⟩, hs⟩ := C05_loaded_timeline E o t tl hload
  rw [htz] at h1
  cases h1
  have hmem : ∀ j, (∃ n ∈ timelineNames t, done n j) ↔ j ∈ tl.completed := by
    intro j
    rw [hp.mem_iff, List.mem_filterMap]
    exact exists_congr fun n => and_congr_right fun _ => (hf n j).symm
  have hlast : ∀ i, tl.completed.getLast? = some i → ∀ j ∈ tl.completed,
      j.epochMillis ≤ i.epochMillis := by
    intro i hi j hj
    obtain ⟨pre, hpre⟩ := List.getLast?_eq_some_iff.1 hi
    rw [hpre] at hs hj
    rw [List.mem_append] at hj
    rcases hj with hj | hj
    · exact (List.pairwise_append.1 hs).2.2 j hj i (by simp)
    · simp only [List.mem_singleton] at hj; rw [hj]; omega
  refine ⟨?_, ?_, ?_⟩
  · intro ts hts
    unfold Timeline.latestTimestamp at hts
    obtain ⟨i, hi, rfl⟩ := Option.map_eq_some_iff.1 hts
    obtain ⟨n, hn, hd⟩ := (hmem i).2 (List.mem_of_getLast? hi)
    exact ⟨n, hn, i, hd, rfl, fun n' hn' j hj => hlast i hi j ((hmem j).1 ⟨n', hn', hj⟩)⟩
  · unfold Timeline.latestTimestamp
    rw [Option.map_eq_none_iff, List.getLast?_eq_none_iff]
    constructor
    · intro h n hn i hd
      have := (hmem i).1 ⟨n, hn, hd⟩
      rw [h] at this
      cases this
    · intro h
      rw [List.eq_nil_iff_forall_not_mem]
      intro i hi
      obtain ⟨n, hn, hd⟩ := (hmem i).2 hi
      exact h n hn i hd
  · unfold Timeline.latestTimestampR
    cases tl.latestTimestamp <;> rfl

example : ∃ tl, Timeline.load Demo.env [] Demo.store = .ok tl ∧
    tl.latestTimestamp = some c!"20240103153010000" ∧ timezoneOf [] = .ok c!"utc" :=
  ⟨_, rfl, by decide, by decide⟩

/-- The operation named by the metadata file of an instant. -/
def Spec.operation (t : Tree) (i : Instant) : Option Str :=
  match t.fileAt [c!".hoodie", i.timestamp ++ c!"." ++ Spec.suffix i.action i.state] with
  | some (_, .json (.obj md)) =>
    match jGet c!"operationType" md with
    | some (.str s) => some s
    | _ => none
  | _ => none

theorem instantMetadata_ok {t : Tree} {i : Instant} {md : List (Str × Json)}
    (h : instantMetadata t i = .ok md) :
    ∃ m, getFile t i.relativePath = .ok (m, .json (.obj md)) := by
  unfold instantMetadata at h
  obtain ⟨⟨m, c⟩, h1, h2⟩ := Res.bind_eq_ok.1 h
  cases c with
  | json j =>
    cases j with
    | obj l => cases h2; exact ⟨m, h1⟩
    | _ => cases h2
  | _ => cases h2


theorem relativePath_segs {E : LocalTz} {tz : Str} {acts : List Action} {n : Str} {i : Instant}
    (h : Spec.CompletedFile E tz acts n i) (hnn : Spec.NormalName n) :
    pathSegs i.relativePath
      = [c!".hoodie", i.timestamp ++ c!"." ++ Spec.suffix i.action i.state] := by
  obtain ⟨ts, a, dt, _, _, hname, hp, rfl⟩ := h
  obtain ⟨nv, hnv, _⟩ := Res.bind_eq_ok.1 hp
  obtain ⟨c, cs, rfl, hc⟩ := parseNaive_head hnv
  have hcs := tsChar_ne_slash hc
  have hn := hnn.2.1
  have hct : ∀ x ∈ c :: cs, 32 ≤ x.toNat ∧ x.toNat ≠ 127 := fun x hx =>
    hnn.2.2.2.2 x (by rcases hname with rfl | rfl <;> simp only [List.mem_append, hx, true_or])
  have hno : '/' ∉ c :: cs := by
    rcases hname with rfl | rfl <;> simp only [List.mem_append, not_or] at hn
    · exact hn.1.1
    · exact hn.1.1.1
  have hfn : Instant.fileName ⟨c :: cs, a, .completed, dt.epochMillis⟩
      = (c :: cs) ++ c!"." ++ Spec.suffix a .completed := by cases a <;> rfl
  have hnm : Spec.NormalName ((c :: cs) ++ c!"." ++ Spec.suffix a .completed) := by
    refine ⟨by simp, ?_, ?_, ?_, ?_⟩
    · simp only [List.mem_append, not_or]
      exact ⟨⟨hno, by decide⟩, by cases a <;> decide⟩
    · intro h; have := congrArg List.length h; cases a <;> simp [Spec.suffix] at this
    · intro h; have := congrArg List.length h; cases a <;> simp [Spec.suffix] at this
    · intro x hx
      rcases List.mem_append.1 hx with hx | hx
      · rcases List.mem_append.1 hx with hx | hx
        · exact hct x hx
        · rw [List.mem_singleton] at hx; rw [hx]; decide
      · have : ∀ x ∈ Spec.suffix a .completed, 32 ≤ x.toNat ∧ x.toNat ≠ 127 := by cases a <;> decide
        exact this x hx
  have hh : Spec.NormalName c!".hoodie" := by decide
  have := pathSegs_joinWith (ns := [c!".hoodie", (c :: cs) ++ c!"." ++ Spec.suffix a .completed])
    (by simp only [List.mem_cons, List.not_mem_nil, or_false]; rintro n (rfl | rfl) <;> assumption)
  rw [← this]
  unfold Instant.relativePath
  rw [hfn, List.cons_append, List.cons_append, pathPush_hoodie hcs]
  rfl

theorem operation_spec {t : Tree} {i : Instant}
    (hp : pathSegs i.relativePath
      = [c!".hoodie", i.timestamp ++ c!"." ++ Spec.suffix i.action i.state]) :
    (instantMetadata t i >>= fun md =>
      Res.ofOption .commitMetadata ((jGet c!"operationType" md).bind Json.asStr)) =
    match Spec.operation t i with
    | some op => .ok op
    | none => (instantMetadata t i >>= fun md =>
      Res.ofOption .commitMetadata ((jGet c!"operationType" md).bind Json.asStr)) := by
  unfold instantMetadata getFile Spec.operation
  rw [hp]
  cases hf : t.fileAt [c!".hoodie", i.timestamp ++ c!"." ++ Spec.suffix i.action i.state] with
  | none => simp
  | some e =>
    obtain ⟨m, c⟩ := e
    cases c with
    | json j =>
      cases j with
      | obj md =>
        cases hj : jGet c!"operationType" md with
        | none => simp [hj]
        | some v => cases v <;> simp [Json.asStr, hj]
      | _ => simp
    | _ => simp

theorem operation_none {t : Tree} {i : Instant}
    (hp : pathSegs i.relativePath
      = [c!".hoodie", i.timestamp ++ c!"." ++ Spec.suffix i.action i.state])
    (h : Spec.operation t i = none) :
    ∃ e, (instantMetadata t i >>= fun md =>
      Res.ofOption .commitMetadata ((jGet c!"operationType" md).bind Json.asStr)) = .err e := by
  unfold instantMetadata getFile
  unfold Spec.operation at h
  rw [hp]
  cases hf : t.fileAt [c!".hoodie", i.timestamp ++ c!"." ++ Spec.suffix i.action i.state] with
  | none => exact ⟨_, rfl⟩
  | some e =>
    rw [hf] at h
    obtain ⟨m, c⟩ := e
    cases c with
    | json j =>
      cases j with
      | obj md =>
        cases hj : jGet c!"operationType" md with
        | none => exact ⟨.commitMetadata, by simp [hj, Res.ofOption]⟩
        | some v =>
          cases v with
          | str s => simp [hj] at h
          | _ => exact ⟨.commitMetadata, by simp [hj, Json.asStr, Res.ofOption]⟩
      | _ => exact ⟨_, rfl⟩
    | _ => exact ⟨_, rfl⟩

theorem clustering_fold {t : Tree} {is : List Instant} (acc : List Instant)
    (hp : ∀ i ∈ is, pathSegs i.relativePath
      = [c!".hoodie", i.timestamp ++ c!"." ++ Spec.suffix i.action i.state]) :
    ((∀ i ∈ is, (Spec.operation t i).isSome) →
      Res.foldL (fun acc i => do
        let md ← instantMetadata t i
        let op ← Res.ofOption .commitMetadata ((jGet c!"operationType" md).bind Json.asStr)
        return if op = c!"cluster" then acc ++ [i] else acc) acc is
      = .ok (acc ++ is.filter (fun i => Spec.operation t i = some c!"cluster"))) ∧
    ((¬ ∀ i ∈ is, (Spec.operation t i).isSome) →
      ∃ e, Res.foldL (fun acc i => do
        let md ← instantMetadata t i
        let op ← Res.ofOption .commitMetadata ((jGet c!"operationType" md).bind Json.asStr)
        return if op = c!"cluster" then acc ++ [i] else acc) acc is = .err e) := by
  have hbind : ∀ (i : Instant) (k : Str → Res (List Instant)),
      (do
        let md ← instantMetadata t i
        let op ← Res.ofOption .commitMetadata ((jGet c!"operationType" md).bind Json.asStr)
        k op) = ((instantMetadata t i >>= fun md =>
          Res.ofOption .commitMetadata ((jGet c!"operationType" md).bind Json.asStr)) >>= k) := by
    intro i k; cases instantMetadata t i <;> rfl
  induction is generalizing acc with
  | nil => simp
  | cons i is ih =>
    have hpi := hp i (by simp)
    have ih := fun acc => ih acc (fun j hj => hp j (by simp [hj]))
    simp only [Res.foldL_cons, hbind]
    cases hop : Spec.operation t i with
    | none =>
      obtain ⟨e, he⟩ := operation_none hpi hop
      rw [he]
      constructor
      · intro h
        have := h i (by simp)
        simp [hop] at this
      · exact fun _ => ⟨e, rfl⟩
    | some op =>
      have := operation_spec (t := t) hpi
      rw [hop] at this
      rw [this]
      simp only [Res.ok_bind, Res.pure_eq]
      constructor
      · intro h
        have h := (ih (if op = c!"cluster" then acc ++ [i] else acc)).1 (fun j hj => h j (by simp [hj]))
        simp only [hbind, Res.pure_eq] at h
        rw [h]
        by_cases hc : op = c!"cluster"
        · simp [hop, hc]
        · simp [hop, hc]
      · intro h
        have h := (ih (if op = c!"cluster" then acc ++ [i] else acc)).2 (by
          intro h'
          apply h
          intro j hj
          rcases List.mem_cons.1 hj with rfl | hj
          · rw [hop]; rfl
          · exact h' j hj)
        simp only [hbind, Res.pure_eq] at h
        exact h

/-- **C11.** When the completed replacecommits can be listed, the clustering commits are exactly
those whose metadata names the operation `cluster`, in the same order; and if the metadata of any
replacecommit is unreadable or lacks the operation, the result is an error. -/
theorem C11_clustering_commits (E : Env) (tl : Timeline) (t : Tree) (desc : Bool)
    (hwf : ∀ n ∈ timelineNames t, Spec.NormalName n)
    (is : List Instant) (h : tl.completedOf E .replaceCommit t desc = .ok is) :
    ((∀ i ∈ is, (Spec.operation t i).isSome) →
      tl.clusteringCommits E t desc
        = .ok (is.filter (fun i => Spec.operation t i = some c!"cluster"))) ∧
    ((∃ i ∈ is, Spec.operation t i = none) → ∃ e, tl.clusteringCommits E t desc = .err e) := by
  obtain ⟨tz, _, ⟨f, hf, hp⟩, _⟩ := C05_completed_of_action E tl .replaceCommit t desc is h
  have hpath : ∀ i ∈ is, pathSegs i.relativePath
      = [c!".hoodie", i.timestamp ++ c!"." ++ Spec.suffix i.action i.state] := by
    intro i hi
    have : i ∈ (if desc then is.reverse else is) := by cases desc <;> simp [hi]
    obtain ⟨n, hn, h'⟩ := List.mem_filterMap.1 (hp.mem_iff.1 this)
    exact relativePath_segs ((hf n i).1 h') (hwf n hn)
  have := clustering_fold (t := t) [] hpath
  unfold Timeline.clusteringCommits
  rw [h]
  refine ⟨fun h' => ?_, fun h' => ?_⟩
  · simpa using this.1 h'
  · obtain ⟨i, hi, hn⟩ := h'
    exact this.2 (fun h'' => by have := h'' i hi; rw [hn] at this; cases this)

/-- A table with one clustering and one insert-overwrite. -/
example :
    let t : Tree := .dir c!".hoodie"
      (.file c!"20240103153010000.replacecommit" 1 (.json (.obj [(c!"operationType", .str c!"cluster")]))
      (.file c!"20240103153000.replacecommit" 1
        (.json (.obj [(c!"operationType", .str c!"insert_overwrite")])) .nil)) .nil
    ∃ is, Timeline.completedOf Demo.env ⟨[], []⟩ .replaceCommit t false = .ok is ∧
      (∀ n ∈ timelineNames t, Spec.NormalName n) ∧ is.length = 2 ∧
      (∀ i ∈ is, (Spec.operation t i).isSome) ∧
      (is.filter (fun i => Spec.operation t i = some c!"cluster")).length = 1 :=
  ⟨_, rfl, by decide, by decide, by decide, by decide⟩

end Hudi
