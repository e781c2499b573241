import Verif.Lemmas.Concurrent
import Verif.Props.Snapshot

/-! # C63: concurrent queries through one handle -/

namespace Hudi
open Spec

/-- **C63, answers.**  Any number of queries run at the same time through one table handle, on any
threads, after any earlier queries: under every schedule of their steps, each query that returns has
the answer it has alone through a fresh handle, up to order (as in C26, no partition known from
earlier queries has disappeared). -/
theorem C63_same_answers (E : Env) (A : Arrow) (tb : Table) (t : Tree) (hwf : TreeWF t)
    (hist : List Tree) (c : Cache) (hc : CacheAfter E A tb hist c) (hwfs : ∀ t' ∈ hist, TreeWF t')
    (hkeep : ∀ t' ∈ hist, ∀ x, PartitionOf tb.opts t' x → PartitionOf tb.opts t x)
    (R : Runtime) (hR : ∀ x, R.shard x < R.shards) (asks : List Ask) (s : Conc)
    (hs : Reaches E A tb t R (.init c asks) s) (i : Nat) (ask : Ask) (hi : asks[i]? = some ask)
    (r : Res (List FileSlice)) (hr : Returned s i r) : SameAnswer (alone E A tb t ask) r := by
  obtain ⟨hn, hk⟩ := cacheAfter_keys hc hwfs
  have hk : ∀ x ∈ c.map Prod.fst, PartitionOf tb.opts t x := fun x hx => by
    obtain ⟨t', ht', hp⟩ := hk x hx
    exact hkeep t' ht' x hp
  have hinv := (ConcInv.init (E := E) (A := A) (R := R) hn hk asks).reaches hwf hR hs
  obtain ⟨tk, h1, h2⟩ := hr
  have h3 := hinv.tasks i tk h1
  rw [h2] at h3
  have h4 : tk.ask = ask := by
    have := reaches_asks hs
    rw [← this, List.getElem?_map, h1] at hi
    exact Option.some.inj hi
  rw [← h4]
  exact h3

/-- **C63, afterwards.**  And a query made through the handle after, or in the middle of, such a run
has the answer it has alone. -/
theorem C63_cache_left_behind (E : Env) (A : Arrow) (tb : Table) (t : Tree) (hwf : TreeWF t)
    (hist : List Tree) (c : Cache) (hc : CacheAfter E A tb hist c) (hwfs : ∀ t' ∈ hist, TreeWF t')
    (hkeep : ∀ t' ∈ hist, ∀ x, PartitionOf tb.opts t' x → PartitionOf tb.opts t x)
    (R : Runtime) (hR : ∀ x, R.shard x < R.shards) (asks : List Ask) (s : Conc)
    (hs : Reaches E A tb t R (.init c asks) s) (ts : Str) (filters : List (Str × Str × Str)) :
    SameAnswer (alone E A tb t (.asOf ts filters)) (tb.fileSlicesAsOf E A t ts filters s.cache).2 := by
  obtain ⟨hn, hk⟩ := cacheAfter_keys hc hwfs
  have hk : ∀ x ∈ c.map Prod.fst, PartitionOf tb.opts t x := fun x hx => by
    obtain ⟨t', ht', hp⟩ := hk x hx
    exact hkeep t' ht' x hp
  have hinv := (ConcInv.init (E := E) (A := A) (R := R) hn hk asks).reaches hwf hR hs
  have hn0 : HmNodup ([] : Cache) := by simp [HmNodup]
  constructor
  · intro ss h
    obtain ⟨fs, h1, h2⟩ := Query.bind_lift_snd.1 h
    obtain ⟨ss', h3, h4⟩ := internal_cache_harmless hwf hn0 hinv.nodup noStale_nil
      (fun x gs hx => .inl (hinv.keys x (List.mem_map.2 ⟨_, hx, rfl⟩))) h2
    exact ⟨ss', Query.bind_lift_snd.2 ⟨fs, h1, h3⟩, h4⟩
  · intro ss h
    obtain ⟨fs, h1, h2⟩ := Query.bind_lift_snd.1 h
    obtain ⟨ss', h3, h4⟩ := internal_cache_harmless hwf hinv.nodup hn0
      (fun x gs hx => .inl (hinv.keys x (List.mem_map.2 ⟨_, hx, rfl⟩))) noStale_nil h2
    exact ⟨ss', Query.bind_lift_snd.2 ⟨fs, h1, h3⟩, h4.symm⟩

/-- **C63, no run goes on forever**, on whatever threads. -/
theorem C63_no_endless_run (E : Env) (A : Arrow) (tb : Table) (t : Tree) (hwf : TreeWF t)
    (hist : List Tree) (c : Cache) (hc : CacheAfter E A tb hist c) (hwfs : ∀ t' ∈ hist, TreeWF t')
    (hkeep : ∀ t' ∈ hist, ∀ x, PartitionOf tb.opts t' x → PartitionOf tb.opts t x)
    (R : Runtime) (hR : ∀ x, R.shard x < R.shards) (asks : List Ask) (f : Nat → Conc)
    (h0 : f 0 = .init c asks) : ¬ ∀ n, ∃ i ks, (f n).step E A tb t R i ks = some (f (n + 1)) := by
  intro hstep
  obtain ⟨hn, hk⟩ := cacheAfter_keys hc hwfs
  have hk : ∀ x ∈ c.map Prod.fst, PartitionOf tb.opts t x := fun x hx => by
    obtain ⟨t', ht', hp⟩ := hk x hx
    exact hkeep t' ht' x hp
  have hreach : ∀ n, Reaches E A tb t R (.init c asks) (f n) := by
    intro n
    induction n with
    | zero => rw [h0]; exact .refl
    | succ n ih =>
      obtain ⟨i, ks, h⟩ := hstep n
      exact .step i ks ih h
  have hwell : WellFounded (Relation.CutExpand rankLt) := rankLt_wf.cutExpand
  have : ∀ m : Multiset (Nat × Nat × Nat), ∀ n, (f n).ranks tb.opts t R = m → False := by
    intro m
    induction m using hwell.induction with
    | _ m ih =>
      intro n hm
      obtain ⟨i, ks, h⟩ := hstep n
      have hinv := (ConcInv.init (E := E) (A := A) (R := R) hn hk asks).reaches hwf hR (hreach n)
      have := step_ranks hinv (reaches_within (hreach n)) h
      rw [hm] at this
      exact ih _ this (n + 1) rfl
  exact this _ 0 rfl

/-- **C63 (partial), all queries return**, if each has a thread of its own: as long as one has not, some
query can take a step (and by `C63_no_endless_run` this comes to an end).  Missing: queries that share
a thread (`C63_false`). -/
theorem C63_all_return_partial (E : Env) (A : Arrow) (tb : Table) (t : Tree) (c : Cache)
    (R : Runtime) (hown : OwnThreads R) (asks : List Ask) (s : Conc)
    (hs : Reaches E A tb t R (.init c asks) s) (hnot : ¬ AllReturned s) : CanGoOn E A tb t R s := by
  obtain ⟨i, tk, h1, h2, h3⟩ := some_free (R := R) s
    (fun tk htk k hk => (reaches_within hs tk htk).holds hk) hnot
  obtain ⟨ks, r, h4⟩ := pcStep_enabled (A := A) (plan := tb.plan E A t) (t := t) (free := s.free i)
    (keysIn := s.keysIn R) (ask := tk.ask) (c := s.cache) h2 h3
  refine ⟨i, ks, ⟨r.1, s.tasks.set i ⟨tk.ask, r.2⟩⟩, ?_⟩
  unfold Conc.step
  rw [h1]
  simp only
  rw [if_pos (scheduled_own hown s i)]
  unfold pcStep
  rw [h4]

namespace Demo

/-- A run given by the queries that take the steps, in order, and the orders of hash maps. -/
def runSteps (E : Env) (A : Arrow) (tb : Table) (t : Tree) (R : Runtime) :
    List (Nat × List Str) → Conc → Option Conc
  | [], s => some s
  | (i, ks) :: rest, s => (s.step E A tb t R i ks).bind (runSteps E A tb t R rest)

theorem runSteps_reaches {E : Env} {A : Arrow} {tb : Table} {t : Tree} {R : Runtime} {s0 s s' : Conc}
    {l : List (Nat × List Str)} (hs : Reaches E A tb t R s0 s) (h : runSteps E A tb t R l s = some s') :
    Reaches E A tb t R s0 s' := by
  induction l generalizing s with
  | nil => cases h; exact hs
  | cons e l ih =>
    obtain ⟨i, ks⟩ := e
    obtain ⟨s1, h1, h2⟩ := Option.bind_eq_some_iff.1 h
    exact ih (.step i ks hs h1) h2

/-- No query can take a step: each has returned, or its thread is taken, or it waits for a lock. -/
def stuck (A : Arrow) (R : Runtime) (s : Conc) : Bool :=
  (List.range s.tasks.length).all (fun i => (s.tasks[i]?).all (fun tk =>
    !s.scheduled A R i ||
    match tk.pc with
    | .finished _ => true
    | .inserting _ ((x, _) :: _) => !s.free i (R.shard x)
    | _ => false))

theorem stuck_spec {E : Env} {A : Arrow} {tb : Table} {t : Tree} {R : Runtime} {s : Conc}
    (h : stuck A R s = true) : ¬ CanGoOn E A tb t R s := by
  rintro ⟨i, ks, s', hs⟩
  unfold Conc.step at hs
  split at hs
  · cases hs
  · rename_i tk htk
    split at hs
    · rename_i hsch
      have := List.all_eq_true.1 h i (List.mem_range.2 (List.getElem?_eq_some_iff.1 htk).1)
      rw [htk] at this
      simp only [Option.all_some, hsch, Bool.not_true, Bool.false_or] at this
      cases hpc : tk.pc with
      | finished r => rw [hpc] at hs; cases hs
      | start => rw [hpc] at this; cases this
      | next p k acc => rw [hpc] at this; cases this
      | visiting p k rest j acc => rw [hpc] at this; cases this
      | inserting p rest =>
        rw [hpc] at this hs
        cases rest with
        | nil => cases this
        | cons e rest =>
          simp only [Bool.not_eq_true'] at this
          simp [pcStep, pcStepWith, this] at hs
    · cases hs

/-- Four shards; queries run on the given threads. -/
def runtime (thread : Nat → Nat) : Runtime := ⟨4, fun x => x.length % 4, thread⟩

/-- The first query lists the two partitions, puts them into the cache and goes to their shard. -/
def firstToShard : List (Nat × List Str) :=
  [(0, [c!"us", c!"eu"]), (0, []), (0, []), (0, []), (0, []), (0, []), (0, []), (0, []), (0, [c!"eu", c!"us"])]

/-- Two queries, the first looking at one group of `eu` while the second has listed the partitions;
then the first goes on to its end, and the second after it. -/
def twoQueries : List (Nat × List Str) :=
  firstToShard ++ [(1, [c!"us"]), (0, []), (0, []), (0, []), (0, []), (0, []), (0, []), (0, []),
    (1, []), (1, []), (1, []), (0, []), (1, []), (1, []), (1, []), (1, [c!"us", c!"eu"]), (1, []),
    (1, []), (1, []), (1, []), (1, []), (1, []), (1, [])]

end Demo

open Demo in
/-- Two queries with different answers, interleaved: the second lists a partition while the first
looks at the shard of that partition, puts the listing into the cache when the first has left the
shard, and both return. -/
example : TreeWF regionTree ∧ (∀ x, (runtime id).shard x < (runtime id).shards) ∧ OwnThreads (runtime id) ∧
    ∃ s, Reaches env arrow regionTable regionTree (runtime id)
      (.init [] [.latest [], .asOf c!"20240103153000000" [(c!"region", c!"=", c!"us")]]) s ∧
    ∃ a b, Returned s 0 (.ok a) ∧ Returned s 1 (.ok b) ∧
      a.map (fun s => (s.partitionPath, s.baseFile.writeToken)) =
        [(c!"eu", c!"0-1-2"), (c!"us", c!"0-1-3")] ∧
      b.map (fun s => (s.partitionPath, s.baseFile.writeToken)) = [(c!"us", c!"0-1-2")] := by
  refine ⟨by decide, fun x => Nat.mod_lt _ (by decide), fun i j h => h, ?_⟩
  have h : (runSteps env arrow regionTable regionTree (runtime id) twoQueries
      (.init [] [.latest [], .asOf c!"20240103153000000" [(c!"region", c!"=", c!"us")]])).any (fun s =>
        match s.tasks with
        | [⟨_, .finished (.ok a)⟩, ⟨_, .finished (.ok b)⟩] =>
          a.map (fun s => (s.partitionPath, s.baseFile.writeToken)) =
            [(c!"eu", c!"0-1-2"), (c!"us", c!"0-1-3")] &&
          b.map (fun s => (s.partitionPath, s.baseFile.writeToken)) = [(c!"us", c!"0-1-2")]
        | _ => false) = true := by decide +kernel
  obtain ⟨s, h1, h2⟩ := (Option.any_eq_true _ _).1 h
  refine ⟨s, runSteps_reaches .refl h1, ?_⟩
  split at h2
  · rename_i _ a _ b hab
    simp only [Bool.and_eq_true, decide_eq_true_eq] at h2
    exact ⟨a, b, ⟨_, by rw [hab]; rfl, rfl⟩, ⟨_, by rw [hab]; rfl, rfl⟩, h2.1, h2.2⟩
  · cases h2

open Demo in
/-- **C63 as stated is false** of queries that share a thread (two futures joined in one task, or any
number on a single-threaded runtime).  The first holds the lock of a shard while it waits for the
storage; the second then waits for that lock and blocks the thread, so the first never goes on. -/
theorem C63_false : ∃ (E : Env) (A : Arrow) (tb : Table) (t : Tree) (R : Runtime) (s : Conc),
    TreeWF t ∧ (∀ x, R.shard x < R.shards) ∧
    (∃ ss, alone E A tb t (.latest []) = .ok ss ∧ ss.length = 2) ∧
    Reaches E A tb t R (.init [] [.latest [], .latest []]) s ∧
    ¬ AllReturned s ∧ ¬ CanGoOn E A tb t R s := by
  have h : (runSteps env arrow regionTable regionTree (runtime (fun _ => 0))
      (firstToShard ++ [(1, [c!"eu", c!"us"])]) (.init [] [.latest [], .latest []])).any (fun s =>
        stuck arrow (runtime (fun _ => 0)) s &&
        s.tasks.any (fun tk => match tk.pc with | .finished _ => false | _ => true)) = true := by
    decide +kernel
  obtain ⟨s, h1, h2⟩ := (Option.any_eq_true _ _).1 h
  rw [Bool.and_eq_true] at h2
  refine ⟨env, arrow, regionTable, regionTree, runtime (fun _ => 0), s, by decide,
    fun x => Nat.mod_lt _ (by decide), ⟨_, rfl, by decide +kernel⟩, runSteps_reaches .refl h1, ?_,
    stuck_spec h2.1⟩
  intro hall
  obtain ⟨tk, h3, h4⟩ := List.any_eq_true.1 h2.2
  obtain ⟨r, hr⟩ := hall tk h3
  rw [hr] at h4
  cases h4

end Hudi
