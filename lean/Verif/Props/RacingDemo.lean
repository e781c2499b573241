import Verif.Props.Racing
import Verif.Props.QueryDemo

/-! # C65: a read during later writes, and a read during an unfinished commit -/

namespace Hudi
open Spec

/-- All files of the first tree are in the second, unchanged. -/
def Keeps : Tree → Tree → Prop
  | .nil, _ => True
  | .file n s c rest, u => u.file? n = some (s, c) ∧ Keeps rest u
  | .dir n sub rest, u => Keeps sub (u.sub n) ∧ Keeps rest u

theorem keeps_file? {t u : Tree} (h : Keeps t u) {n : Str} {e : Nat × Content}
    (he : t.file? n = some e) : u.file? n = some e := by
  induction t with
  | nil => cases he
  | file m s c rest ih =>
    simp only [Tree.file?] at he
    split at he
    · rename_i hm; subst hm; rw [h.1, he]
    · exact ih h.2 he
  | dir m sub rest _ ih => exact ih h.2 he

theorem keeps_sub {t u : Tree} (h : Keeps t u) (n : Str) : Keeps (t.sub n) (u.sub n) := by
  induction t with
  | nil => trivial
  | file m s c rest ih => exact ih h.2
  | dir m sub rest _ ih =>
    simp only [Tree.sub]
    split
    · rename_i hm; subst hm; exact h.1
    · exact ih h.2

theorem keeps_fileAt {t u : Tree} (h : Keeps t u) {p : List Str} {e : Nat × Content}
    (he : t.fileAt p = some e) : u.fileAt p = some e := by
  induction p generalizing t u with
  | nil => cases he
  | cons n p ih =>
    cases p with
    | nil => exact keeps_file? h he
    | cons m ms => exact ih (keeps_sub h n) he

namespace Demo

/-- The requests of a read of `travelTree`, answered while it becomes `travelTree'`: the subdirectories and
the timeline before, the files after. -/
def travelRace : Race where
  replaced := fun _ => travelTree
  latest := travelTree
  schema := travelTree'
  dirs := fun _ => travelTree
  files := fun _ => travelTree'
  sizes := fun _ => travelTree'
  data := fun _ => travelTree'

theorem travel_held : HeldOnly morOpts travelTree travelHeld := by
  intro x hx n _ hn
  rw [travel_part, List.mem_singleton] at hx
  subst hx
  unfold travelHeld
  split
  · rename_i h
    exfalso
    have h2 : ∃ l0 ∈ logsOf (metas (filesOf travelTree [])), l0.fileName = morLog := by decide +kernel
    obtain ⟨l0, k1, k2⟩ := h2
    refine hn l0 (mem_logsOf.1 k1) (k2.trans ?_)
    have : pathPush [] n = n := by
      unfold pathPush
      split
      · rfl
      · simp
    rw [← h, this]
  · rfl

theorem mor_path {x : Str} (h : PartitionPath morOpts x) : x = [] := by
  rcases h with h | h
  · exact h.2
  · exact absurd h.1 (by decide)

theorem travel_meanwhile : Meanwhile codec some c!"utc" morOpts t1 travelTable.timeline travelTree travelHeld
    travelTree where
  wf := by decide
  one := by intro x hx; rw [mor_path hx]; exact oneExtension_of (by decide)
  partitions := fun _ _ h => h.part
  parquet := fun _ _ _ _ => id
  columns := fun _ _ _ _ _ _ _ => id
  docs := fun _ _ => rfl
  bases := fun _ _ h => h.base
  newBases := by
    intro x b hx hb _
    rw [mor_path hx] at hb ⊢
    exact ⟨(travel_part []).2 (by simp), hb⟩
  logs := fun x _ _ l hl _ => ⟨l, hl, rfl⟩
  appended := by
    rintro hrd x _ ⟨hx, _⟩ l hl _
    exact ⟨[], by rw [List.append_nil]; exact (travel_data.logs hrd x hx l hl).1, by simp⟩

theorem travel_kept {path : Str} {s : Nat} {z : Int} {b : Batch} {f : Schema}
    (h : travelTree.fileAt (pathSegs path) = some (s, .parquet z b f)) :
    travelTree'.fileAt (pathSegs path) = some (s, .parquet z b f) := by
  have hk : Keeps (.dir c!".hoodie" (.file c!"20231231000000000.commit" 1 .junk
      (.file c!"20240101000000000.deltacommit" 1 morDoc .nil)) (.file morBase 1 (.parquet 1 mor) .nil))
      travelTree' := by
    repeat' (first | exact trivial | exact rfl | refine And.intro ?_ ?_)
  refine keeps_fileAt hk ?_
  revert h
  match hs : pathSegs path with
  | [] => exact id
  | [n] =>
    simp only [Tree.fileAt, travelTree, Tree.file?]
    intro h
    split at h
    · rename_i hn; rw [if_pos hn]; exact h
    · split at h
      · cases h
      · cases h
  | n :: m :: ms => exact id

theorem travel_meanwhile' : Meanwhile codec some c!"utc" morOpts t1 travelTable.timeline travelTree travelHeld
    travelTree' where
  wf := by decide
  one := by intro x hx; rw [mor_path hx]; exact oneExtension_of (by decide)
  partitions := fun x _ h => travel_later.partitions x h.part
  parquet := fun _ _ _ _ ⟨s, z, f, h⟩ => ⟨s, z, f, travel_kept h⟩
  columns := fun _ _ _ _ _ _ _ ⟨s, z, b, h⟩ => ⟨s, z, b, travel_kept h⟩
  docs := fun i hi => (travel_later.instants i hi).2
  bases := fun x b h => (travel_later.bases x h.part b h.base).1
  newBases := by
    intro x b hx hb hle
    rw [mor_path hx] at hb ⊢
    exact travel_later.newBases [] b ((travel_part' []).2 (by simp)) hb hle
  logs := fun x _ h l hl _ => travel_later.logs x h.part l hl
  appended := by
    rintro hrd x _ ⟨hx, _⟩ l hl _
    obtain ⟨h1, more, h2, h3⟩ := travel_later.appended hrd x (travel_later.partitions x hx) l hl
    exact ⟨more, by rw [← h2]; exact h1, h3⟩

/-- The hypotheses of `C65_isolated_partial` and `C65_latest_isolated_partial` (the others are those of C28) hold of this read, which lists two log files and a base file that
were not there when it began, and returns the rows of the table as of the first delta commit. -/
example : AllSeen (Meanwhile codec some c!"utc" morOpts t1 travelTable.timeline travelTree travelHeld)
      travelRace ∧
    HeldOnly morOpts travelTree travelHeld ∧ travelTable.timeline.latestTimestamp = some t1 ∧
    ∃ outs, travelTable.readSnapshotAsOfR env arrow codec (mergeEnv arrow) 1 travelRace t1 [] = .ok outs ∧
      travelTable.readSnapshotR env arrow codec (mergeEnv arrow) 1 travelRace [] = .ok outs ∧
      (travelTable.readSnapshotAsOf env arrow codec (mergeEnv arrow) travelTree t1 [] []).2 = .ok outs ∧
      (outs.flatMap Batch.rows).length = 3 := by
  refine ⟨⟨fun _ => travel_meanwhile, travel_meanwhile, travel_meanwhile', fun _ => travel_meanwhile,
    fun _ => travel_meanwhile', fun _ => travel_meanwhile', fun _ => travel_meanwhile'⟩, travel_held, rfl, ?_⟩
  exact ⟨[⟨mSchema, [mRow c!"2" c!"A" c!"x" 9, mRow c!"1" c!"C" c!"bob" 7, mRow c!"3" c!"B" c!"y" 1]⟩],
    by decide +kernel, by decide +kernel, by decide +kernel, rfl⟩

/-! ## An unfinished commit -/

def payRow (p : Str) (v : Nat) : Batch := ⟨[⟨c!"city", .utf8, true⟩, ⟨c!"amount", .int true 64, true⟩],
  [[some (.str p), some (.int v)]]⟩

def payDoc : Content :=
  .json (.obj [(c!"partitionToWriteStats", .obj [(c!"a", .arr [.obj [(c!"fileId", .str c!"f1"),
    (c!"path", .str c!"a/f1_0-0-0_20240101000000000.parquet")]])])])

def payHoodie : Tree := .file c!"20240101000000000.commit" 1 payDoc
  (.file c!"20240102000000000.commit.requested" 1 .junk (.file c!"20240102000000000.inflight" 1 .junk
  (.file c!"20240103000000000.commit" 1 payDoc .nil)))

/-- Two partitions, with 10 in one and 0 in the other. -/
def payTree : Tree := .dir c!".hoodie" payHoodie
  (.dir c!"a" (.file c!"f1_0-0-0_20240101000000000.parquet" 1 (.parquet 1 (payRow c!"a" 10)) .nil)
  (.dir c!"b" (.file c!"f2_0-0-0_20240101000000000.parquet" 1 (.parquet 1 (payRow c!"b" 0)) .nil) .nil))

/-- The commit in flight has moved the 10 from one to the other. -/
def payTree' : Tree := .dir c!".hoodie" payHoodie
  (.dir c!"a" (.file c!"f1_0-0-0_20240101000000000.parquet" 1 (.parquet 1 (payRow c!"a" 10))
    (.file c!"f1_0-0-0_20240102000000000.parquet" 1 (.parquet 1 (payRow c!"a" 0)) .nil))
  (.dir c!"b" (.file c!"f2_0-0-0_20240101000000000.parquet" 1 (.parquet 1 (payRow c!"b" 0))
    (.file c!"f2_0-0-0_20240102000000000.parquet" 1 (.parquet 1 (payRow c!"b" 10)) .nil)) .nil))

def payTable : Table := ⟨(c!"hoodie.table.partition.fields", c!"city") :: morOpts, [],
  ⟨[], [⟨t1, .commit, .completed, 1704067200000⟩, ⟨t3, .commit, .completed, 1704240000000⟩]⟩⟩

/-- One partition is listed before the files are written and the other after. -/
def payRace : Race where
  replaced := fun _ => payTree
  latest := payTree
  schema := payTree
  dirs := fun _ => payTree
  files := fun x => if x = c!"a" then payTree else payTree'
  sizes := fun _ => payTree'
  data := fun _ => payTree'

end Demo

/-- **C65 as stated is false.**  While a commit that was requested before the latest completed one, and is not
completed, writes its base files into two partitions, a read lists one partition before and the other after, and
returns rows that the table held at no moment: half of the effects of that commit.  Nothing else happens in the
table, no file is changed or removed, and the completed instants are the same throughout. -/
theorem C65_false : ∃ (E : Env) (A : Arrow) (C : Codec) (M : MergeEnv A) (t t' : Tree) (tb : Table) (R : Race)
    (ts : Str) (outs before after : List Batch),
    TreeWF t ∧ TreeWF t' ∧ (∀ p e, t.fileAt p = some e → t'.fileAt p = some e) ∧
    Timeline.load E [] t = .ok tb.timeline ∧ Timeline.load E [] t' = .ok tb.timeline ∧
    tb.timeline.latestTimestamp = some ts ∧ AllSeen (fun u => u = t ∨ u = t') R ∧
    tb.readSnapshotR E A C M 1 R [] = .ok outs ∧
    (tb.readSnapshot E A C M t [] []).2 = .ok before ∧ (tb.readSnapshot E A C M t' [] []).2 = .ok after ∧
    ¬ (outs.flatMap Batch.rows).Perm (before.flatMap Batch.rows) ∧
    ¬ (outs.flatMap Batch.rows).Perm (after.flatMap Batch.rows) := by
  refine ⟨Demo.env, Demo.arrow, Demo.codec, Demo.mergeEnv Demo.arrow, Demo.payTree, Demo.payTree', Demo.payTable,
    Demo.payRace, Demo.t3, [Demo.payRow c!"a" 10, Demo.payRow c!"b" 10], [Demo.payRow c!"a" 10, Demo.payRow c!"b" 0],
    [Demo.payRow c!"a" 0, Demo.payRow c!"b" 10], by decide, by decide, ?_, by decide +kernel, by decide +kernel,
    by decide +kernel, ?_, by decide +kernel, by decide +kernel, by decide +kernel, by decide, by decide⟩
  · refine fun p e h => keeps_fileAt ?_ h
    repeat' (first | exact trivial | exact rfl | refine And.intro ?_ ?_)
  · refine ⟨fun _ => .inl rfl, .inl rfl, .inl rfl, fun _ => .inl rfl, ?_, fun _ => .inr rfl, fun _ => .inr rfl⟩
    intro x
    show (if x = c!"a" then Demo.payTree else Demo.payTree') = _ ∨
      (if x = c!"a" then Demo.payTree else Demo.payTree') = _
    split
    · exact .inl rfl
    · exact .inr rfl

end Hudi
