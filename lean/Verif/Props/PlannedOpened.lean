import Verif.Props.PlannedArchived
import Verif.Props.ArchiverOpened

/-! # C98: query plans for a table opened by its path -/

namespace Hudi
open Spec

/-- **C98, from the path (partial).**  A query engine opens the table by its path when writers, a cleaner and an archiver
have come to `s0`, makes a plan when they have come to `s`, and opens each file of the plan at a later moment of its own.
The plan names each file once; the engine finds each of them, of the size that it was told; together they are the base
files of the table as it was when it was opened, in the partitions that the predicates do not rule out, and the rows that
satisfy all predicates are those of all base files of that table.  Missing: as in `C98_planned_query_archived_partial`. -/
theorem C98_opened_partial (E : Env) (A : Arrow) (U : Str → Option Str) (D : Str → Str) (hD : Readable A D)
    (V : Meaning) (S : Setting) (hmono : MonotoneTz E.ltz) (hsec : WholeSecondsTz E.ltz) (r q : Str) (s0 s : Work)
    (hs0 : Archives S r q nothingYet s0) (hs : Archives S r q s0 s) (hn : NamesCurrent s0) (w : World) (uri : Str)
    (calls : List Call) (hw : TableOf E S s0 w uri calls)
    (es handed : List Expr) (hsub : ∀ e ∈ handed, e ∈ es) (hor : ∀ e ∈ handed, ColumnFirst e)
    (fs : List Filter) (hive url : Bool) (ha : Askable A S (exprsToFilters D handed) fs hive url)
    (hplain : PlainTable S.o s.tree) (hcarry : CarryPartitions A S.pcols hive url s0.done)
    (hr : ∀ c, s0.history.getLast? = some c → (compare r c.ts).isLE)
    (hq : ∀ c, s0.history.getLast? = some c → (compare q c.ts).isLE) :
    ∃ tb, (builderOf uri calls).build E w = .ok tb ∧ ∀ base ds, tb.baseUrlPath U = .ok base → PlainBase base ds →
      ∃ plan, (tb.scan E A U D s.tree handed []).2 = .ok plan ∧ (plan.flatten.map ScanFile.path).Nodup ∧
        ∃ read all, ReadsBaseFiles (basesBy s0.done) s0.history (Kept A S.pcols hive url fs) read ∧
          ReadsBaseFiles (basesBy s0.done) s0.history (fun _ => True) all ∧
          (read.flatMap (matching A V es)).Perm (all.flatMap (matching A V es)) ∧
          ∀ at' : ScanFile → Work, (∀ f, Archives S r q s (at' f)) → Executes base (fun f => (at' f).tree) plan read := by
  obtain ⟨tb, hb, ho, hh⟩ := tableOf_opens hw
  have hp := partitionPath_same ho
  have hf := agree_same ho
  have hplain' : PlainTable tb.opts s.tree := by
    intro x hx
    refine hplain x ?_
    unfold PartitionOf Partitioned at hx ⊢
    rw [ho, ho]
    exact hx
  refine ⟨tb, hb, fun base ds hbase hpb => ?_⟩
  have hask := askable_with ho ha hh
  obtain ⟨plan, h1, h2, read, h3, h4⟩ := C98_planned_scan_archived_partial E A U D { S with o := tb.opts } hmono hsec r q
    s0 s (archives_with hp hf hs0) (archives_with hp hf hs) hn tb handed fs hive url hask base ds hbase hpb hplain' hr hq
  obtain ⟨all, g2, g3⟩ := planned_rows_archived (S := { S with o := tb.opts }) hD V hmono (archives_with hp hf hs0) hsub hor
    hask hcarry hq h3
  exact ⟨plan, h1, h2, read, all, h3, g2, g3, fun at' hat => h4 at' (fun f => archives_with hp hf (hat f))⟩

end Hudi
