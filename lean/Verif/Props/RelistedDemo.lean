import Verif.Props.Relisted
import Verif.Props.TravelDemo
import Verif.Props.OpenedDemo

/-! # C97: examples, and what goes wrong without the hypotheses -/

namespace Hudi

open Spec

namespace Demo

/-- The entries of the first tree before those of the second. -/
def beforeAll : Tree → Tree → Tree
  | .nil, u => u
  | .file n s c r, u => .file n s c (beforeAll r u)
  | .dir n v r, u => .dir n v (beforeAll r u)

/-- The entries of every directory in the opposite order, before those of the second tree. -/
def turnedOnto : Tree → Tree → Tree
  | .nil, u => u
  | .file n s c r, u => turnedOnto r (.file n s c u)
  | .dir n v r, u => turnedOnto r (.dir n (turnedOnto v .nil) u)

/-- The entries of every directory in the opposite order. -/
def turned (t : Tree) : Tree := turnedOnto t .nil

theorem beforeAll_file (n : Str) (s : Nat) (c : Content) (t u : Tree) :
    Relisted (.file n s c (beforeAll t u)) (beforeAll t (.file n s c u)) := by
  induction t with
  | nil => exact .refl _
  | file m k d r ih => exact (Relisted.fileFile ..).trans (.file m k d ih)
  | dir m v r _ ih => exact (Relisted.fileDir ..).trans (.dir m (.refl _) ih)

theorem beforeAll_dir (n : Str) (v t u : Tree) :
    Relisted (.dir n v (beforeAll t u)) (beforeAll t (.dir n v u)) := by
  induction t with
  | nil => exact .refl _
  | file m k d r ih => exact (Relisted.dirFile ..).trans (.file m k d ih)
  | dir m v r _ ih => exact (Relisted.dirDir ..).trans (.dir m (.refl _) ih)

theorem beforeAll_right {u u' : Tree} (h : Relisted u u') (t : Tree) :
    Relisted (beforeAll t u) (beforeAll t u') := by
  induction t with
  | nil => exact h
  | file m k d r ih => exact .file m k d ih
  | dir m v r _ ih => exact .dir m (.refl _) ih

theorem beforeAll_nil (t : Tree) : beforeAll t .nil = t := by
  induction t with
  | nil => rfl
  | file m k d r ih => simp [beforeAll, ih]
  | dir m v r _ ih => simp [beforeAll, ih]

theorem turnedOnto_relisted (t : Tree) : ∀ u, Relisted (beforeAll t u) (turnedOnto t u) := by
  induction t with
  | nil => exact fun u => .refl u
  | file n s c r ih => exact fun u => (beforeAll_file n s c r u).trans (ih _)
  | dir n v r ih1 ih =>
    intro u
    have hv := ih1 .nil
    rw [beforeAll_nil] at hv
    exact (beforeAll_dir n v r u).trans
      ((beforeAll_right (.dir n hv (.refl u)) r).trans (ih _))

/-- Listing every directory backwards. -/
theorem turned_relisted (t : Tree) : Relisted t (turned t) := by
  have := turnedOnto_relisted t .nil
  rwa [beforeAll_nil] at this

theorem sub_missing {n : Str} {t : Tree} (h : n ∉ t.dirs) : t.sub n = .nil := by
  induction t with
  | nil => rfl
  | file m k d r ih => exact ih h
  | dir m v r _ ih =>
    simp only [Tree.dirs, List.mem_cons, not_or] at h
    simp only [Tree.sub]
    rw [if_neg (fun e => h.1 e.symm)]
    exact ih h.2

theorem oneExtension_nil : OneExtensionAnywhere .nil := by
  have : ∀ p, (Tree.nil.at p) = .nil := by
    intro p
    induction p with
    | nil => rfl
    | cons n p ih => exact ih
  intro p
  rw [this]
  exact oneExtension_of (by decide)

theorem oneExtension_anywhere {t : Tree} (h : OneExtension t.files)
    (hs : ∀ d ∈ t.dirs, OneExtensionAnywhere (t.sub d)) : OneExtensionAnywhere t := by
  intro p
  cases p with
  | nil => exact h
  | cons n p =>
    by_cases hn : n ∈ t.dirs
    · exact hs n hn p
    · have := oneExtension_nil p
      simpa only [Tree.at, sub_missing hn] using this

theorem oneExtension_travel : OneExtensionAnywhere travelTree' := by
  refine oneExtension_anywhere (oneExtension_of (by decide +kernel)) (fun d hd => ?_)
  simp only [travelTree', Tree.dirs, List.mem_singleton] at hd
  subst hd
  exact oneExtension_anywhere (oneExtension_of (by decide +kernel)) (fun d hd => nomatch hd)

/-- The file slices with their log files. -/
def slicesOn (t : Tree) : Option (List (Str × List Str)) :=
  match (travelTable'.fileSlicesAsOf env arrow t t3 [] []).2 with
  | .ok ss => some (ss.map (fun s => (s.baseFile.fileName, s.logFiles.map LogFile.fileName)))
  | _ => none

/-- How many records each batch of the snapshot has. -/
def recordsOn (t : Tree) : Option (List Nat) :=
  match (travelTable'.readSnapshotAsOf env arrow codec (mergeEnv arrow) t t3 [] []).2 with
  | .ok bs => some (bs.map (fun b => b.rows.length))
  | _ => none

/-- The counterexample: two log files whose names differ only in the extension. -/
def twinLog : Str := c!".f1_20231231000000000.old.1_0-0-1"

def twinTree : Tree :=
  .dir c!".hoodie" (.file c!"20231231000000000.commit" 1 .junk
    (.file c!"20240101000000000.deltacommit" 1 morDoc (.file c!"20240102000000000.deltacommit" 1 morDoc
    (.file c!"20240103000000000.deltacommit" 1 morDoc .nil))))
  (.file morBase 1 (.parquet 1 mor) (.file morLog 2 (.bytes (logBytes [w1]))
    (.file twinLog 1 (.bytes (logBytes [w2])) .nil)))

/-- The metadata of a commit that names a schema. -/
def schemaDoc (s : Str) : Content := .json (.obj [(c!"extraMetadata", .obj [(c!"schema", .str s)])])

/-- Two actions that were completed at the same time. -/
def tiedTree : Tree :=
  .dir c!".hoodie" (.file c!"hoodie.properties" 1 (.bytes (utf8Encode tripsText))
    (.file c!"20240101000000000.commit" 1 (schemaDoc c!"old")
    (.file c!"20240101000000000.deltacommit" 1 (schemaDoc c!"new") .nil))) .nil

/-- The schema of the table in this storage, opened anew. -/
def schemaOn (t : Tree) : Option Str :=
  match (builderOf c!"s3://b/trips" openCalls).build env (openWorld t) with
  | .ok tb =>
    match tb.avroSchema t with
    | .ok s => some s
    | _ => none
  | _ => none

theorem openWorld_turned {t : Tree} (h : TreeWF t) : RelistedWorld (openWorld t) (openWorld (turned t)) := by
  refine ⟨rfl, fun o uri => ?_⟩
  show SameStore (if uri = _ then _ else _) (if uri = _ then _ else _)
  split
  · exact .opened h (turned_relisted t) rfl
  · exact .refused _

end Demo

open Demo in
/-- The hypotheses are met by a table of two file groups, one with two log files, and the same table with every
directory listed backwards; the listings are different, and what is read from them is the same, in another order. -/
example : Relisted travelTree' (turned travelTree') ∧ TreeWF travelTree' ∧ OneExtensionAnywhere travelTree' ∧
    travelTree'.files ≠ (turned travelTree').files ∧
    slicesOn travelTree' = some [(morBase, [morLog, morLog2]), (morBase3, [])] ∧
    slicesOn (turned travelTree') = some [(morBase3, []), (morBase, [morLog, morLog2])] ∧
    recordsOn travelTree' = some [2, 2] ∧ recordsOn (turned travelTree') = some [2, 2] := by
  refine ⟨turned_relisted _, by decide +kernel, oneExtension_travel, ?_⟩
  decide +kernel

open Demo in
/-- A table that is opened from a storage and from the same storage listed backwards. -/
example : RelistedWorld (openWorld openTree) (openWorld (turned openTree)) ∧
    (builderOf c!"s3://b/trips" openCalls).build env (openWorld openTree) = .ok openTable ∧
    (openTable.timeline.completed.map (fun i => i.epochMillis)).Nodup ∧
    (builderOf c!"s3://b/trips" openCalls).build env (openWorld (turned openTree)) = .ok openTable :=
  have h := openWorld_turned (t := openTree) (by decide +kernel)
  have hn : (openTable.timeline.completed.map (fun i => i.epochMillis)).Nodup := by decide +kernel
  ⟨h, open_build, hn, C97_opened_partial env env rfl h _ _ open_build hn⟩

open Demo in
/-- **C97 is false without the hypotheses.**  If two log files of a file slice have names that differ only in the
extension, the one that is listed first is read and the other is not.  If two actions were completed at the same
time, the one that is listed last decides which schema the table has. -/
theorem C97_false :
    (∃ (t t' : Tree) (tb : Table) (E : Env) (A : Arrow) (ts : Str) (s s' : FileSlice), Relisted t t' ∧ TreeWF t ∧
      (tb.fileSlicesAsOf E A t ts [] []).2 = .ok [s] ∧ (tb.fileSlicesAsOf E A t' ts [] []).2 = .ok [s'] ∧
      s.logFiles.map LogFile.fileName = [morLog] ∧ s'.logFiles.map LogFile.fileName = [twinLog]) ∧
    (∃ (w w' : World) (b : TableBuilder) (E : Env) (t t' : Tree) (tb tb' : Table), RelistedWorld w w' ∧
      (∀ o uri, (∃ s, w.connect o uri = .ok s) → w.connect o uri = .ok ⟨t, fun _ => none⟩ ∧
        w'.connect o uri = .ok ⟨t', fun _ => none⟩) ∧
      b.build E w = .ok tb ∧ b.build E w' = .ok tb' ∧ tb.avroSchema t = .ok c!"new" ∧
      tb'.avroSchema t' = .ok c!"old") := by
  constructor
  · have key : ∀ t b l, slicesOn t = some [(b, l)] → ∃ s, (travelTable'.fileSlicesAsOf env arrow t t3 [] []).2 = .ok [s] ∧
        s.logFiles.map LogFile.fileName = l := by
      intro t b l h
      unfold slicesOn at h
      split at h
      · rename_i ss hss
        match ss, h with
        | [s], h => exact ⟨s, hss, by simp at h; exact h.2⟩
      · cases h
    obtain ⟨s, h1, h2⟩ := key twinTree morBase [morLog] (by decide +kernel)
    obtain ⟨s', h3, h4⟩ := key (turned twinTree) morBase [twinLog] (by decide +kernel)
    exact ⟨_, _, _, _, _, _, s, s', turned_relisted _, by decide +kernel, h1, h3, h2, h4⟩
  · have h1 : schemaOn tiedTree = some c!"new" := by decide +kernel
    have h2 : schemaOn (turned tiedTree) = some c!"old" := by decide +kernel
    have key : ∀ t x, schemaOn t = some x → ∃ tb, (builderOf c!"s3://b/trips" openCalls).build env (openWorld t) = .ok tb ∧
        tb.avroSchema t = .ok x := by
      intro t x h
      unfold schemaOn at h
      split at h
      · rename_i tb htb
        split at h
        · rename_i s hs
          cases h
          exact ⟨tb, htb, hs⟩
        · cases h
      · cases h
    obtain ⟨tb, hb, hx⟩ := key _ _ h1
    obtain ⟨tb', hb', hx'⟩ := key _ _ h2
    refine ⟨_, _, _, _, _, _, tb, tb', openWorld_turned (by decide +kernel), fun o uri h => ?_, hb, hb', hx, hx'⟩
    by_cases hu : uri = c!"s3://b/trips"
    · subst hu; exact ⟨rfl, rfl⟩
    · obtain ⟨s, hs⟩ := h
      have : (openWorld tiedTree).connect o uri = .err .storage := if_neg hu
      rw [this] at hs; cases hs

end Hudi
