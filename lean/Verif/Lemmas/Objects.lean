import Verif.Spec.Objects
import Verif.Lemmas.Answers
import Mathlib.Data.List.Induction
import Mathlib.Tactic.Common

/-! # Lemmas: the tree of an object store -/

namespace Hudi
open Spec

/-! ## Requests -/

theorem get_some {s : Objects} {p : List Str} {x : Stored} (h : s.get p = some x) : (p, x) ∈ s := by
  unfold Objects.get at h
  obtain ⟨e, h1, rfl⟩ := Option.map_eq_some_iff.1 h
  have := List.find?_some h1
  simp only [decide_eq_true_eq] at this
  rw [← this]
  exact List.mem_of_find?_eq_some h1

theorem get_of_mem {s : Objects} (hn : (s.map Prod.fst).Nodup) {p : List Str} {x : Stored} (h : (p, x) ∈ s) :
    s.get p = some x := by
  cases hg : s.get p with
  | none =>
    unfold Objects.get at hg
    rw [Option.map_eq_none_iff, List.find?_eq_none] at hg
    exact absurd (by simp) (hg _ h)
  | some y =>
    have := List.inj_on_of_nodup_map hn (get_some hg) h rfl
    exact congrArg some (Prod.mk.inj this).2

theorem get_iff {s : Objects} (hn : (s.map Prod.fst).Nodup) {p : List Str} {x : Stored} :
    s.get p = some x ↔ (p, x) ∈ s := ⟨get_some, get_of_mem hn⟩

theorem run_nodup {s : Objects} (hn : (s.map Prod.fst).Nodup) (q : Request) : ((q.run s).map Prod.fst).Nodup := by
  unfold Request.run
  rw [List.map_append, List.nodup_append]
  refine ⟨(List.Sublist.map _ List.filter_sublist).nodup hn, ?_, ?_⟩
  · cases q.result (s.get q.path) <;> simp
  · intro a ha b hb
    obtain ⟨e, h1, rfl⟩ := List.mem_map.1 ha
    have h2 := (List.mem_filter.1 h1).2
    simp only [decide_eq_true_eq] at h2
    cases hr : q.result (s.get q.path) with
    | none => rw [hr] at hb; simp at hb
    | some x =>
      rw [hr] at hb
      simp only [Option.map_some, Option.toList_some, List.map_cons, List.map_nil, List.mem_singleton] at hb
      rw [hb]; exact h2

theorem get_run {s : Objects} (q : Request) (p : List Str) :
    (q.run s).get p = if p = q.path then q.result (s.get q.path) else s.get p := by
  unfold Request.run
  by_cases hp : p = q.path
  · subst hp
    rw [if_pos rfl]
    unfold Objects.get
    rw [List.find?_append]
    have h1 : (s.filter (fun e => decide (e.1 ≠ q.path))).find? (fun e => decide (e.1 = q.path)) = none := by
      rw [List.find?_eq_none]
      intro e he
      have := (List.mem_filter.1 he).2
      simpa using this
    rw [h1]
    cases q.result (Option.map Prod.snd (s.find? (fun e => decide (e.1 = q.path)))) <;> simp
  · rw [if_neg hp]
    unfold Objects.get
    rw [List.find?_append]
    have h1 : ∀ o : Option Stored, (o.map (fun x => (q.path, x))).toList.find? (fun e => decide (e.1 = p)) = none := by
      intro o
      rw [List.find?_eq_none]
      cases o with
      | none => simp
      | some x => simp; exact fun h => hp h.symm
    rw [h1, Option.or_none]
    congr 1
    induction s with
    | nil => rfl
    | cons e s ih =>
      rw [List.filter_cons, List.find?_cons]
      by_cases he : e.1 = q.path
      · rw [if_neg (by simpa using he), ih, he]
        simp [Ne.symm hp]
      · rw [if_pos (by simpa using he), List.find?_cons, ih]

/-! ## Directories -/

theorem sub_addFile (n : Str) (c : Content) (d : Str) (t : Tree) : (addFile n c t).sub d = t.sub d := by
  induction t with
  | nil => rfl
  | file n' s c' rest ih =>
    unfold addFile
    split <;> simp [Tree.sub, ih]
  | dir d' sub rest _ ih => simp [addFile, Tree.sub, ih]

theorem dirs_addFile (n : Str) (c : Content) (t : Tree) : (addFile n c t).dirs = t.dirs := by
  induction t with
  | nil => rfl
  | file n' s c' rest ih =>
    unfold addFile
    split <;> simp [Tree.dirs, ih]
  | dir d' sub rest _ ih => simp [addFile, Tree.dirs, ih]

theorem file_addFile (n : Str) (c : Content) (m : Str) (t : Tree) :
    (addFile n c t).file? m = if m = n then some (1, c) else t.file? m := by
  induction t with
  | nil => simp only [addFile, Tree.file?]; by_cases h : n = m <;> simp [h, eq_comm]
  | file n' s c' rest ih =>
    unfold addFile
    by_cases h : n' = n
    · rw [if_pos h]
      subst h
      by_cases h2 : n' = m
      · simp [Tree.file?, h2]
      · simp [Tree.file?, h2, Ne.symm h2]
    · rw [if_neg h]
      by_cases h2 : n' = m
      · subst h2; simp [Tree.file?, h]
      · simp [Tree.file?, h2, ih]
  | dir d' sub rest _ ih => simp [addFile, Tree.file?, ih]

theorem sub_inDir (d : Str) (f : Tree → Tree) (e : Str) (t : Tree) :
    (inDir d f t).sub e = if e = d then f (t.sub d) else t.sub e := by
  induction t with
  | nil => simp only [inDir, Tree.sub]; by_cases h : d = e <;> simp [h, eq_comm]
  | file n s c rest ih => simp [inDir, Tree.sub, ih]
  | dir d' sub rest _ ih =>
    unfold inDir
    by_cases h : d' = d
    · rw [if_pos h]
      subst h
      by_cases h2 : d' = e
      · simp [Tree.sub, h2]
      · simp [Tree.sub, h2, Ne.symm h2]
    · rw [if_neg h]
      by_cases h2 : d' = e
      · subst h2; simp [Tree.sub, h]
      · simp [Tree.sub, h2, ih, h]

theorem files_inDir (d : Str) (f : Tree → Tree) (m : Str) (t : Tree) : (inDir d f t).file? m = t.file? m := by
  induction t with
  | nil => rfl
  | file n s c rest ih => simp [inDir, Tree.file?, ih]
  | dir d' sub rest _ ih =>
    unfold inDir
    split <;> simp [Tree.file?, ih]

theorem dirs_inDir (d : Str) (f : Tree → Tree) (e : Str) (t : Tree) :
    e ∈ (inDir d f t).dirs ↔ e = d ∨ e ∈ t.dirs := by
  induction t with
  | nil => simp [inDir, Tree.dirs]
  | file n s c rest ih => simp [inDir, Tree.dirs, ih]
  | dir d' sub rest _ ih =>
    unfold inDir
    by_cases h : d' = d
    · subst h; simp [Tree.dirs]
    · simp only [if_neg h, Tree.dirs, List.mem_cons, ih]; tauto

theorem fileAt_addAt (p : List Str) (hp : p ≠ []) (c : Content) (q : List Str) (hq : q ≠ []) (t : Tree) :
    (addAt p c t).fileAt q = if q = p then some (1, c) else t.fileAt q := by
  induction p generalizing q t with
  | nil => exact absurd rfl hp
  | cons d p ih =>
    cases p with
    | nil =>
      cases q with
      | nil => exact absurd rfl hq
      | cons e q =>
        cases q with
        | nil =>
          show (addFile d c t).file? e = _
          rw [file_addFile]
          simp [Tree.fileAt]
        | cons e' q => simp [addAt, Tree.fileAt, sub_addFile]
    | cons d' p =>
      cases q with
      | nil => exact absurd rfl hq
      | cons e q =>
        cases q with
        | nil => simp [addAt, Tree.fileAt, files_inDir]
        | cons e' q =>
          show ((inDir d (addAt (d' :: p) c) t).sub e).fileAt (e' :: q) = _
          rw [sub_inDir]
          by_cases h : e = d
          · subst h
            rw [if_pos rfl, ih (by simp) _ (by simp)]
            simp [Tree.fileAt]
          · rw [if_neg h]
            simp [Tree.fileAt, h]

theorem dirs_addAt (p : List Str) (c : Content) (q : List Str) (e : Str) (t : Tree) :
    e ∈ ((addAt p c t).at q).dirs ↔ e ∈ (t.at q).dirs ∨ ∃ r, r ≠ [] ∧ p = q ++ e :: r := by
  induction p generalizing q t with
  | nil => simp [addAt]
  | cons d p ih =>
    cases p with
    | nil =>
      have h2 : ¬ ∃ r, r ≠ [] ∧ [d] = q ++ e :: r := by
        rintro ⟨r, h1, h2⟩
        have := congrArg List.length h2
        have : 0 < r.length := List.length_pos_iff.2 h1
        simp at *
        omega
      simp only [h2, or_false]
      cases q with
      | nil => simp [addAt, Tree.at, dirs_addFile]
      | cons e' q => simp [addAt, Tree.at, sub_addFile]
    | cons d' p =>
      cases q with
      | nil =>
        show e ∈ (inDir d (addAt (d' :: p) c) t).dirs ↔ _
        rw [dirs_inDir]
        constructor
        · rintro (rfl | h)
          · exact .inr ⟨d' :: p, by simp, rfl⟩
          · exact .inl h
        · rintro (h | ⟨r, _, h⟩)
          · exact .inr h
          · left
            simp only [List.nil_append, List.cons.injEq] at h
            exact h.1.symm
      | cons e' q =>
        show e ∈ (((inDir d (addAt (d' :: p) c) t).sub e').at q).dirs ↔ _
        rw [sub_inDir]
        by_cases h : e' = d
        · subst h
          rw [if_pos rfl, ih]
          simp [Tree.at]
        · rw [if_neg h]
          have : ¬ ∃ r, r ≠ [] ∧ d :: d' :: p = e' :: q ++ e :: r := by
            rintro ⟨r, _, h2⟩
            simp only [List.cons_append, List.cons.injEq] at h2
            exact h h2.1.symm
          exact (or_iff_left this).symm

/-! ## The tree of the objects -/

theorem fileAt_nil (q : List Str) : Tree.nil.fileAt q = none := by
  cases q with
  | nil => rfl
  | cons e q =>
    cases q with
    | nil => rfl
    | cons e' q =>
      show (Tree.nil.sub e).fileAt (e' :: q) = none
      exact fileAt_nil (e' :: q)

theorem at_nil (q : List Str) : Tree.nil.at q = .nil := by
  induction q with
  | nil => rfl
  | cons e q ih => exact ih

theorem fileAt_treeOf {s : Objects} (hs : ∀ e ∈ s, e.1 ≠ []) {q : List Str} (hq : q ≠ []) :
    (treeOf s).fileAt q = (s.get q).map (fun x => (1, x.content)) := by
  induction s with
  | nil => exact fileAt_nil q
  | cons e s ih =>
    show (addAt e.1 e.2.content (treeOf s)).fileAt q = _
    rw [fileAt_addAt _ (hs e (by simp)) _ _ hq, ih (fun e he => hs e (by simp [he]))]
    unfold Objects.get
    rw [List.find?_cons]
    by_cases h : q = e.1
    · simp [h]
    · rw [if_neg h]
      simp [Ne.symm h]

theorem dirs_treeOf {s : Objects} {q : List Str} {e : Str} :
    e ∈ ((treeOf s).at q).dirs ↔ ∃ x ∈ s, ∃ r, r ≠ [] ∧ x.1 = q ++ e :: r := by
  induction s with
  | nil => rw [treeOf, at_nil]; simp [Tree.dirs]
  | cons x s ih =>
    show e ∈ ((addAt x.1 x.2.content (treeOf s)).at q).dirs ↔ _
    rw [dirs_addAt, ih]
    simp only [List.mem_cons, exists_eq_or_imp]
    exact or_comm

theorem isDir_snoc (q : List Str) (e : Str) (t : Tree) : IsDir (q ++ [e]) t ↔ IsDir q t ∧ e ∈ (t.at q).dirs := by
  induction q generalizing t with
  | nil => simp [IsDir, Tree.at]
  | cons d q ih => simp [IsDir, Tree.at, ih, and_assoc]

theorem isDir_treeOf {s : Objects} {q : List Str} (hq : q ≠ []) :
    IsDir q (treeOf s) ↔ ∃ x ∈ s, ∃ r, r ≠ [] ∧ x.1 = q ++ r := by
  induction q using List.reverseRecOn with
  | nil => exact absurd rfl hq
  | append_singleton q e ih =>
    rw [isDir_snoc, dirs_treeOf]
    have hassoc : ∀ r : List Str, q ++ [e] ++ r = q ++ e :: r := by simp
    simp only [hassoc]
    constructor
    · exact fun h => h.2
    · intro h
      refine ⟨?_, h⟩
      rcases eq_or_ne q [] with rfl | hq'
      · trivial
      · obtain ⟨x, h1, r, _, h3⟩ := h
        exact (ih hq').2 ⟨x, h1, e :: r, by simp, h3⟩

theorem leafDir_treeOf {s : Objects} {q : List Str} (hq : q ≠ []) :
    LeafDir q (treeOf s) ↔ (∃ x ∈ s, ∃ n, x.1 = q ++ [n]) ∧ ∀ x ∈ s, ∀ a b r, x.1 ≠ q ++ a :: b :: r := by
  unfold LeafDir
  rw [isDir_treeOf hq, List.eq_nil_iff_forall_not_mem]
  simp only [dirs_treeOf]
  have key : (∀ e, ¬ ∃ x ∈ s, ∃ r, r ≠ [] ∧ x.1 = q ++ e :: r) ↔ ∀ x ∈ s, ∀ a b r, x.1 ≠ q ++ a :: b :: r := by
    constructor
    · intro h x hx a b r he
      exact h a ⟨x, hx, b :: r, by simp, he⟩
    · rintro h e ⟨x, hx, r, hr, he⟩
      obtain ⟨b, r, rfl⟩ := List.exists_cons_of_ne_nil hr
      exact h x hx e b r he
  rw [key]
  constructor
  · rintro ⟨⟨x, hx, r, hr, he⟩, h⟩
    obtain ⟨n, r, rfl⟩ := List.exists_cons_of_ne_nil hr
    cases r with
    | nil => exact ⟨⟨x, hx, n, he⟩, h⟩
    | cons b r => exact absurd he (h x hx n b r)
  · rintro ⟨⟨x, hx, n, he⟩, h⟩
    exact ⟨⟨x, hx, [n], by simp, he⟩, h⟩

/-! ## Well-formed trees -/

theorem names_addFile (n : Str) (c : Content) (m : Str) (t : Tree) :
    m ∈ names (addFile n c t) ↔ m = n ∨ m ∈ names t := by
  induction t with
  | nil => simp [addFile, names]
  | file n' s c' rest ih =>
    unfold addFile
    by_cases h : n' = n
    · subst h; simp [names]
    · simp only [if_neg h, names, List.mem_cons, ih]; tauto
  | dir d' sub rest _ ih => simp only [addFile, names, List.mem_cons, ih]; tauto

theorem names_inDir (d : Str) (f : Tree → Tree) (m : Str) (t : Tree) :
    m ∈ names (inDir d f t) ↔ m = d ∨ m ∈ names t := by
  induction t with
  | nil => simp [inDir, names]
  | file n s c rest ih => simp only [inDir, names, List.mem_cons, ih]; tauto
  | dir d' sub rest _ ih =>
    unfold inDir
    by_cases h : d' = d
    · subst h; simp [names]
    · simp only [if_neg h, names, List.mem_cons, ih]; tauto

theorem wf_addFile {n : Str} {c : Content} {t : Tree} (ht : TreeWF t) (hn : NormalName n) (hd : n ∉ t.dirs) :
    TreeWF (addFile n c t) := by
  induction t with
  | nil => exact ⟨hn, by simp [names], trivial⟩
  | file n' s c' rest ih =>
    obtain ⟨h1, h2, h3⟩ := ht
    unfold addFile
    by_cases h : n' = n
    · rw [if_pos h]; exact ⟨hn, by rw [← h]; exact h2, h3⟩
    · rw [if_neg h]
      refine ⟨h1, ?_, ih h3 hd⟩
      rw [names_addFile]
      exact fun h' => h'.elim h h2
  | dir d' sub rest _ ih =>
    obtain ⟨h1, h2, h3, h4⟩ := ht
    simp only [Tree.dirs, List.mem_cons, not_or] at hd
    refine ⟨h1, ?_, h3, ih h4 hd.2⟩
    rw [names_addFile]
    exact fun h' => h'.elim (Ne.symm hd.1) h2

theorem wf_inDir {d : Str} {f : Tree → Tree} {t : Tree} (ht : TreeWF t) (hd : NormalName d)
    (hfile : t.file? d = none) (hf : TreeWF (f (t.sub d))) : TreeWF (inDir d f t) := by
  induction t with
  | nil => exact ⟨hd, by simp [names], hf, trivial⟩
  | file n s c rest ih =>
    obtain ⟨h1, h2, h3⟩ := ht
    by_cases h : n = d
    · simp [Tree.file?, h] at hfile
    · simp only [Tree.file?, if_neg h] at hfile
      refine ⟨h1, ?_, ih h3 hfile hf⟩
      rw [names_inDir]
      exact fun h' => h'.elim h h2
  | dir d' sub rest _ ih =>
    obtain ⟨h1, h2, h3, h4⟩ := ht
    unfold inDir
    by_cases h : d' = d
    · rw [if_pos h]
      subst h
      simp only [Tree.sub, if_true] at hf
      exact ⟨hd, h2, hf, h4⟩
    · rw [if_neg h]
      simp only [Tree.sub, if_neg h] at hf
      refine ⟨h1, ?_, h3, ih h4 hfile hf⟩
      rw [names_inDir]
      exact fun h' => h'.elim h h2

theorem wf_addAt {p : List Str} {c : Content} {t : Tree} (ht : TreeWF t) (hp : ∀ n ∈ p, NormalName n)
    (hdir : ∀ q n, p = q ++ [n] → n ∉ (t.at q).dirs)
    (hfile : ∀ q r, p = q ++ r → q ≠ [] → r ≠ [] → t.fileAt q = none) : TreeWF (addAt p c t) := by
  induction p generalizing t with
  | nil => exact ht
  | cons d p ih =>
    cases p with
    | nil => exact wf_addFile ht (hp d (by simp)) (hdir [] d rfl)
    | cons d' p =>
      refine wf_inDir ht (hp d (by simp)) (hfile [d] (d' :: p) rfl (by simp) (by simp)) ?_
      refine ih (ht.sub d) (fun n hn => hp n (by simp [hn])) ?_ ?_
      · intro q n he
        exact hdir (d :: q) n (by rw [he]; rfl)
      · intro q r he hq hr
        obtain ⟨e, q, rfl⟩ := List.exists_cons_of_ne_nil hq
        exact hfile (d :: e :: q) r (by rw [he]; rfl) (by simp) hr

/-- The objects have normal, different paths, none below another. -/
structure GoodPaths (s : Objects) : Prop where
  nodup : (s.map Prod.fst).Nodup
  nonempty : ∀ e ∈ s, e.1 ≠ []
  normal : ∀ e ∈ s, ∀ n ∈ e.1, NormalName n
  free : ∀ e ∈ s, ∀ e' ∈ s, ∀ r, e'.1 = e.1 ++ r → r = []

theorem wf_treeOf {s : Objects} (h : GoodPaths s) : TreeWF (treeOf s) := by
  induction s with
  | nil => trivial
  | cons e s ih =>
    have hs : GoodPaths s := ⟨(List.nodup_cons.1 h.nodup).2, fun x hx => h.nonempty x (by simp [hx]),
      fun x hx => h.normal x (by simp [hx]), fun x hx y hy => h.free x (by simp [hx]) y (by simp [hy])⟩
    refine wf_addAt (ih hs) (h.normal e (by simp)) ?_ ?_
    · intro q n he hd
      obtain ⟨x, hx, r, hr, he'⟩ := dirs_treeOf.1 hd
      exact hr (h.free e (by simp) x (by simp [hx]) r (by rw [he', he]; simp))
    · intro q r he hq hr
      rw [fileAt_treeOf hs.nonempty hq, Option.map_eq_none_iff]
      cases hg : Objects.get s q with
      | none => rfl
      | some y =>
        exact absurd (h.free (q, y) (by simp [get_some hg]) e (by simp) r he) hr

theorem mem_files {t : Tree} (ht : TreeWF t) {n : Str} {size : Nat} :
    (n, size) ∈ t.files ↔ ∃ c, t.file? n = some (size, c) := by
  induction t with
  | nil => simp [Tree.files, Tree.file?]
  | file n' s c rest ih =>
    obtain ⟨_, h2, h3⟩ := ht
    simp only [Tree.files, List.mem_cons, Prod.mk.injEq, ih h3, Tree.file?]
    by_cases h : n' = n
    · subst h
      simp only [if_true, true_and, Option.some.injEq, Prod.mk.injEq]
      constructor
      · rintro (rfl | ⟨c', h⟩)
        · exact ⟨c, rfl, rfl⟩
        · exact absurd (files_sub_names _ ((ih h3).2 ⟨c', h⟩)) h2
      · rintro ⟨_, h, _⟩; exact .inl h.symm
    · simp [h, Ne.symm h]
  | dir d sub rest _ ih =>
    obtain ⟨_, _, _, h4⟩ := ht
    simp only [Tree.files, Tree.file?, ih h4]

theorem files_treeOf {s : Objects} (h : GoodPaths s) {q : List Str} {n : Str} {size : Nat} :
    (n, size) ∈ ((treeOf s).at q).files ↔ size = 1 ∧ ∃ x, s.get (q ++ [n]) = some x := by
  rw [mem_files ((wf_treeOf h).at q), ← fileAt_append, fileAt_treeOf h.nonempty (by simp)]
  cases s.get (q ++ [n]) <;> simp [eq_comm]

end Hudi
