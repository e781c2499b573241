import Verif.Lemmas.AvroArrow

/-! # Paths of fields lead to their positions -/

namespace Hudi
namespace Avro
open Spec

/-- Names with a dot in front of each. -/
def join : List Str → Str
  | [] => []
  | n :: p => '.' :: (n ++ join p)

theorem append_inj_dot {a b c d : Str} (ha : '.' ∉ a) (hb : '.' ∉ b)
    (hc : c = [] ∨ ∃ t, c = '.' :: t) (hd : d = [] ∨ ∃ t, d = '.' :: t) (h : a ++ c = b ++ d) :
    a = b ∧ c = d := by
  induction a generalizing b with
  | nil =>
    cases b with
    | nil => exact ⟨rfl, h⟩
    | cons x b =>
      simp only [List.nil_append, List.cons_append] at h
      rcases hc with rfl | ⟨t, rfl⟩
      · cases h
      · injection h with h1 _
        exact absurd (by rw [h1]; simp) hb
  | cons x a ih =>
    cases b with
    | nil =>
      simp only [List.nil_append, List.cons_append] at h
      rcases hd with rfl | ⟨t, rfl⟩
      · cases h
      · injection h with h1 _
        exact absurd (by rw [h1]; simp) ha
    | cons y b =>
      simp only [List.cons_append] at h
      injection h with h1 h2
      obtain ⟨e1, e2⟩ := ih (fun h => ha (by simp [h])) (fun h => hb (by simp [h])) h2
      exact ⟨by rw [h1, e1], e2⟩

theorem join_inj {p q : List Str} (hp : ∀ n ∈ p, '.' ∉ n) (hq : ∀ n ∈ q, '.' ∉ n)
    (h : join p = join q) : p = q := by
  have hj : ∀ p, join p = [] ∨ ∃ t, join p = '.' :: t := by
    intro p
    cases p with
    | nil => exact .inl rfl
    | cons n p => exact .inr ⟨_, rfl⟩
  induction p generalizing q with
  | nil =>
    cases q with
    | nil => rfl
    | cons m q => cases h
  | cons n p ih =>
    cases q with
    | nil => cases h
    | cons m q =>
      simp only [join] at h
      injection h with _ h
      obtain ⟨e1, e2⟩ := append_inj_dot (hp n (by simp)) (hq m (by simp)) (hj p) (hj q) h
      rw [e1, ih (fun n h => hp n (by simp [h])) (fun n h => hq n (by simp [h])) e2]

mutual
/-- The position that a path of names leads to. -/
def pos : AvroSchema → List Str → Option Nat
  | .union vs, p => posVar vs p
  | .record fs _, p => posFields 0 fs p
  | .array s, p => match p with
    | [] => none
    | n :: q => if n = c!"element" then pos s q else none
  | _, _ => none
/-- The same in the first variant that is not `null`. -/
def posVar : List AvroSchema → List Str → Option Nat
  | [], _ => none
  | .null :: vs, p => posVar vs p
  | s :: _, p => pos s p
/-- The same in fields from a position on. -/
def posFields : Nat → List (Str × AvroSchema) → List Str → Option Nat
  | _, [], _ => none
  | i, (n, s) :: fs, p => match p with
    | [] => none
    | m :: q =>
      if m = n then (if q = [] then some i else pos s q) else posFields (i + 1) fs p
end

theorem nonNull_cons {s : AvroSchema} (h : isNullSchema s = false) (path : Str) (vs : List AvroSchema)
    (p : List Str) : nonNullEntries path (s :: vs) = childEntries path s ∧ posVar (s :: vs) p = pos s p := by
  cases s <;> first | exact ⟨rfl, rfl⟩ | cases h

theorem direct_pos {path : Str} {fs : List (Str × AvroSchema)} {i : Nat} {e : Str × Nat}
    (hn : (fs.map Prod.fst).Nodup) (h : e ∈ directEntries path i fs) :
    ∃ n, n ∈ fs.map Prod.fst ∧ e.1 = path ++ join [n] ∧ posFields i fs [n] = some e.2 := by
  induction fs generalizing i with
  | nil => cases h
  | cons q fs ih =>
    obtain ⟨n, s⟩ := q
    simp only [directEntries, List.mem_cons] at h
    simp only [List.map_cons, List.nodup_cons] at hn
    rcases h with rfl | h
    · exact ⟨n, by simp, by simp [dotted, join], by simp [posFields]⟩
    · obtain ⟨m, hm, h1, h2⟩ := ih hn.2 h
      refine ⟨m, by simp [List.mem_map.1 hm], h1, ?_⟩
      have : m ≠ n := by rintro rfl; exact hn.1 hm
      simp only [posFields]
      rw [if_neg this]; exact h2

theorem namedFields_mem {fs : List (Str × AvroSchema)} (h : NamedFields fs) :
    ∀ n ∈ fs.map Prod.fst, NameOk n := by
  induction fs with
  | nil => intro n hn; cases hn
  | cons q fs ih =>
    obtain ⟨m, s⟩ := q
    intro n hn
    rcases List.mem_cons.1 hn with rfl | hn
    · exact h.1
    · exact ih h.2.2 n hn

mutual
theorem child_pos (s : AvroSchema) (path : Str) (e : Str × Nat) (hn : Named s)
    (h : e ∈ childEntries path s) :
    ∃ p, p ≠ [] ∧ (∀ n ∈ p, '.' ∉ n) ∧ e.1 = path ++ join p ∧ pos s p = some e.2 := by
  match s with
  | .union vs =>
    simp only [childEntries] at h
    split at h
    · exact var_pos vs path e hn h
    · cases h
  | .record fs _ =>
    simp only [childEntries, List.mem_append] at h
    obtain ⟨h1, h2⟩ := hn
    rcases h with h | h
    · obtain ⟨n, hm, h3, h4⟩ := direct_pos h2 h
      exact ⟨[n], by simp, by simpa using (namedFields_mem h1 n hm).2, h3, h4⟩
    · obtain ⟨n, p, _, hd, h3, h4⟩ := fields_pos fs 0 path e h1 h2 h
      exact ⟨n :: p, by simp, hd, h3, h4⟩
  | .array s =>
    simp only [childEntries] at h
    obtain ⟨p, hp, hd, h1, h2⟩ := child_pos s _ e hn h
    refine ⟨c!"element" :: p, by simp, ?_, ?_, ?_⟩
    · intro n hn
      rcases List.mem_cons.1 hn with rfl | hn
      · decide
      · exact hd n hn
    · rw [h1]; simp [dotted, join]
    · simp only [pos, if_true]; exact h2
  | .null => cases h
  | .boolean => cases h
  | .int => cases h
  | .long => cases h
  | .float => cases h
  | .double => cases h
  | .bytes => cases h
  | .string => cases h
  | .map _ => cases h
  | .enum _ => cases h
  | .fixed _ => cases h
  | .decimal _ _ _ => cases h
  | .bigDecimal => cases h
  | .uuid => cases h
  | .date => cases h
  | .timeMillis => cases h
  | .timeMicros => cases h
  | .timestampMillis => cases h
  | .timestampMicros => cases h
  | .timestampNanos => cases h
  | .localTimestampMillis => cases h
  | .localTimestampMicros => cases h
  | .localTimestampNanos => cases h
  | .duration => cases h
  | .ref _ => cases h
termination_by structural s
theorem var_pos (vs : List AvroSchema) (path : Str) (e : Str × Nat) (hn : NamedAll vs)
    (h : e ∈ nonNullEntries path vs) :
    ∃ p, p ≠ [] ∧ (∀ n ∈ p, '.' ∉ n) ∧ e.1 = path ++ join p ∧ posVar vs p = some e.2 := by
  match vs with
  | [] => cases h
  | s :: vs =>
    by_cases hs : isNullSchema s = true
    · have : s = .null := by cases s <;> first | rfl | cases hs
      rw [this] at h ⊢
      exact var_pos vs path e hn.2 h
    · rw [(nonNull_cons (by simpa using hs) path vs []).1] at h
      obtain ⟨p, h1, h2, h3, h4⟩ := child_pos s path e hn.1 h
      exact ⟨p, h1, h2, h3, by rw [(nonNull_cons (by simpa using hs) path vs p).2]; exact h4⟩
termination_by structural vs
theorem fields_pos (fs : List (Str × AvroSchema)) (i : Nat) (path : Str) (e : Str × Nat)
    (hn : NamedFields fs) (hd : (fs.map Prod.fst).Nodup) (h : e ∈ fieldEntries path fs) :
    ∃ n p, n ∈ fs.map Prod.fst ∧ (∀ m ∈ n :: p, '.' ∉ m) ∧ e.1 = path ++ join (n :: p) ∧
      posFields i fs (n :: p) = some e.2 := by
  match fs with
  | [] => cases h
  | (n, s) :: fs =>
    simp only [fieldEntries, List.mem_append] at h
    simp only [List.map_cons, List.nodup_cons] at hd
    rcases h with h | h
    · obtain ⟨p, h1, h2, h3, h4⟩ := child_pos s _ e hn.2.1 h
      refine ⟨n, p, by simp, ?_, ?_, ?_⟩
      · intro m hm
        rcases List.mem_cons.1 hm with rfl | hm
        · exact hn.1.2
        · exact h2 m hm
      · rw [h3]; simp [dotted, join]
      · simp only [posFields, if_true]
        rw [if_neg h1]; exact h4
    · obtain ⟨m, p, h1, h2, h3, h4⟩ := fields_pos fs (i + 1) path e hn.2.2 hd.2 h
      refine ⟨m, p, by simp [List.mem_map.1 h1], h2, h3, ?_⟩
      have : m ≠ n := by rintro rfl; exact hd.1 h1
      simp only [posFields]
      rw [if_neg this]; exact h4
termination_by structural fs
end

theorem topDirect_eq (fs : List (Str × AvroSchema)) (i : Nat) (e : Str × Nat)
    (h : e ∈ topDirect i fs) : ('.' :: e.1, e.2) ∈ directEntries [] i fs := by
  induction fs generalizing i with
  | nil => cases h
  | cons q fs ih =>
    obtain ⟨n, s⟩ := q
    simp only [topDirect, directEntries, List.mem_cons] at h ⊢
    rcases h with rfl | h
    · exact .inl rfl
    · exact .inr (ih _ h)

theorem top_pos (fs : List (Str × AvroSchema)) (i : Nat) (e : Str × Nat) (hn : NamedFields fs)
    (hd : (fs.map Prod.fst).Nodup) (h : e ∈ topEntries fs) :
    ∃ n p, n ∈ fs.map Prod.fst ∧ (∀ m ∈ n :: p, '.' ∉ m) ∧ '.' :: e.1 = join (n :: p) ∧
      posFields i fs (n :: p) = some e.2 := by
  induction fs generalizing i with
  | nil => cases h
  | cons q fs ih =>
    obtain ⟨n, s⟩ := q
    simp only [topEntries, List.mem_append] at h
    simp only [List.map_cons, List.nodup_cons] at hd
    rcases h with h | h
    · obtain ⟨p, h1, h2, h3, h4⟩ := child_pos s _ e hn.2.1 h
      refine ⟨n, p, by simp, ?_, ?_, ?_⟩
      · intro m hm
        rcases List.mem_cons.1 hm with rfl | hm
        · exact hn.1.2
        · exact h2 m hm
      · rw [h3]; simp [join]
      · simp only [posFields, if_true]
        rw [if_neg h1]; exact h4
    · obtain ⟨m, p, h1, h2, h3, h4⟩ := ih (i + 1) hn.2.2 hd.2 h
      refine ⟨m, p, by simp [List.mem_map.1 h1], h2, h3, ?_⟩
      have : m ≠ n := by rintro rfl; exact hd.1 h1
      simp only [posFields]
      rw [if_neg this]; exact h4

theorem lookupGet_mem {lk : List (Str × Nat)} {e : Str × Nat} (h : e ∈ lk)
    (hu : ∀ e' ∈ lk, e'.1 = e.1 → e'.2 = e.2) : lookupGet lk e.1 = some e.2 := by
  unfold lookupGet
  cases hf : lk.reverse.find? (fun e' => e'.1 = e.1) with
  | none =>
    have := List.find?_eq_none.1 hf e (by simpa using h)
    simp at this
  | some e' =>
    have h1 := List.mem_of_find?_eq_some hf
    have h2 := List.find?_some hf
    simp only [Option.map_some]
    rw [hu e' (by simpa using h1) (by simpa using h2)]

/-- Every entry of the lookup table is found under its path. -/
theorem lookup_entries {fs : List (Str × AvroSchema)} (hn : NamedFields fs)
    (hd : (fs.map Prod.fst).Nodup) :
    ∀ e ∈ topDirect 0 fs ++ topEntries fs,
      lookupGet (topDirect 0 fs ++ topEntries fs) e.1 = some e.2 := by
  have key : ∀ e ∈ topDirect 0 fs ++ topEntries fs, ∃ p, (∀ m ∈ p, '.' ∉ m) ∧
      '.' :: e.1 = join p ∧ posFields 0 fs p = some e.2 := by
    intro e he
    rcases List.mem_append.1 he with he | he
    · obtain ⟨n, h1, h2, h3⟩ := direct_pos hd (topDirect_eq fs 0 e he)
      exact ⟨[n], by simpa using (namedFields_mem hn n h1).2, by simpa using h2, h3⟩
    · obtain ⟨n, p, _, h2, h3, h4⟩ := top_pos fs 0 e hn hd he
      exact ⟨n :: p, h2, h3, h4⟩
  intro e he
  apply lookupGet_mem he
  intro e' he' hee
  obtain ⟨p, h1, h2, h3⟩ := key e he
  obtain ⟨p', h1', h2', h3'⟩ := key e' he'
  have : p' = p := join_inj h1' h1 (by rw [← h2, ← h2', hee])
  rw [this, h3] at h3'
  injection h3' with h; exact h.symm

mutual
theorem good_child (s : AvroSchema) (q : Place) (lk : List (Str × Nat)) (path : Str)
    (hp : path ≠ []) (hrd : Faithful q s)
    (h : ∀ e ∈ childEntries path s, lookupGet lk e.1 = some e.2) : Good lk path s := by
  match s with
  | .union vs =>
    obtain ⟨q', _, hv⟩ := readable_opt hrd
    refine good_opt vs q' lk path hp hv ?_
    intro e he
    refine h e ?_
    obtain ⟨a, b, rfl, hab⟩ := readableOpt_cases hv
    simp only [childEntries]
    rw [if_pos]
    · exact he
    · refine ⟨?_, rfl⟩
      unfold hasNull
      rcases hab with ⟨ha, _⟩ | ⟨hb, _⟩
      · simp [ha]
      · simp [hb]
  | .record fs _ =>
    have : ∃ m, FaithfulFields m fs := by
      cases q with
      | field w m => exact ⟨m, hrd⟩
      | item d lu lm u => exact ⟨u, hrd.2.2⟩
    obtain ⟨m, hm⟩ := this
    simp only [childEntries, List.mem_append] at h
    exact good_fields fs 0 m lk path hp hm (fun e he => h e (.inl he)) (fun e he => h e (.inr he))
  | .array s =>
    simp only [childEntries] at h
    have hp' : dotted path c!"element" ≠ [] := by simp [dotted]
    cases q with
    | field w m => exact good_child s _ lk _ hp' hrd h
    | item d lu lm u => exact good_child s _ lk _ hp' hrd.2 h
  | .null => trivial
  | .boolean => trivial
  | .int => trivial
  | .long => trivial
  | .float => trivial
  | .double => trivial
  | .bytes => trivial
  | .string => trivial
  | .map _ => trivial
  | .enum _ => trivial
  | .fixed _ => trivial
  | .decimal _ _ _ => trivial
  | .bigDecimal => trivial
  | .uuid => trivial
  | .date => trivial
  | .timeMillis => trivial
  | .timeMicros => trivial
  | .timestampMillis => trivial
  | .timestampMicros => trivial
  | .timestampNanos => trivial
  | .localTimestampMillis => trivial
  | .localTimestampMicros => trivial
  | .localTimestampNanos => trivial
  | .duration => trivial
  | .ref _ => trivial
termination_by structural s
theorem good_opt (vs : List AvroSchema) (q : Place) (lk : List (Str × Nat)) (path : Str)
    (hp : path ≠ []) (hrd : FaithfulOpt q vs)
    (h : ∀ e ∈ nonNullEntries path vs, lookupGet lk e.1 = some e.2) : GoodAll lk path vs := by
  match vs with
  | [] => trivial
  | [_] => exact hrd.elim
  | _ :: _ :: _ :: _ => exact hrd.elim
  | [a, b] =>
    have hnull : ∀ x, isNullSchema x = true → Good lk path x := by
      intro x hx
      cases x <;> first | trivial | cases hx
    rcases hrd with ⟨ha, hb, hr⟩ | ⟨hb, ha, hr⟩
    · have e : a = .null := by cases a <;> first | rfl | cases ha
      rw [e] at h
      simp only [nonNullEntries] at h
      change ∀ e ∈ nonNullEntries path [b], _ at h
      rw [(nonNull_cons hb path [] []).1] at h
      exact ⟨hnull a ha, good_child b q lk path hp hr h, trivial⟩
    · rw [(nonNull_cons ha path [b] []).1] at h
      exact ⟨good_child a q lk path hp hr h, hnull b hb, trivial⟩
termination_by structural vs
theorem good_fields (fs : List (Str × AvroSchema)) (i : Nat) (m : Bool) (lk : List (Str × Nat))
    (path : Str) (hp : path ≠ []) (hrd : FaithfulFields m fs)
    (h1 : ∀ e ∈ directEntries path i fs, lookupGet lk e.1 = some e.2)
    (h2 : ∀ e ∈ fieldEntries path fs, lookupGet lk e.1 = some e.2) : GoodFields lk path i fs := by
  match fs with
  | [] => trivial
  | (n, s) :: fs =>
    have hfp : fieldPath path n = dotted path n := by unfold fieldPath; rw [if_neg hp]
    simp only [GoodFields]
    rw [hfp]
    simp only [fieldEntries, List.mem_append] at h2
    refine ⟨h1 (dotted path n, i) (by simp [directEntries]), ?_, ?_⟩
    · exact good_child s (.field false m) lk _ (by simp [dotted]) hrd.1
        (fun e he => h2 e (.inl he))
    · exact good_fields fs (i + 1) m lk path hp hrd.2
        (fun e he => h1 e (by simp [directEntries, he])) (fun e he => h2 e (.inr he))
termination_by structural fs
end

theorem good_top (fs : List (Str × AvroSchema)) (i : Nat) (lk : List (Str × Nat))
    (hn : NamedFields fs) (hrd : FaithfulFields false fs)
    (h1 : ∀ e ∈ topDirect i fs, lookupGet lk e.1 = some e.2)
    (h2 : ∀ e ∈ topEntries fs, lookupGet lk e.1 = some e.2) : GoodFields lk [] i fs := by
  induction fs generalizing i with
  | nil => trivial
  | cons p fs ih =>
    obtain ⟨n, s⟩ := p
    simp only [topEntries, List.mem_append] at h2
    have hfp : fieldPath [] n = n := rfl
    simp only [GoodFields]
    rw [hfp]
    refine ⟨h1 (n, i) (by simp [topDirect]), ?_, ?_⟩
    · exact good_child s (.field false false) lk n hn.1.1 hrd.1 (fun e he => h2 e (.inl he))
    · exact ih (i + 1) hn.2.2 hrd.2 (fun e he => h1 e (by simp [topDirect, he]))
        (fun e he => h2 e (.inr he))

end Avro
end Hudi
