import Verif.Lemmas.Properties
import Verif.Spec.Demo

/-! # C41, C42, C43: sources of options -/

namespace Hudi
open Spec

theorem startsWith_hudi {k : Str} : startsWith c!"hoodie." k = true ↔ HudiKey k := by
  unfold startsWith HudiKey
  rw [List.isPrefixOf_iff_prefix]
  exact ⟨fun ⟨r, h⟩ => ⟨r, h.symm⟩, fun ⟨r, h⟩ => ⟨r, h.symm⟩⟩

theorem lastGiven_eq (k : Str) (l : List (Str × Str)) : hmGet k l.reverse = lastGiven k l := by
  unfold lastGiven
  induction l with
  | nil => rfl
  | cons e l ih =>
    obtain ⟨k', v⟩ := e
    rw [List.reverse_cons, hmGet_append_single, ih, List.filter_cons]
    by_cases h : k' = k
    · subst h
      simp only [decide_true, if_true, List.getLast?_cons]
      cases hl : (l.filter (fun e => decide (e.1 = k'))).getLast? <;> simp
    · have h' : k ≠ k' := fun e => h e.symm
      simp [h, h']

/-! ## C42 -/

/-- **C42.**  Parsing a text gives each key the value of the last line that defines it, and nothing
else. -/
theorem C42_properties_text (seps text : Str) :
    PropertiesOf seps text (fun k => hmGet k (parseDataForOptions text seps)) := by
  intro k v
  unfold parseDataForOptions LastDefines
  simp only
  rw [hmGet_hmOfList, filterMap_linesOf, hmGet_reverse_filterMap]
  simp only [hasLines_iff, parseOptionLine_eq, ne_eq]
  constructor
  · rintro ⟨b, x, a, h1, h2, h3⟩
    exact ⟨b, x, a, h1.symm, h2, h3⟩
  · rintro ⟨b, x, a, h1, h2, h3⟩
    exact ⟨b, x, a, h1.symm, h2, h3⟩

/-- **C42, files.**  A file that holds a text gives the properties of the text; bytes that are no text are
reported as an error. -/
theorem C42_properties_file (seps : Str) (c : Content) :
    (∀ text, HoldsText c text → ∃ o, parseContentForOptions c seps = .ok o ∧ HmNodup o ∧
      PropertiesOf seps text (fun k => hmGet k o)) ∧
    ((¬ ∃ text, HoldsText c text) → ∃ e, parseContentForOptions c seps = .err e) := by
  constructor
  · rintro text (rfl | rfl)
    · exact ⟨_, rfl, hmOfList_nodup _, C42_properties_text seps text⟩
    · refine ⟨parseDataForOptions text seps, ?_, hmOfList_nodup _, C42_properties_text seps text⟩
      simp only [parseContentForOptions]
      rw [utf8Decode_encode]; rfl
  · intro h
    cases c with
    | text s => exact absurd ⟨s, .inl rfl⟩ h
    | bytes l =>
      simp only [parseContentForOptions]
      cases hd : utf8Decode l with
      | some s => exact absurd ⟨s, .inr (by rw [utf8Encode_decode hd])⟩ h
      | none => exact ⟨_, rfl⟩
    | json j => exact ⟨_, rfl⟩
    | parquet n b => exact ⟨_, rfl⟩
    | junk => exact ⟨_, rfl⟩

/-- A text with a comment, a blank line, a redefined key, a value with a separator, a line without a
separator and Windows line ends. -/
example : parseDataForOptions c!"# note\r\n hoodie.table.name = a\r\n\r\nurl=x=y\nflag\nhoodie.table.name=b" c!"=" =
    [(c!"hoodie.table.name", c!"b"), (c!"url", c!"x=y"), (c!"flag", c!"")] := by decide

/-! ## C43 -/

/-- **C43.**  Every given option ends up in exactly one of the two maps, by its name, with the last value
given for it; nothing else is in the maps. -/
theorem C43_split (all : List (Str × Str)) (k : Str) :
    (HudiKey k → hmGet k (splitHudiOptions all).1 = lastGiven k all ∧ hmGet k (splitHudiOptions all).2 = none) ∧
    (¬ HudiKey k → hmGet k (splitHudiOptions all).1 = none ∧ hmGet k (splitHudiOptions all).2 = lastGiven k all) := by
  rw [hmGet_splitHudi_fst, hmGet_splitHudi_snd, lastGiven_eq]
  constructor
  · intro h; simp [startsWith_hudi.2 h]
  · intro h
    have : ¬ startsWith c!"hoodie." k = true := fun h' => h (startsWith_hudi.1 h')
    simp [this]

/-- **C43.**  The given options are recovered from the two maps together. -/
theorem C43_nothing_lost (all : List (Str × Str)) (k v : Str) :
    lastGiven k all = some v ↔
      ((k, v) ∈ (splitHudiOptions all).1 ∧ HudiKey k) ∨ ((k, v) ∈ (splitHudiOptions all).2 ∧ ¬ HudiKey k) := by
  obtain ⟨h1, h2⟩ := C43_split all k
  rw [← hmGet_eq_some (splitHudi_nodup all).1, ← hmGet_eq_some (splitHudi_nodup all).2]
  by_cases h : HudiKey k
  · simp [h, h1 h]
  · simp [h, h2 h]

example : splitHudiOptions [(c!"hoodie.a", c!"1"), (c!"aws_region", c!"x"), (c!"hoodie.a", c!"2"), (c!"hoodie", c!"3")] =
    ([(c!"hoodie.a", c!"2")], [(c!"aws_region", c!"x"), (c!"hoodie", c!"3")]) := by decide

/-! ## C41 -/

theorem hmGet_extendIfAbsent (k : Str) (target source : Opts) :
    hmGet k (extendIfAbsent target source) = (hmGet k target).or (hmGet k source) := by
  unfold extendIfAbsent
  induction source generalizing target with
  | nil => simp [hmGet]
  | cons e source ih =>
    obtain ⟨k', v⟩ := e
    rw [List.foldl_cons, ih]
    unfold hmInsertIfAbsent hmContains
    simp only [hmGet]
    cases ht : hmGet k' target with
    | some v' =>
      simp only [Option.isSome_some, if_true]
      by_cases hk : k = k'
      · subst hk; simp [ht]
      · simp [hk]
    | none =>
      simp only [Option.isSome_none, Bool.false_eq_true, if_false, hmGet_hmInsert]
      by_cases hk : k = k'
      · subst hk; simp [ht]
      · simp [hk]

/-- Adding the entries that satisfy a condition and whose key is not present. -/
theorem hmGet_addIfAbsent (p : Str → Bool) (f : Str → Str) (k : Str) (target : Opts) (source : List (Str × Str)) :
    hmGet k (source.foldl (fun m e =>
      if p e.1 = true ∧ hmContains (f e.1) m = false then hmInsert (f e.1) e.2 m else m) target) =
    (hmGet k target).or (hmGet k ((source.filter (fun e => p e.1)).map (fun e => (f e.1, e.2)))) := by
  induction source generalizing target with
  | nil => simp [hmGet]
  | cons e source ih =>
    obtain ⟨k', v⟩ := e
    rw [List.foldl_cons, ih, List.filter_cons]
    simp only
    by_cases hp : p k' = true
    · simp only [hp, true_and, if_true, List.map_cons, hmGet]
      unfold hmContains
      cases ht : hmGet (f k') target with
      | some v' =>
        simp only [Option.isSome_some, Bool.true_eq_false, if_false]
        by_cases hk : k = f k'
        · subst hk; simp [ht]
        · simp [hk]
      | none =>
        simp only [Option.isSome_none, if_true, hmGet_hmInsert]
        by_cases hk : k = f k'
        · subst hk; simp [ht]
        · simp [hk]
    · simp [hp]

theorem builder_fields (calls : List Call) (b : TableBuilder) (k : Str) :
    (calls.foldl Call.apply b).baseUri = b.baseUri ∧
    hmGet k (calls.foldl Call.apply b).hudiOptions =
      (lastGiven k (calls.flatMap Call.hudi)).or (hmGet k b.hudiOptions) ∧
    hmGet k (calls.foldl Call.apply b).storageOptions =
      (lastGiven k (calls.flatMap Call.storage)).or (hmGet k b.storageOptions) ∧
    hmGet k (calls.foldl Call.apply b).options =
      (lastGiven k (calls.flatMap Call.generic)).or (hmGet k b.options) := by
  induction calls generalizing b with
  | nil => simp [lastGiven]
  | cons c calls ih =>
    obtain ⟨h1, h2, h3, h4⟩ := ih (c.apply b)
    rw [List.foldl_cons, h1, h2, h3, h4]
    have happ : ∀ (a l : List (Str × Str)), lastGiven k (a ++ l) = (lastGiven k l).or (lastGiven k a) := by
      intro a l
      rw [← lastGiven_eq, List.reverse_append]
      have : ∀ x y : List (Str × Str), hmGet k (x ++ y) = (hmGet k x).or (hmGet k y) := by
        intro x y
        induction x with
        | nil => simp [hmGet]
        | cons e x ihx => obtain ⟨k', v⟩ := e; simp only [List.cons_append, hmGet, ihx]; split <;> simp
      rw [this, lastGiven_eq, lastGiven_eq]
    have hins : ∀ k' v (m : Opts), hmGet k (hmInsert k' v m) = (lastGiven k [(k', v)]).or (hmGet k m) := by
      intro k' v m
      rw [hmGet_hmInsert, ← lastGiven_eq]
      simp only [List.reverse_singleton, hmGet]
      split <;> simp
    have hext : ∀ (l : List (Str × Str)) (m : Opts), hmGet k (hmExtend m l) = (lastGiven k l).or (hmGet k m) := by
      intro l m; rw [hmGet_hmExtend, lastGiven_eq]
    have hnil : lastGiven k [] = none := rfl
    simp only [List.flatMap_cons, happ, Option.or_assoc]
    cases c <;> simp [Call.apply, Call.hudi, Call.storage, Call.generic, TableBuilder.withHudiOption,
      TableBuilder.withHudiOptions, TableBuilder.withStorageOption, TableBuilder.withStorageOptions,
      TableBuilder.withOption, TableBuilder.withOptions, hins, hext, hnil]

theorem builder_nodup (calls : List Call) (uri : Str) :
    HmNodup (builderOf uri calls).hudiOptions ∧ HmNodup (builderOf uri calls).storageOptions ∧
    HmNodup (builderOf uri calls).options := by
  unfold builderOf
  have : ∀ b : TableBuilder, HmNodup b.hudiOptions → HmNodup b.storageOptions → HmNodup b.options →
      HmNodup (calls.foldl Call.apply b).hudiOptions ∧ HmNodup (calls.foldl Call.apply b).storageOptions ∧
      HmNodup (calls.foldl Call.apply b).options := by
    induction calls with
    | nil => exact fun b h1 h2 h3 => ⟨h1, h2, h3⟩
    | cons c calls ih =>
      intro b h1 h2 h3
      rw [List.foldl_cons]
      cases c with
      | hudiOption k v => exact ih _ (hmInsert_nodup h1) h2 h3
      | hudiOptions l => exact ih _ (hmExtend_nodup h1) h2 h3
      | storageOption k v => exact ih _ h1 (hmInsert_nodup h2) h3
      | storageOptions l => exact ih _ h1 (hmExtend_nodup h2) h3
      | option k v => exact ih _ h1 h2 (hmInsert_nodup h3)
      | options l => exact ih _ h1 h2 (hmExtend_nodup h3)
  exact this _ (by simp [HmNodup, TableBuilder.fromBaseUri]) (by simp [HmNodup, TableBuilder.fromBaseUri])
    (by simp [HmNodup, TableBuilder.fromBaseUri])

theorem cloud_any {name : Str} : cloudPrefixes.any (fun p => startsWith p name) = true ↔ CloudVar name := by
  have key : ∀ p : Str, startsWith p name = true ↔ ∃ r, name = p ++ r := by
    intro p
    unfold startsWith
    rw [List.isPrefixOf_iff_prefix]
    exact ⟨fun ⟨r, h⟩ => ⟨r, h.symm⟩, fun ⟨r, h⟩ => ⟨r, h.symm⟩⟩
  unfold cloudPrefixes CloudVar
  simp only [List.any_cons, List.any_nil, Bool.or_false, Bool.or_eq_true, key]
  constructor
  · rintro (⟨r, h⟩ | ⟨r, h⟩ | ⟨r, h⟩)
    · exact ⟨r, .inl h⟩
    · exact ⟨r, .inr (.inl h)⟩
    · exact ⟨r, .inr (.inr h)⟩
  · rintro ⟨r, h | h | h⟩
    · exact .inl ⟨r, h⟩
    · exact .inr (.inl ⟨r, h⟩)
    · exact .inr (.inr ⟨r, h⟩)

/-- The storage options from the environment. -/
def envOptions (vars : List (Str × Str)) (k : Str) : Option Str :=
  hmGet k ((vars.filter (fun e => cloudPrefixes.any (fun p => startsWith p e.1))).map (fun e => (lower e.1, e.2)))

theorem envOptions_spec (vars : List (Str × Str)) (k v : Str) :
    envOptions vars k = some v ↔ cloudVar vars k v := by
  unfold envOptions
  induction vars with
  | nil => simp [hmGet, cloudVar]
  | cons e vars ih =>
    obtain ⟨n, x⟩ := e
    rw [List.filter_cons]
    simp only
    by_cases hc : cloudPrefixes.any (fun p => startsWith p n) = true
    · rw [if_pos hc, List.map_cons, hmGet]
      by_cases hk : k = lower n
      · rw [if_pos hk]
        constructor
        · intro h
          cases h
          exact ⟨[], n, vars, rfl, cloud_any.1 hc, hk.symm, by simp⟩
        · rintro ⟨b, n', a, e, h1, h2, h3⟩
          cases b with
          | nil => cases e; rfl
          | cons y b =>
            cases e
            exact absurd hk.symm (h3 (n, x) (by simp) (cloud_any.1 hc))
      · rw [if_neg hk, ih]
        constructor
        · rintro ⟨b, n', a, rfl, h1, h2, h3⟩
          refine ⟨(n, x) :: b, n', a, rfl, h1, h2, ?_⟩
          intro y hy
          rcases List.mem_cons.1 hy with rfl | hy
          · exact fun _ e => hk e.symm
          · exact h3 y hy
        · rintro ⟨b, n', a, e, h1, h2, h3⟩
          cases b with
          | nil => cases e; exact absurd h2.symm hk
          | cons y b =>
            cases e
            exact ⟨b, n', a, rfl, h1, h2, fun y hy => h3 y (by simp [hy])⟩
    · rw [if_neg hc, ih]
      constructor
      · rintro ⟨b, n', a, rfl, h1, h2, h3⟩
        refine ⟨(n, x) :: b, n', a, rfl, h1, h2, ?_⟩
        intro y hy
        rcases List.mem_cons.1 hy with rfl | hy
        · exact fun h => absurd (cloud_any.2 h) hc
        · exact h3 y hy
      · rintro ⟨b, n', a, e, h1, h2, h3⟩
        cases b with
        | nil => cases e; exact absurd (cloud_any.2 h1) hc
        | cons y b =>
          cases e
          exact ⟨b, n', a, rfl, h1, h2, fun y hy => h3 y (by simp [hy])⟩

theorem tableOptions_of {o o' : Opts} {s : Storage} (h : imbueTableProperties o s = .ok o') :
    ∃ f, TableOptions s f ∧ ∀ k, hmGet k o' = (f k).or (hmGet k o) := by
  unfold imbueTableProperties at h
  obtain ⟨c, h1, h⟩ := Res.bind_eq_ok.1 h
  obtain ⟨props, h2, h⟩ := Res.bind_eq_ok.1 h
  cases h
  have h1 := Res.ofOption_eq_ok.1 h1
  obtain ⟨text, ht⟩ : ∃ text, HoldsText c.2 text := by
    by_contra hn
    obtain ⟨e, he⟩ := (C42_properties_file c!"=" c.2).2 hn
    rw [he] at h2; cases h2
  obtain ⟨o2, h3, h4, h5⟩ := (C42_properties_file c!"=" c.2).1 text ht
  rw [h3] at h2
  cases h2
  refine ⟨_, ⟨c.1, c.2, text, h1, ht, h5⟩, fun k => ?_⟩
  rw [hmGet_hmExtend, hmGet_reverse_of_nodup h4]

theorem confDir_iff (vars : List (Str × Str)) (dir : Str) :
    ConfDir vars dir ↔ dir = (hmGet c!"HUDI_CONF_DIR" vars).getD c!"/etc/hudi/conf" := by
  unfold ConfDir
  generalize c!"/etc/hudi/conf" = dflt
  generalize c!"HUDI_CONF_DIR" = key
  induction vars with
  | nil => simp [hmGet]
  | cons e vars ih =>
    obtain ⟨k, v⟩ := e
    by_cases hk : key = k
    · subst hk
      simp only [hmGet, if_true, Option.getD_some]
      constructor
      · rintro (⟨before, after, h, hb⟩ | ⟨h, _⟩)
        · cases before with
          | nil => simp only [List.nil_append, List.cons.injEq, Prod.mk.injEq] at h; exact h.1.2.symm
          | cons b before =>
            simp only [List.cons_append, List.cons.injEq] at h
            exact absurd (by rw [← h.1]) (hb b (by simp))
        · exact absurd rfl (h _ List.mem_cons_self)
      · rintro rfl
        exact .inl ⟨[], vars, rfl, by simp⟩
    · simp only [hmGet, if_neg hk]
      rw [← ih]
      constructor
      · rintro (⟨before, after, h, hb⟩ | ⟨h, hd⟩)
        · cases before with
          | nil =>
            simp only [List.nil_append, List.cons.injEq, Prod.mk.injEq] at h
            exact absurd h.1.1.symm hk
          | cons b before =>
            simp only [List.cons_append, List.cons.injEq] at h
            exact .inl ⟨before, after, h.2, fun e he => hb e (List.mem_cons_of_mem _ he)⟩
        · exact .inr ⟨fun e he => h e (List.mem_cons_of_mem _ he), hd⟩
      · rintro (⟨before, after, h, hb⟩ | ⟨h, hd⟩)
        · refine .inl ⟨(k, v) :: before, after, by rw [h]; rfl, fun e he => ?_⟩
          rcases List.mem_cons.1 he with rfl | he
          · exact fun h => hk h.symm
          · exact hb e he
        · refine .inr ⟨fun e he => ?_, hd⟩
          rcases List.mem_cons.1 he with rfl | he
          · exact fun h => hk h.symm
          · exact h e he

theorem endsWithSlash_iff (dir : Str) : (∃ d, dir = d ++ c!"/") ↔ dir.getLast? = some '/' := by
  constructor
  · rintro ⟨d, rfl⟩
    show (d ++ ['/']).getLast? = _
    simp
  · intro h
    obtain ⟨d, rfl⟩ := List.getLast?_eq_some_iff.1 h
    exact ⟨d, rfl⟩

theorem confPath_iff (vars : List (Str × Str)) (path : Str) : ConfPath vars path ↔ path = globalConfigPath vars := by
  unfold ConfPath globalConfigPath pathJoin
  simp only [confDir_iff, exists_eq_left, endsWithSlash_iff, ← not_or]
  generalize (hmGet c!"HUDI_CONF_DIR" vars).getD c!"/etc/hudi/conf" = dir
  have : dir ++ c!"/hudi-defaults.conf" = dir ++ c!"/" ++ c!"hudi-defaults.conf" := by
    rw [List.append_assoc]; rfl
  rw [this]
  split <;> rename_i h <;> simp [h]

theorem globalOptions_of (w : World) (o : Opts) (s : Storage) :
    ∃ f, GlobalOptions w s f ∧ ∀ k, hmGet k (imbueGlobalConfigs w o s) =
      (hmGet k o).or (if HudiKey k then f k else none) := by
  unfold imbueGlobalConfigs GlobalOptions
  simp only [confPath_iff, exists_eq_left]
  cases ha : s.absolute (globalConfigPath w.vars) with
  | none => exact ⟨fun _ => none, .inr ⟨by simp, fun _ => rfl⟩, by simp⟩
  | some c =>
    simp only
    by_cases ht : ∃ text, HoldsText c text
    · obtain ⟨text, ht⟩ := ht
      obtain ⟨g, h3, h4, h5⟩ := (C42_properties_file c!" \t=" c).1 text ht
      rw [h3]
      simp only
      refine ⟨_, .inl ⟨c, text, rfl, ht, h5⟩, fun k => ?_⟩
      refine (hmGet_addIfAbsent (fun k => startsWith c!"hoodie." k) id k o g).trans ?_
      congr 1
      have key : ∀ g : Opts, hmGet k ((g.filter (fun e => startsWith c!"hoodie." e.1)).map (fun e => (id e.1, e.2))) =
          if HudiKey k then hmGet k g else none := by
        intro g
        induction g with
        | nil => simp [hmGet]
        | cons e g ih =>
          obtain ⟨k', v⟩ := e
          rw [List.filter_cons]
          by_cases hp : startsWith c!"hoodie." k' = true
          · simp only [hp, if_true, List.map_cons, hmGet, id_eq]
            simp only [id_eq] at ih
            rw [ih]
            by_cases hk : k = k'
            · subst hk; simp [startsWith_hudi.1 hp]
            · simp [hk]
          · simp only [hp, hmGet]
            rw [if_neg (by simp), ih]
            by_cases hk : k = k'
            · subst hk
              have : ¬ HudiKey k := fun h => hp (startsWith_hudi.2 h)
              simp [this]
            · simp [hk]
      exact key g
    · obtain ⟨e, he⟩ := (C42_properties_file c!" \t=" c).2 ht
      rw [he]
      exact ⟨fun _ => none, .inr ⟨by rintro ⟨c', text, h, h'⟩; cases h; exact ht ⟨text, h'⟩, fun _ => rfl⟩,
        by simp⟩

/-- What the options of a builder are resolved to. -/
theorem resolve_spec {w : World} {uri : Str} {calls : List Call} {b' : TableBuilder}
    (h1 : (builderOf uri calls).resolveOptions w = .ok b') :
    ∃ (s : Storage) (table global env : Str → Option Str),
      w.connect b'.storageOptions uri = .ok s ∧ TableOptions s table ∧ GlobalOptions w s global ∧
      (∀ k v, env k = some v ↔ cloudVar w.vars k v) ∧
      (∀ k, hmGet k (hmOfList b'.hudiOptions) = firstOf [table k,
        if k = c!"hoodie.base.path" then some uri else lastGiven k (calls.flatMap Call.hudi),
        if HudiKey k then lastGiven k (calls.flatMap Call.generic) else none,
        if HudiKey k then global k else none]) ∧
      (∀ k, hmGet k b'.storageOptions = firstOf [lastGiven k (calls.flatMap Call.storage),
        if HudiKey k then none else lastGiven k (calls.flatMap Call.generic),
        env k]) := by
  unfold TableBuilder.resolveOptions resolveHudiOptions at h1
  simp only at h1
  obtain ⟨s, h2, h1⟩ := Res.bind_eq_ok.1 h1
  obtain ⟨o, h3, h1⟩ := Res.bind_eq_ok.1 h1
  cases h1
  obtain ⟨nd1, nd2, nd3⟩ := builder_nodup calls uri
  have hf := fun k => builder_fields calls (TableBuilder.fromBaseUri uri) k
  have huri : (builderOf uri calls).baseUri = uri := (hf []).1
  have hbase : hmGet Cfg.basePath.key (builderOf uri calls).resolveUserProvided.hudiOptions = some uri := by
    unfold TableBuilder.resolveUserProvided
    simp only [hmGet_extendIfAbsent, hmGet_hmInsert, if_true, huri, Option.some_or]
  have hconn : w.connect (resolveCloudEnvVars w.vars (builderOf uri calls).resolveUserProvided.storageOptions) uri =
      .ok s := by
    unfold World.storage Cfg.tryGet Cfg.get at h2
    rw [hbase] at h2
    exact h2
  have hgen : ∀ k, hmGet k (builderOf uri calls).options = lastGiven k (calls.flatMap Call.generic) := by
    intro k
    have := (hf k).2.2.2
    rw [show (TableBuilder.fromBaseUri uri).options = [] from rfl] at this
    exact this.trans (by simp [hmGet])
  have hhudi : ∀ k, hmGet k (builderOf uri calls).hudiOptions = lastGiven k (calls.flatMap Call.hudi) := by
    intro k
    have := (hf k).2.1
    rw [show (TableBuilder.fromBaseUri uri).hudiOptions = [] from rfl] at this
    exact this.trans (by simp [hmGet])
  have hstor : ∀ k, hmGet k (builderOf uri calls).storageOptions = lastGiven k (calls.flatMap Call.storage) := by
    intro k
    have := (hf k).2.2.1
    rw [show (TableBuilder.fromBaseUri uri).storageOptions = [] from rfl] at this
    exact this.trans (by simp [hmGet])
  obtain ⟨table, ht1, ht2⟩ := tableOptions_of h3
  obtain ⟨global, hg1, hg2⟩ := globalOptions_of w o s
  refine ⟨s, table, global, envOptions w.vars, hconn, ht1, hg1, envOptions_spec w.vars, ?_, ?_⟩
  · intro k
    show hmGet k (hmOfList (imbueGlobalConfigs w o s)) = _
    have nd : HmNodup (imbueGlobalConfigs w o s) := by
      have hr : ∀ (l : List (Str × Str)) (m : Opts), HmNodup m →
          HmNodup (l.foldl (fun m e => hmInsertIfAbsent e.1 e.2 m) m) := by
        intro l
        induction l with
        | nil => exact fun m h => h
        | cons e l ih =>
          intro m hm
          rw [List.foldl_cons]
          apply ih
          unfold hmInsertIfAbsent
          split
          · exact hm
          · exact hmInsert_nodup hm
      have h0 : HmNodup (builderOf uri calls).resolveUserProvided.hudiOptions :=
        hr _ _ (hmInsert_nodup nd1)
      have h1 : HmNodup o := by
        unfold imbueTableProperties at h3
        obtain ⟨_, _, h3⟩ := Res.bind_eq_ok.1 h3
        obtain ⟨_, _, h3⟩ := Res.bind_eq_ok.1 h3
        cases h3
        exact hmExtend_nodup h0
      unfold imbueGlobalConfigs
      have hr' : ∀ (l : List (Str × Str)) (m : Opts), HmNodup m →
          HmNodup (l.foldl (fun m e => if startsWith c!"hoodie." e.1 = true ∧ hmContains e.1 m = false
            then hmInsert e.1 e.2 m else m) m) := by
        intro l
        induction l with
        | nil => exact fun m h => h
        | cons e l ih =>
          intro m hm
          rw [List.foldl_cons]
          apply ih
          split
          · exact hmInsert_nodup hm
          · exact hm
      split
      · exact h1
      · split
        · exact hr' _ _ h1
        · exact h1
    rw [hmGet_hmOfList, hmGet_reverse_of_nodup nd, hg2, ht2]
    unfold TableBuilder.resolveUserProvided
    simp only [hmGet_extendIfAbsent, hmGet_hmInsert, huri]
    rw [show Cfg.basePath.key = c!"hoodie.base.path" from rfl, hmGet_splitHudi_fst,
      hmGet_reverse_of_nodup nd3, hgen, hhudi]
    unfold firstOf
    by_cases hk : HudiKey k
    · rw [if_pos (startsWith_hudi.2 hk), if_pos hk, if_pos hk]
      cases table k with
      | some v => simp
      | none =>
        by_cases hb : k = c!"hoodie.base.path"
        · simp [hb]
        · simp only [hb, if_false]
          cases lastGiven k (calls.flatMap Call.hudi) <;> cases lastGiven k (calls.flatMap Call.generic) <;>
            cases global k <;> simp
    · rw [if_neg (fun h => hk (startsWith_hudi.1 h)), if_neg hk, if_neg hk]
      cases table k with
      | some v => simp
      | none =>
        by_cases hb : k = c!"hoodie.base.path"
        · simp [hb]
        · simp only [hb, if_false]
          cases lastGiven k (calls.flatMap Call.hudi) <;> simp
  · intro k
    show hmGet k (resolveCloudEnvVars w.vars (builderOf uri calls).resolveUserProvided.storageOptions) = _
    unfold resolveCloudEnvVars
    rw [hmGet_addIfAbsent (fun n => cloudPrefixes.any (fun p => startsWith p n)) lower]
    unfold TableBuilder.resolveUserProvided
    simp only [hmGet_extendIfAbsent]
    rw [hmGet_splitHudi_snd, hmGet_reverse_of_nodup nd3, hgen, hstor]
    unfold firstOf
    rw [show hmGet k _ = envOptions w.vars k from rfl]
    by_cases hk : HudiKey k
    · rw [if_pos (startsWith_hudi.2 hk), if_pos hk]
      cases lastGiven k (calls.flatMap Call.storage) <;> cases envOptions w.vars k <;> simp
    · rw [if_neg (fun h => hk (startsWith_hudi.1 h)), if_neg hk]
      cases lastGiven k (calls.flatMap Call.storage) <;> cases lastGiven k (calls.flatMap Call.generic) <;>
        cases envOptions w.vars k <;> simp

/-- **C41.**  For every sequence of calls on the builder: once the table is open, each hudi option has the
first available of the value in the table's own properties file, the value given explicitly (the base
path is given explicitly), the value given as an option of unspecified kind, and the value in the global
configuration; each storage option has the first available of the value given explicitly, the value given
as an option of unspecified kind, and that of an environment variable.  Of several values given in one
way the last counts. -/
theorem C41_precedence (E : Env) (w : World) (uri : Str) (calls : List Call) (tb : Table)
    (h : (builderOf uri calls).build E w = .ok tb) :
    ∃ (s : Storage) (table global env : Str → Option Str),
      w.connect tb.storageOptions uri = .ok s ∧ TableOptions s table ∧ GlobalOptions w s global ∧
      (∀ k v, env k = some v ↔ cloudVar w.vars k v) ∧
      (∀ k, hmGet k tb.hudiOptions = firstOf [table k,
        if k = c!"hoodie.base.path" then some uri else lastGiven k (calls.flatMap Call.hudi),
        if HudiKey k then lastGiven k (calls.flatMap Call.generic) else none,
        if HudiKey k then global k else none]) ∧
      (∀ k, hmGet k tb.storageOptions = firstOf [lastGiven k (calls.flatMap Call.storage),
        if HudiKey k then none else lastGiven k (calls.flatMap Call.generic),
        env k]) := by
  unfold TableBuilder.build at h
  obtain ⟨b', h1, h⟩ := Res.bind_eq_ok.1 h
  obtain ⟨_, _, h⟩ := Res.bind_eq_ok.1 h
  obtain ⟨_, _, h⟩ := Res.bind_eq_ok.1 h
  obtain ⟨_, _, h⟩ := Res.bind_eq_ok.1 h
  obtain ⟨_, _, h⟩ := Res.bind_eq_ok.1 h
  cases h
  exact resolve_spec h1

end Hudi
