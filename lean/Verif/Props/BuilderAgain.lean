import Verif.Spec.BuilderAgain
import Verif.Props.SameOptionsDemo

/-! # C96: a builder that is used more than once -/

namespace Hudi
open Spec

/-! ## Adding what is there -/

theorem extendIfAbsent_there {m l : Opts} (h : ∀ e ∈ l, hmContains e.1 m = true) : extendIfAbsent m l = m := by
  unfold extendIfAbsent
  induction l with
  | nil => rfl
  | cons e l ih =>
    rw [List.foldl_cons]
    unfold hmInsertIfAbsent
    rw [if_pos (h e (by simp))]
    exact ih (fun x hx => h x (by simp [hx]))

theorem cloud_there {vars : List (Str × Str)} {m : Opts}
    (h : ∀ e ∈ vars, cloudPrefixes.any (fun p => startsWith p e.1) = true → hmContains (lower e.1) m = true) :
    resolveCloudEnvVars vars m = m := by
  unfold resolveCloudEnvVars
  induction vars with
  | nil => rfl
  | cons e l ih =>
    rw [List.foldl_cons, if_neg]
    · exact ih (fun x hx => h x (by simp [hx]))
    · rintro ⟨h1, h2⟩
      rw [h e (by simp) h1] at h2
      cases h2

theorem cloud_has {vars : List (Str × Str)} {m : Opts} {k : Str}
    (h : hmContains k m = true ∨ ∃ e ∈ vars, cloudPrefixes.any (fun p => startsWith p e.1) = true ∧ lower e.1 = k) :
    hmContains k (resolveCloudEnvVars vars m) = true := by
  have hg := hmGet_addIfAbsent (fun n => cloudPrefixes.any (fun p => startsWith p n)) lower k m vars
  show (hmGet k (resolveCloudEnvVars vars m)).isSome = true
  unfold resolveCloudEnvVars
  rw [hg]
  rcases h with h | ⟨e, he, hp, hk⟩
  · unfold hmContains at h
    rw [Option.isSome_or, h]
    rfl
  · rw [Option.isSome_or]
    have : (hmGet k ((vars.filter (fun e => cloudPrefixes.any (fun p => startsWith p e.1))).map
        (fun e => (lower e.1, e.2)))).isSome = true := by
      cases hg : hmGet k ((vars.filter (fun e => cloudPrefixes.any (fun p => startsWith p e.1))).map
        (fun e => (lower e.1, e.2))) with
      | some v => rfl
      | none =>
        exfalso
        apply hmGet_eq_none.1 hg
        rw [List.map_map]
        exact List.mem_map.2 ⟨e, List.mem_filter.2 ⟨he, hp⟩, hk⟩
    rw [this, Bool.or_true]

theorem extendIfAbsent_has {m l : Opts} {k : Str} (h : hmContains k m = true ∨ k ∈ l.map Prod.fst) :
    hmContains k (extendIfAbsent m l) = true := by
  unfold hmContains
  rw [hmGet_extendIfAbsent, Option.isSome_or]
  rcases h with h | h
  · unfold hmContains at h
    rw [h]; rfl
  · cases hg : hmGet k l with
    | some v => simp
    | none => exact absurd h (hmGet_eq_none.1 hg)

/-! ## What an attempt leaves behind -/

/-- The storage options with which an attempt connects. -/
def connectsWith (vars : List (Str × Str)) (b : TableBuilder) : Opts :=
  resolveCloudEnvVars vars b.resolveUserProvided.storageOptions

theorem connectsWith_again {vars : List (Str × Str)} {b b' : TableBuilder} (ho : b'.options = b.options)
    (hs : b'.storageOptions = connectsWith vars b) : connectsWith vars b' = connectsWith vars b := by
  have h1 : b'.resolveUserProvided.storageOptions = connectsWith vars b := by
    show extendIfAbsent b'.storageOptions (splitHudiOptions b'.options).2 = _
    rw [hs, ho]
    apply extendIfAbsent_there
    intro e he
    apply cloud_has
    left
    exact extendIfAbsent_has (.inr (List.mem_map_of_mem he))
  unfold connectsWith at h1 ⊢
  rw [h1]
  apply cloud_there
  intro e he hp
  exact cloud_has (.inr ⟨e, he, hp, rfl⟩)

theorem afterBuild_fields (w : World) (b : TableBuilder) :
    (b.afterBuild w).baseUri = b.baseUri ∧ (b.afterBuild w).options = b.options ∧
    (b.afterBuild w).storageOptions = connectsWith w.vars b ∧
    ((b.afterBuild w).hudiOptions = b.resolveUserProvided.hudiOptions ∨
      ∃ s o, w.storage (connectsWith w.vars b) b.resolveUserProvided.hudiOptions = .ok s ∧
        imbueTableProperties b.resolveUserProvided.hudiOptions s = .ok o ∧
        (b.afterBuild w).hudiOptions = imbueGlobalConfigs w o s) := by
  unfold TableBuilder.afterBuild
  simp only
  split
  · next b'' h =>
    unfold resolveHudiOptions at h
    obtain ⟨s, h1, h⟩ := Res.bind_eq_ok.1 h
    obtain ⟨o, h2, h⟩ := Res.bind_eq_ok.1 h
    cases h
    exact ⟨rfl, rfl, rfl, .inr ⟨s, o, h1, h2, rfl⟩⟩
  · exact ⟨rfl, rfl, rfl, .inl rfl⟩

theorem resolved_hudi (b : TableBuilder) (k : Str) :
    hmGet k b.resolveUserProvided.hudiOptions =
      ((if k = Cfg.basePath.key then some b.baseUri else hmGet k b.hudiOptions).or
        (hmGet k (splitHudiOptions b.options).1)) := by
  show hmGet k (extendIfAbsent (hmInsert _ _ _) _) = _
  rw [hmGet_extendIfAbsent, hmGet_hmInsert]

theorem storage_uri (w : World) (so : Opts) (b : TableBuilder) :
    w.storage so b.resolveUserProvided.hudiOptions = w.connect so b.baseUri := by
  have : Cfg.basePath.tryGet b.resolveUserProvided.hudiOptions = some (.string b.baseUri) := by
    unfold Cfg.tryGet Cfg.get
    rw [resolved_hudi, if_pos rfl]
    rfl
  unfold World.storage
  rw [this]
  rfl

theorem imbueTable_values {o o' : Opts} {s : Storage} (h : imbueTableProperties o s = .ok o') :
    ∃ f, TableOptions s f ∧ (∀ k, hmGet k o' = (f k).or (hmGet k o)) ∧
      ∀ o₁, ∃ o₂, imbueTableProperties o₁ s = .ok o₂ ∧ (HmNodup o₁ → HmNodup o₂) ∧
        ∀ k, hmGet k o₂ = (f k).or (hmGet k o₁) := by
  unfold imbueTableProperties at h
  obtain ⟨c, h1, h⟩ := Res.bind_eq_ok.1 h
  obtain ⟨props, h2, h⟩ := Res.bind_eq_ok.1 h
  have hi : ∀ o₁, imbueTableProperties o₁ s = .ok (hmExtend o₁ props) := by
    intro o₁
    unfold imbueTableProperties
    rw [h1]
    show (parseContentForOptions c.2 c!"=").bind _ = _
    rw [h2]
    rfl
  obtain ⟨f, hf, hv⟩ := tableOptions_of (hi [])
  have hfk : ∀ k, f k = hmGet k props.reverse := by
    intro k
    have := hv k
    rw [hmGet_hmExtend] at this
    simpa [hmGet] using this.symm
  cases h
  refine ⟨f, hf, fun k => ?_, fun o₁ => ⟨_, hi o₁, fun hn => hmExtend_nodup hn, fun k => ?_⟩⟩ <;>
    rw [hmGet_hmExtend, hfk]

theorem imbueTable_reads (s : Storage) :
    ∃ r : Res Opts, ∀ o, imbueTableProperties o s = r.bind (fun p => .ok (hmExtend o p)) := by
  refine ⟨(getFile s.tree c!".hoodie/hoodie.properties").bind (fun c => parseContentForOptions c.2 c!"="), fun o => ?_⟩
  unfold imbueTableProperties
  cases getFile s.tree c!".hoodie/hoodie.properties" <;> rfl

theorem imbueGlobal_values (w : World) (s : Storage) :
    ∃ f, GlobalOptions w s f ∧ ∀ o k, hmGet k (imbueGlobalConfigs w o s) =
      (hmGet k o).or (if HudiKey k then f k else none) := by
  obtain ⟨f, hf, hv⟩ := globalOptions_of w [] s
  refine ⟨f, hf, fun o k => ?_⟩
  have h0 : (if HudiKey k then f k else none) = hmGet k (imbueGlobalConfigs w [] s) := by
    rw [hv]; simp [hmGet]
  rw [h0]
  unfold imbueGlobalConfigs
  split
  · simp [hmGet]
  · split
    · next global _ =>
      have h1 := hmGet_addIfAbsent (fun n => startsWith c!"hoodie." n) id k o global
      have h2 := hmGet_addIfAbsent (fun n => startsWith c!"hoodie." n) id k [] global
      refine h1.trans (congrArg (Option.or _) ?_)
      refine Eq.trans ?_ h2.symm
      simp [hmGet]
    · simp [hmGet]

theorem imbueGlobal_nodup (w : World) {o : Opts} (s : Storage) (h : HmNodup o) :
    HmNodup (imbueGlobalConfigs w o s) := (imbueGlobal_same w (.refl h) s).map

theorem resolved_nodup {b : TableBuilder} (h : HmNodup b.hudiOptions) :
    HmNodup b.resolveUserProvided.hudiOptions :=
  (((SameMap.refl h).insert Cfg.basePath.key b.baseUri).absent (.refl (splitHudi_nodup b.options).1)).map

theorem TableOptions.unique {s s' : Storage} {f f' : Str → Option Str}
    (h : s.tree.fileAt [c!".hoodie", c!"hoodie.properties"] = s'.tree.fileAt [c!".hoodie", c!"hoodie.properties"])
    (hf : TableOptions s f) (hf' : TableOptions s' f') : f = f' := by
  obtain ⟨n, c, text, h1, h2, h3⟩ := hf
  obtain ⟨n', c', text', h1', h2', h3'⟩ := hf'
  rw [← h, h1] at h1'
  cases h1'
  have ht : text = text' := by
    rcases h2 with rfl | rfl <;> rcases h2' with e | e
    · cases e; rfl
    · cases e
    · cases e
    · have := congrArg utf8Decode (Content.bytes.inj e)
      rw [utf8Decode_encode, utf8Decode_encode] at this
      exact Option.some.inj this
  subst ht
  funext k
  apply Option.ext
  intro v
  rw [h3 k v, h3' k v]

/-- Where the builder `b`, used before, stands in comparison with the fresh builder `b₀`. -/
structure Used (w : World) (b₀ b : TableBuilder) : Prop where
  uri : b.baseUri = b₀.baseUri
  options : b.options = b₀.options
  storage : connectsWith w.vars b = connectsWith w.vars b₀
  hudi : HmNodup b.hudiOptions
  values : ∀ s f g, w.connect (connectsWith w.vars b₀) b₀.baseUri = .ok s → TableOptions s f → GlobalOptions w s g →
    ∀ k, f k = none →
      hmGet k b.resolveUserProvided.hudiOptions = hmGet k b₀.resolveUserProvided.hudiOptions ∨
      (hmGet k b₀.resolveUserProvided.hudiOptions = none ∧ HudiKey k ∧
        ∃ v, g k = some v ∧ hmGet k b.resolveUserProvided.hudiOptions = some v)

theorem Used.step {w w' : World} {b₀ b : TableBuilder} (h : Used w b₀ b) (hk : KeepsOptions w' w) :
    Used w b₀ (b.afterBuild w') := by
  obtain ⟨f1, f2, f3, f4⟩ := afterBuild_fields w' b
  rw [hk.vars] at f3
  refine ⟨f1.trans h.uri, f2.trans h.options, (connectsWith_again f2 f3).trans h.storage, ?_, ?_⟩
  · rcases f4 with f4 | ⟨s, o, _, h2, f4⟩
    · rw [f4]; exact resolved_nodup h.hudi
    · rw [f4]
      apply imbueGlobal_nodup
      obtain ⟨f, _, _, hn⟩ := imbueTable_values h2
      obtain ⟨o₂, ho, hn, _⟩ := hn b.resolveUserProvided.hudiOptions
      rw [h2] at ho
      cases ho
      exact hn (resolved_nodup h.hudi)
  · intro s f g hs hf hg k hfk
    have old := h.values s f g hs hf hg k hfk
    by_cases hb : k = Cfg.basePath.key
    · left
      rw [resolved_hudi, resolved_hudi, if_pos hb, if_pos hb, f1, h.uri]
      rfl
    have e : hmGet k (b.afterBuild w').resolveUserProvided.hudiOptions =
        (hmGet k (b.afterBuild w').hudiOptions).or (hmGet k (splitHudiOptions b.options).1) := by
      rw [resolved_hudi, if_neg hb, f2]
    have eb := resolved_hudi b k
    rw [if_neg hb] at eb
    rcases f4 with f4 | ⟨s', o, h1, h2, f4⟩
    · have : hmGet k (b.afterBuild w').resolveUserProvided.hudiOptions =
          hmGet k b.resolveUserProvided.hudiOptions := by
        rw [e, f4, eb]
        cases hmGet k b.hudiOptions <;> cases hmGet k (splitHudiOptions b.options).1 <;> rfl
      rw [this]; exact old
    · rw [storage_uri, hk.vars, h.storage, h.uri] at h1
      obtain ⟨f', hf', hv, _⟩ := imbueTable_values h2
      obtain ⟨g', hg', hgv⟩ := imbueGlobal_values w' s'
      have hn : f' k = none := by
        cases hn : f' k with
        | none => rfl
        | some v => exact absurd hfk (hk.table _ _ s' s f' f h1 hs hf' hf k (by rw [hn]; exact nofun))
      rw [f4, hgv, hv, hn, Option.none_or] at e
      cases hr : hmGet k b.resolveUserProvided.hudiOptions with
      | some v =>
        rw [hr, Option.some_or, Option.some_or] at e
        rw [e]
        rw [hr] at old
        exact old
      | none =>
        have hgen : hmGet k (splitHudiOptions b.options).1 = none := by
          rw [hr] at eb
          cases hx : hmGet k (splitHudiOptions b.options).1 with
          | none => rfl
          | some v =>
            rw [hx] at eb
            cases hy : hmGet k b.hudiOptions <;> rw [hy] at eb <;> cases eb
        have h0 : hmGet k b₀.resolveUserProvided.hudiOptions = none := by
          rcases old with old | ⟨old, _⟩
          · rw [← old, hr]
          · exact old
        rw [hr, hgen, Option.none_or, Option.or_none] at e
        rw [h0, e]
        by_cases hkey : HudiKey k
        · rw [if_pos hkey]
          cases hx : g' k with
          | none => exact .inl rfl
          | some v => exact .inr ⟨rfl, hkey, v, hk.global _ _ s' s g' g h1 hs hg' hg k v hx, rfl⟩
        · rw [if_neg hkey]; exact .inl rfl

theorem Used.attempts {w : World} {b₀ : TableBuilder} {ws : List World} (hk : ∀ w' ∈ ws, KeepsOptions w' w)
    {b : TableBuilder} (h : Used w b₀ b) : Used w b₀ (afterAttempts ws b) := by
  unfold afterAttempts
  induction ws generalizing b with
  | nil => exact h
  | cons w' ws ih => exact ih (fun x hx => hk x (by simp [hx])) (h.step (hk w' (by simp)))

/-- Both builders resolve to the same options. -/
structure SameResolved (b b' : TableBuilder) : Prop where
  hudi : SameMap b.hudiOptions b'.hudiOptions
  storage : b.storageOptions = b'.storageOptions

theorem Used.resolved {w : World} {b₀ b : TableBuilder} (h₀ : HmNodup b₀.hudiOptions) (h : Used w b₀ b) :
    Alike SameResolved (b.resolveOptions w) (b₀.resolveOptions w) := by
  have hst := h.storage
  unfold connectsWith at hst
  unfold TableBuilder.resolveOptions resolveHudiOptions
  simp only
  rw [hst, storage_uri, storage_uri, h.uri]
  cases hs : w.connect (resolveCloudEnvVars w.vars b₀.resolveUserProvided.storageOptions) b₀.baseUri with
  | err e => exact .err e
  | panic => exact .panic
  | ok s =>
    cases h1 : imbueTableProperties b₀.resolveUserProvided.hudiOptions s with
    | ok o =>
      obtain ⟨f, hf, hv, hall⟩ := imbueTable_values h1
      obtain ⟨g, hg, hgv⟩ := imbueGlobal_values w s
      obtain ⟨o₂, ho₂, hn₂, hv₂⟩ := hall b.resolveUserProvided.hudiOptions
      obtain ⟨o₃, ho₃, hn₃, _⟩ := hall b₀.resolveUserProvided.hudiOptions
      rw [h1] at ho₃
      cases ho₃
      show Alike SameResolved ((imbueTableProperties _ s).bind _) _
      rw [ho₂]
      show Alike SameResolved _ ((imbueTableProperties _ s).bind _)
      rw [h1]
      refine .ok ⟨⟨imbueGlobal_nodup w s (hn₂ (resolved_nodup h.hudi)),
        imbueGlobal_nodup w s (hn₃ (resolved_nodup h₀)), fun k => ?_⟩, rfl⟩
      show hmGet k (imbueGlobalConfigs w o₂ s) = hmGet k (imbueGlobalConfigs w o s)
      rw [hgv, hgv, hv₂, hv]
      cases hfk : f k with
      | some v => rfl
      | none =>
        rcases h.values s f g hs hf hg k hfk with e | ⟨e0, hkey, v, hgk, e⟩
        · rw [e]
        · rw [e0, e, if_pos hkey, hgk]; rfl
    | err e =>
      obtain ⟨r, hr⟩ := imbueTable_reads s
      rw [hr] at h1
      show Alike SameResolved ((imbueTableProperties _ s).bind _) ((imbueTableProperties _ s).bind _)
      rw [hr, hr]
      cases r with
      | ok _ => cases h1
      | err e => exact .err e
      | panic => exact .panic
    | panic =>
      obtain ⟨r, hr⟩ := imbueTable_reads s
      rw [hr] at h1
      show Alike SameResolved ((imbueTableProperties _ s).bind _) ((imbueTableProperties _ s).bind _)
      rw [hr, hr]
      cases r with
      | ok _ => cases h1
      | err e => exact .err e
      | panic => exact .panic

/-- **C96.**  A builder with which the table has been opened, or has failed to be opened, any number of times opens
the table exactly as a new builder with the same calls does: with the same options and instants, or with the same
error.  Missing: no options are given to the builder between the attempts, and what the properties file and the
global configuration gave at an earlier attempt is still given; otherwise `C96_false`. -/
theorem C96_again_partial (E : Env) (uri : Str) (calls : List Call) (ws : List World) (w : World)
    (hk : ∀ w' ∈ ws, KeepsOptions w' w) :
    Alike SameHandle ((afterAttempts ws (builderOf uri calls)).build E w) ((builderOf uri calls).build E w) := by
  obtain ⟨n1, n2, n3⟩ := builder_nodup calls uri
  have hu : Used w (builderOf uri calls) (afterAttempts ws (builderOf uri calls)) :=
    Used.attempts hk ⟨rfl, rfl, rfl, n1, fun _ _ _ _ _ _ _ _ => .inl rfl⟩
  have hso : ∀ b, (builderOf uri calls).resolveOptions w = .ok b → HmNodup b.storageOptions := by
    intro b hb
    unfold TableBuilder.resolveOptions resolveHudiOptions at hb
    obtain ⟨_, _, hb⟩ := Res.bind_eq_ok.1 hb
    obtain ⟨_, _, hb⟩ := Res.bind_eq_ok.1 hb
    cases hb
    exact (((SameMap.refl n2).absent (.refl (splitHudi_nodup _).2)).cloud w.vars).map
  unfold TableBuilder.build
  have hr := hu.resolved n1
  revert hso hr
  generalize (builderOf uri calls).resolveOptions w = r
  generalize (afterAttempts ws (builderOf uri calls)).resolveOptions w = r'
  intro hso hr
  cases hr with
  | err e => exact .err e
  | panic => exact .panic
  | @ok b b₀ h =>
    have ho := h.hudi.ofList
    have hst := h.storage
    have hn := hso _ rfl
    have hstor : ∀ so, w.storage so (hmOfList b.hudiOptions) = w.storage so (hmOfList b₀.hudiOptions) := by
      intro so
      unfold World.storage
      rw [tryGet_same ho.values]
    refine Alike.bind (R := fun x y => b = x ∧ b₀ = y) (.ok ⟨rfl, rfl⟩) fun x y ⟨e1, e2⟩ => ?_
    cases e1
    cases e2
    simp only
    rw [validateConfigs_same ho.values, hst, hstor]
    refine (Alike.of_eq rfl).bind fun _ _ _ => ?_
    refine (Alike.of_eq rfl).bind fun s s' e => ?_
    subst e
    refine (load_alike E s.tree ho).bind fun tl tl' ht => ?_
    refine (Alike.of_eq rfl).bind fun _ _ _ => ?_
    refine .ok ⟨ho, ?_, ?_, ht.2.2⟩
    · exact .refl hn
    · show SameMap tl.opts tl'.opts
      rw [ht.1, ht.2.1]
      exact ho

namespace Demo

/-- An opening that fails, and one before the table's last commit. -/
def earlier : List World := [{ openWorld openTree with connect := fun _ _ => .err .storage }, openWorld openDirtyTree]

def optionOf (k : Str) : Res Table → Option Str
  | .ok tb => hmGet k tb.hudiOptions
  | _ => none

/-- The same properties file without its last line. -/
def thinWorld : World := openWorld (.dir c!".hoodie"
  (.file c!"hoodie.properties" 1 (.bytes (utf8Encode c!"hoodie.table.name=trips\nhoodie.table.type=MERGE_ON_READ\nhoodie.table.version=6\nhoodie.timeline.layout.version=1\n"))
    .nil) .nil)

end Demo

open Demo in
/-- The table can be opened with the builder used before, and has a commit that it did not have then. -/
example : (∀ w' ∈ earlier, KeepsOptions w' (openWorld openTree)) ∧
    latestOf ((afterAttempts earlier (builderOf c!"s3://b/trips" openCalls)).build env (openWorld openTree)) = some t4 ∧
    (afterAttempts earlier (builderOf c!"s3://b/trips" openCalls)) ≠ builderOf c!"s3://b/trips" openCalls := by
  refine ⟨?_, by decide +kernel, by decide +kernel⟩
  intro w' hw
  rcases List.mem_cons.1 hw with rfl | hw
  · exact ⟨rfl, fun _ _ _ _ _ _ h => (nomatch h), fun _ _ _ _ _ _ h => (nomatch h)⟩
  · cases List.mem_singleton.1 hw
    refine ⟨rfl, fun so uri s s' f f' h h' hf hf' k => ?_, fun so uri s s' f f' h h' hf hf' k v hv => ?_⟩
    · simp only [openWorld] at h h'
      split at h
      · cases h
        rw [if_pos (by assumption)] at h'
        cases h'
        rw [TableOptions.unique rfl hf hf']
        exact id
      · cases h
    · simp only [openWorld] at h
      split at h
      · cases h
        obtain ⟨path, _, ⟨c, text, hc, _⟩ | ⟨_, hn⟩⟩ := hf
        · cases hc
        · rw [hn] at hv; cases hv
      · cases h

open Demo in
/-- **C96 is false in general.**  An option given to a builder after it has opened the table is ignored if the option
had a value then; and an option that has been removed from the table's properties file stays. -/
theorem C96_false :
    (∃ (E : Env) (w : World) (uri : Str) (calls : List Call) (k v : Str) (tb tb' : Table),
      (((builderOf uri calls).afterBuild w).withOption k v).build E w = .ok tb ∧
      (builderOf uri (calls ++ [.option k v])).build E w = .ok tb' ∧
      hmGet k tb'.hudiOptions = some v ∧ hmGet k tb.hudiOptions ≠ some v) ∧
    (∃ (E : Env) (w w' : World) (uri : Str) (calls : List Call) (k : Str) (tb tb' : Table),
      (afterAttempts [w] (builderOf uri calls)).build E w' = .ok tb ∧ (builderOf uri calls).build E w' = .ok tb' ∧
      hmGet k tb'.hudiOptions = none ∧ hmGet k tb.hudiOptions ≠ none) := by
  have get : ∀ {r : Res Table} {k : Str} {P : Option Str → Prop}, r.isOk = true → P (optionOf k r) →
      ∃ tb, r = .ok tb ∧ P (hmGet k tb.hudiOptions) := by
    intro r k P hr hP
    cases r with
    | ok tb => exact ⟨tb, rfl, hP⟩
    | err _ => cases hr
    | panic => cases hr
  constructor
  · obtain ⟨tb, h1, h2⟩ := get (r := (((builderOf c!"s3://b/trips" openCalls).afterBuild (openWorld openTree)).withOption
        c!"hoodie.read.listing.parallelism" c!"8").build env (openWorld openTree))
      (k := c!"hoodie.read.listing.parallelism") (P := (· ≠ some c!"8")) (by decide +kernel)
      (by decide +kernel)
    obtain ⟨tb', h1', h2'⟩ := get (r := (builderOf c!"s3://b/trips" (openCalls ++
        [.option c!"hoodie.read.listing.parallelism" c!"8"])).build env (openWorld openTree))
      (k := c!"hoodie.read.listing.parallelism") (P := (· = some c!"8")) (by decide +kernel)
      (by decide +kernel)
    exact ⟨_, _, _, _, _, _, tb, tb', h1, h1', h2', h2⟩
  · obtain ⟨tb, h1, h2⟩ := get (r := (afterAttempts [openWorld openTree] (builderOf c!"s3://b/trips" openCalls)).build
        env thinWorld)
      (k := c!"hoodie.table.precombine.field") (P := (· ≠ none)) (by decide +kernel) (by decide +kernel)
    obtain ⟨tb', h1', h2'⟩ := get (r := (builderOf c!"s3://b/trips" openCalls).build env thinWorld)
      (k := c!"hoodie.table.precombine.field") (P := (· = none)) (by decide +kernel) (by decide +kernel)
    exact ⟨_, _, _, _, _, _, tb, tb', h1, h1', h2', h2⟩

end Hudi
