import Verif.Spec.Orders
import Verif.Lemmas.FsView
import Verif.Lemmas.Cached
import Verif.Lemmas.Builder
import Verif.Lemmas.Handout
import Verif.Lemmas.Answers
import Mathlib.Tactic.Common

/-! # Lemmas: going through hash maps in any order -/

namespace Hudi

open Spec

theorem Spec.SameOutcome.symm {α : Type} {R : α → α → Prop} (hR : ∀ a b, R a b → R b a) {r r' : Res α}
    (h : SameOutcome R r r') : SameOutcome R r' r :=
  ⟨fun a ha => by obtain ⟨b, hb, hab⟩ := h.2 a ha; exact ⟨b, hb, hR _ _ hab⟩,
   fun a ha => by obtain ⟨b, hb, hab⟩ := h.1 a ha; exact ⟨b, hb, hR _ _ hab⟩⟩

theorem Spec.SameOutcome.trans {α : Type} {R : α → α → Prop} (hR : ∀ a b c, R a b → R b c → R a c)
    {r r' r'' : Res α} (h : SameOutcome R r r') (h' : SameOutcome R r' r'') : SameOutcome R r r'' :=
  ⟨fun a ha => by
    obtain ⟨b, hb, hab⟩ := h.1 a ha
    obtain ⟨c, hc, hbc⟩ := h'.1 b hb
    exact ⟨c, hc, hR _ _ _ hab hbc⟩,
   fun a ha => by
    obtain ⟨b, hb, hab⟩ := h'.2 a ha
    obtain ⟨c, hc, hbc⟩ := h.2 b hb
    exact ⟨c, hc, hR _ _ _ hbc hab⟩⟩

theorem Spec.SameOutcome.refl {α : Type} {R : α → α → Prop} (hR : ∀ a, R a a) (r : Res α) : SameOutcome R r r :=
  ⟨fun a ha => ⟨a, ha, hR a⟩, fun a ha => ⟨a, ha, hR a⟩⟩

theorem Spec.SameOutcome.ok {α : Type} {R : α → α → Prop} {a b : α} (h : R a b) :
    SameOutcome R (.ok a) (.ok b) :=
  ⟨fun _ hx => ⟨b, rfl, by cases hx; exact h⟩, fun _ hx => ⟨a, rfl, by cases hx; exact h⟩⟩

theorem Spec.SameOutcome.bind {α β : Type} {R : α → α → Prop} {S : β → β → Prop} {r r' : Res α}
    {f f' : α → Res β} (h : SameOutcome R r r') (hf : ∀ a a', R a a' → SameOutcome S (f a) (f' a')) :
    SameOutcome S (r >>= f) (r' >>= f') := by
  constructor
  · intro b hb
    obtain ⟨a, ha, hfa⟩ := Res.bind_eq_ok.1 hb
    obtain ⟨a', ha', haa⟩ := h.1 a ha
    obtain ⟨b', hb', hbb⟩ := (hf a a' haa).1 b hfa
    exact ⟨b', Res.bind_eq_ok.2 ⟨a', ha', hb'⟩, hbb⟩
  · intro b hb
    obtain ⟨a, ha, hfa⟩ := Res.bind_eq_ok.1 hb
    obtain ⟨a', ha', haa⟩ := h.2 a ha
    obtain ⟨b', hb', hbb⟩ := (hf a' a haa).2 b hfa
    exact ⟨b', Res.bind_eq_ok.2 ⟨a', ha', hb'⟩, hbb⟩

/-- Folding over permuted lists, when steps with different elements can be swapped. -/
theorem foldL_perm {α β : Type} {R : β → β → Prop} {D : α → α → Prop} {f : β → α → Res β}
    (hsymm : ∀ a b, R a b → R b a) (htrans : ∀ a b c, R a b → R b c → R a c)
    (hD : ∀ a b, D a b → D b a)
    (hf : ∀ b b' a, R b b' → SameOutcome R (f b a) (f b' a))
    (hswap : ∀ b a a', R b b → D a a' → SameOutcome R (f b a >>= fun c => f c a') (f b a' >>= fun c => f c a))
    {l l' : List α} (hp : l.Perm l') (hl : l.Pairwise D) {b b' : β} (hb : R b b') :
    SameOutcome R (Res.foldL f b l) (Res.foldL f b' l') := by
  have hcong : ∀ (l : List α) (b b' : β), R b b' → SameOutcome R (Res.foldL f b l) (Res.foldL f b' l) := by
    intro l
    induction l with
    | nil => intro b b' hb; exact .ok hb
    | cons a l ih => intro b b' hb; exact (hf b b' a hb).bind (fun c c' hc => ih c c' hc)
  induction hp generalizing b b' with
  | nil => exact .ok hb
  | cons a _ ih =>
    exact (hf b b' a hb).bind (fun c c' hc => ih (List.pairwise_cons.1 hl).2 hc)
  | swap a a' l =>
    have hd : D a' a := (List.pairwise_cons.1 hl).1 a (by simp)
    have h1 : SameOutcome R (Res.foldL f b (a' :: a :: l)) (Res.foldL f b (a :: a' :: l)) := by
      have e : ∀ x y, Res.foldL f b (x :: y :: l) = ((f b x >>= fun c => f c y) >>= fun c => Res.foldL f c l) := by
        intro x y
        simp only [Res.foldL]
        cases f b x <;> rfl
      rw [e, e]
      exact (hswap b a' a (htrans _ _ _ hb (hsymm _ _ hb)) hd).bind (fun c c' hc => hcong l c c' hc)
    exact h1.trans htrans (hcong _ _ _ hb)
  | trans p _ ih1 ih2 =>
    have hl2 := (p.pairwise_iff (fun {x y} h => hD x y h)).1 hl
    exact (ih1 hl hb).trans htrans (ih2 hl2 (htrans _ _ _ (hsymm _ _ hb) hb))

/-- Mapping over permuted lists. -/
theorem mapL_sameOutcome {α β : Type} {f : α → Res β} {l l' : List α} (hp : l.Perm l') :
    SameOutcome List.Perm (Res.mapL f l) (Res.mapL f l') :=
  ⟨fun _ h => mapL_perm hp h, fun r h => by
    obtain ⟨r', h1, h2⟩ := mapL_perm hp.symm h
    exact ⟨r', h1, h2.symm⟩⟩

/-! ## Listing -/

theorem listFileGroupsH_same (H H' : HashOrder) (o : Opts) (t : Tree) (x : Str) :
    SameOutcome List.Perm (listFileGroupsH H o t x) (listFileGroupsH H' o t x) := by
  unfold listFileGroupsH
  refine (SameOutcome.refl (R := Eq) (fun _ => rfl) _).bind (fun _ _ h => ?_)
  subst h
  refine (SameOutcome.refl (R := Eq) (fun _ => rfl) _).bind (fun _ _ h => ?_)
  subst h
  exact mapL_sameOutcome ((H.files_perm _ _).trans (H'.files_perm _ _).symm)

theorem hmGet_perm {κ ν : Type} [DecidableEq κ] {m m' : List (κ × ν)} (hn : HmNodup m) (hp : m.Perm m') (k : κ) :
    hmGet k m = hmGet k m' := by
  have hn' : HmNodup m' := (hp.map Prod.fst).nodup_iff.1 hn
  cases h : hmGet k m with
  | some v => exact ((hmGet_eq_some hn').2 (hp.mem_iff.1 ((hmGet_eq_some hn).1 h))).symm
  | none =>
    cases h' : hmGet k m' with
    | none => rfl
    | some v =>
      rw [(hmGet_eq_some hn).2 (hp.mem_iff.2 ((hmGet_eq_some hn').1 h'))] at h
      cases h

/-- A list of partitions with what each holds. -/
def paired (f : Str → Res (List FileGroup)) (p : Str) : Res (Str × List FileGroup) := do return (p, ← f p)

theorem paired_ok {f : Str → Res (List FileGroup)} {p : Str} {e : Str × List FileGroup} :
    paired f p = .ok e ↔ e.1 = p ∧ f p = .ok e.2 := by
  unfold paired
  cases h : f p with
  | ok gs =>
    simp only [Res.ok_bind, Res.pure_eq, Res.ok.injEq]
    constructor
    · rintro rfl; exact ⟨rfl, rfl⟩
    · rintro ⟨h1, h2⟩; rw [← h1, h2]
  | err e => simp
  | panic => simp

theorem hmGet_paired {f : Str → Res (List FileGroup)} {l : List Str} {es : List (Str × List FileGroup)}
    (h : Res.mapL (paired f) l = .ok es) (k : Str) :
    (k ∈ l → ∃ gs, f k = .ok gs ∧ hmGet k (hmOfList es) = some gs) ∧
      (k ∉ l → hmGet k (hmOfList es) = none) := by
  have hin : ∀ e ∈ es, e.1 ∈ l ∧ f e.1 = .ok e.2 := by
    intro e he
    obtain ⟨x, hx, hxe⟩ := (Res.mapL_mem h e).1 he
    obtain ⟨h1, h2⟩ := paired_ok.1 hxe
    rw [h1]
    exact ⟨hx, h2⟩
  refine ⟨fun hk => ?_, fun hk => ?_⟩
  · obtain ⟨e, he, hem⟩ := Res.mapL_ok_mem h k hk
    obtain ⟨h1, h2⟩ := paired_ok.1 he
    refine ⟨e.2, h2, ?_⟩
    cases hg : hmGet k (hmOfList es) with
    | none =>
      rw [hmGet_hmOfList, hmGet_eq_none] at hg
      exact absurd (List.mem_map.2 ⟨e, List.mem_reverse.2 hem, h1⟩) hg
    | some gs =>
      have := (hin _ (mem_hmOfList_sub (hmGet_mem hg))).2
      simp only [h2] at this
      injection this with this
      rw [this]
  · rw [hmGet_hmOfList, hmGet_eq_none]
    intro hm
    obtain ⟨e, he, rfl⟩ := List.mem_map.1 hm
    exact hk (hin e (List.mem_reverse.1 he)).1

theorem listAll_same {f f' : Str → Res (List FileGroup)} (hf : ∀ p, SameOutcome List.Perm (f p) (f' p))
    {l l' : List Str} (hp : l.Perm l') :
    SameOutcome SameView (do return hmOfList (← Res.mapL (paired f) l))
      (do return hmOfList (← Res.mapL (paired f') l')) := by
  have hok : ∀ (f f' : Str → Res (List FileGroup)), (∀ p, SameOutcome List.Perm (f p) (f' p)) →
      ∀ l l' : List Str, l.Perm l' → ∀ es, Res.mapL (paired f) l = .ok es →
        ∃ es', Res.mapL (paired f') l' = .ok es' ∧ SameView (hmOfList es) (hmOfList es') := by
    intro f f' hf l l' hp es hes
    have hall : ∀ x ∈ l', ∃ y, paired f' x = .ok y := by
      intro x hx
      obtain ⟨e, he, _⟩ := Res.mapL_ok_mem hes x (hp.mem_iff.2 hx)
      obtain ⟨_, h2⟩ := paired_ok.1 he
      obtain ⟨gs', h3, _⟩ := (hf x).1 _ h2
      exact ⟨(x, gs'), paired_ok.2 ⟨rfl, h3⟩⟩
    obtain ⟨es', hes'⟩ := Res.mapL_ok_iff_all.2 hall
    refine ⟨es', hes', hmOfList_nodup _, hmOfList_nodup _, fun k => ?_⟩
    by_cases hk : k ∈ l
    · obtain ⟨gs, h1, h2⟩ := (hmGet_paired hes k).1 hk
      obtain ⟨gs', h3, h4⟩ := (hmGet_paired hes' k).1 (hp.mem_iff.1 hk)
      obtain ⟨gs'', h5, h6⟩ := (hf k).1 _ h1
      rw [h3] at h5
      cases h5
      rw [h2, h4]
      exact .some h6
    · rw [(hmGet_paired hes k).2 hk, (hmGet_paired hes' k).2 (fun h => hk (hp.mem_iff.2 h))]
      exact .none
  constructor
  · intro m hm
    obtain ⟨es, h1, h2⟩ := Res.bind_eq_ok.1 hm
    cases h2
    obtain ⟨es', h3, h4⟩ := hok f f' hf l l' hp es h1
    exact ⟨_, Res.bind_eq_ok.2 ⟨es', h3, rfl⟩, h4⟩
  · intro m hm
    obtain ⟨es, h1, h2⟩ := Res.bind_eq_ok.1 hm
    cases h2
    obtain ⟨es', h3, h4⟩ := hok f' f (fun p => (hf p).symm (fun _ _ h => h.symm)) l' l hp.symm es h1
    refine ⟨_, Res.bind_eq_ok.2 ⟨es', h3, rfl⟩, h4.once', h4.once, fun k => ?_⟩
    have := h4.held k
    cases h5 : hmGet k (hmOfList es) <;> cases h6 : hmGet k (hmOfList es') <;> rw [h5, h6] at this <;> cases this
    · exact .none
    · rename_i h; exact .some h.symm

theorem Spec.SameView.symm {c c' : Cache} (h : SameView c c') : SameView c' c :=
  ⟨h.once', h.once, fun p => by
    have := h.held p
    revert this
    generalize hmGet p c = x
    generalize hmGet p c' = y
    intro hxy
    cases hxy with
    | some h => exact .some h.symm
    | none => exact .none⟩

theorem listRelevantH_same (H H' : HashOrder) (A : Arrow) (o : Opts) (t : Tree) (p : Pruner) :
    SameOutcome SameView (listRelevantH H A o t p) (listRelevantH H' A o t p) := by
  unfold listRelevantH
  refine (SameOutcome.refl (R := Eq) (fun _ => rfl) _).bind (fun b _ h => ?_)
  subst h
  split
  · refine (listFileGroupsH_same H H' o t []).bind (fun gs gs' hg => ?_)
    refine .ok ⟨by simp, by simp, fun k => ?_⟩
    by_cases hk : k = []
    · subst hk; simpa [hmGet] using Option.Rel.some hg
    · simpa [hmGet, hk] using Option.Rel.none
  · refine (SameOutcome.refl (R := Eq) (fun _ => rfl) _).bind (fun paths _ h => ?_)
    subst h
    refine (SameOutcome.refl (R := Eq) (fun _ => rfl) _).bind (fun par _ h => ?_)
    subst h
    split
    · exact ⟨fun _ h => (by cases h), fun _ h => (by cases h)⟩
    · exact listAll_same (f := listFileGroupsH H o t) (f' := listFileGroupsH H' o t)
        (listFileGroupsH_same H H' o t) ((H.listed_perm _).trans (H'.listed_perm _).symm)

/-! ## The cache -/

theorem hmGet_extend {c m : Cache} (hm : HmNodup m) (k : Str) :
    hmGet k (hmExtend c m) = (hmGet k m).or (hmGet k c) := by
  rw [hmGet_hmExtend, hmGet_perm hm.reverse m.reverse_perm]

theorem SameView_extend {c c' m m' : Cache} (hc : SameView c c') (hm : SameView m m') :
    SameView (hmExtend c m) (hmExtend c' m') := by
  refine ⟨hmExtend_nodup hc.once, hmExtend_nodup hc.once', fun k => ?_⟩
  rw [hmGet_extend hm.once, hmGet_extend hm.once']
  have h1 := hm.held k
  have h2 := hc.held k
  revert h1
  generalize hmGet k m = x
  generalize hmGet k m' = y
  intro h1
  cases h1 with
  | some h => exact .some h
  | none => exact h2

theorem SameView_perm {c c' d d' : Cache} (h : SameView c c') (hd : d.Perm c) (hd' : d'.Perm c') :
    SameView d d' := by
  have n : HmNodup d := (hd.map Prod.fst).nodup_iff.2 h.once
  have n' : HmNodup d' := (hd'.map Prod.fst).nodup_iff.2 h.once'
  exact ⟨n, n', fun k => by rw [hmGet_perm n hd, hmGet_perm n' hd']; exact h.held k⟩

theorem loadFileGroupsH_same (H H' : HashOrder) (A : Arrow) (o : Opts) (t : Tree) (p : Pruner) {c c' : Cache}
    (hc : SameView c c') : SameOutcome SameView (loadFileGroupsH H A o t p c) (loadFileGroupsH H' A o t p c') := by
  unfold loadFileGroupsH
  refine (listRelevantH_same H H' A o t p).bind (fun m m' hm => .ok ?_)
  exact SameView_extend hc (SameView_perm hm (H.cached_perm _) (H'.cached_perm _))

/-- Views that are the same hold the same entries, in some order. -/
theorem Spec.SameView.aligned {c c' : Cache} (h : SameView c c') :
    ∃ d, c'.Perm d ∧ List.Forall₂ (fun e e' => e.1 = e'.1 ∧ e.2.Perm e'.2) c d := by
  induction c generalizing c' with
  | nil =>
    cases c' with
    | nil => exact ⟨[], .refl _, .nil⟩
    | cons e c' =>
      have := h.held e.1
      simp [hmGet] at this
  | cons e c ih =>
    obtain ⟨k, gs⟩ := e
    have hk := h.held k
    simp only [hmGet, if_true] at hk
    cases hg : hmGet k c' with
    | none => rw [hg] at hk; cases hk
    | some gs' =>
      rw [hg] at hk
      cases hk with
      | some hperm =>
      obtain ⟨a, b, rfl⟩ := List.append_of_mem (hmGet_mem hg)
      have hp : (a ++ (k, gs') :: b).Perm ((k, gs') :: (a ++ b)) := List.perm_middle
      have n' : HmNodup ((k, gs') :: (a ++ b)) := (hp.map Prod.fst).nodup_iff.1 h.once'
      have n : HmNodup ((k, gs) :: c) := h.once
      have hn1 : k ∉ c.map Prod.fst := (List.nodup_cons.1 n).1
      have hn2 : k ∉ (a ++ b).map Prod.fst := (List.nodup_cons.1 n').1
      have hs : SameView c (a ++ b) := by
        refine ⟨(List.nodup_cons.1 n).2, (List.nodup_cons.1 n').2, fun x => ?_⟩
        have hx := h.held x
        rw [hmGet_perm h.once' hp] at hx
        by_cases hxk : x = k
        · subst hxk
          rw [hmGet_eq_none.2 hn1, hmGet_eq_none.2 hn2]
          exact .none
        · simpa [hmGet, hxk] using hx
      obtain ⟨d, hd, hf⟩ := ih hs
      exact ⟨(k, gs') :: d, hp.trans (hd.cons _), .cons ⟨rfl, hperm⟩ hf⟩

theorem sameView_included {c c' : Cache} (h : SameView c c') (inc : Str → Bool) :
    ((c.filter (fun e => inc e.1)).flatMap Prod.snd).Perm ((c'.filter (fun e => inc e.1)).flatMap Prod.snd) := by
  obtain ⟨d, hd, hf⟩ := h.aligned
  refine List.Perm.trans ?_ (((hd.filter _).flatMap_right _).symm)
  clear hd h
  induction hf with
  | nil => exact .refl _
  | cons he _ ih =>
    rename_i e e' l l' _
    simp only [List.filter_cons, he.1]
    split
    · simp only [List.flatMap_cons]
      exact he.2.append ih
    · exact ih

/-- The cache entry after its file groups have been collected. -/
def collected (A : Arrow) (t : Tree) (ts : Str) (p : Pruner) (excl : List FileGroup) (x : Str)
    (gs : List FileGroup) : List FileGroup :=
  if p.shouldInclude A x = false then gs
  else gs.map (fun g => match collectGroup t ts excl g with | .ok r => r.1 | _ => g)

theorem collectGroups_state {t : Tree} {ts : Str} {excl gs : List FileGroup} {l : List FileSlice}
    (h : (collectGroups t ts excl gs).2 = .ok l) : (collectGroups t ts excl gs).1 =
      gs.map (fun g => match collectGroup t ts excl g with | .ok r => r.1 | _ => g) := by
  induction gs generalizing l with
  | nil => rfl
  | cons g gs ih =>
    unfold collectGroups at h ⊢
    cases hg : collectGroup t ts excl g with
    | ok r =>
      simp only [hg] at h ⊢
      obtain ⟨l', h1, _⟩ := Res.bind_eq_ok.1 h
      simp only [List.map_cons, hg]
      rw [ih h1]
    | err e => simp [hg] at h
    | panic => simp [hg] at h

theorem collectSlices_state {A : Arrow} {t : Tree} {ts : Str} {p : Pruner} {excl : List FileGroup} {c : Cache}
    {l : List FileSlice} (h : (collectSlices A t ts p excl c).2 = .ok l) :
    (collectSlices A t ts p excl c).1 = c.map (fun e => (e.1, collected A t ts p excl e.1 e.2)) := by
  induction c generalizing l with
  | nil => rfl
  | cons e c ih =>
    obtain ⟨x, gs⟩ := e
    unfold collectSlices at h ⊢
    by_cases hi : p.shouldInclude A x = false
    · rw [if_pos hi] at h ⊢
      simp only [List.map_cons, collected, hi, if_true]
      rw [ih h]
      rfl
    · rw [if_neg hi] at h ⊢
      simp only [List.map_cons, collected, hi]
      cases hg : (collectGroups t ts excl gs).2 with
      | ok l' =>
        simp only [hg] at h ⊢
        obtain ⟨l'', h1, _⟩ := Res.bind_eq_ok.1 h
        rw [ih h1, collectGroups_state hg]
        rfl
      | err e => simp [hg] at h
      | panic => simp [hg] at h

theorem hmGet_map_entries (f : Str → List FileGroup → List FileGroup) (c : Cache) (k : Str) :
    hmGet k (c.map (fun e => (e.1, f e.1 e.2))) = (hmGet k c).map (f k) := by
  induction c with
  | nil => rfl
  | cons e c ih =>
    obtain ⟨x, gs⟩ := e
    simp only [List.map_cons, hmGet]
    by_cases hk : k = x
    · subst hk; simp
    · simp [hk, ih]

theorem collected_same {A : Arrow} {t : Tree} {ts : Str} {p : Pruner} {excl : List FileGroup} {c c' : Cache}
    (h : SameView c c') : SameView (c.map (fun e => (e.1, collected A t ts p excl e.1 e.2)))
      (c'.map (fun e => (e.1, collected A t ts p excl e.1 e.2))) := by
  refine ⟨by simpa [Function.comp_def] using h.once, by simpa [Function.comp_def] using h.once', fun k => ?_⟩
  rw [hmGet_map_entries, hmGet_map_entries]
  have := h.held k
  revert this
  generalize hmGet k c = x
  generalize hmGet k c' = y
  intro hxy
  cases hxy with
  | none => exact .none
  | some hp =>
    refine .some ?_
    unfold collected
    split
    · exact hp
    · exact hp.map _

theorem pickGroup_excl {t : Tree} {ts : Str} {excl excl' : List FileGroup}
    (he : ∀ g, fgContains excl g = fgContains excl' g) : collectGroup t ts excl = collectGroup t ts excl' := by
  funext g
  unfold collectGroup
  rw [he]

theorem collectSlices_same {A : Arrow} {t : Tree} {ts : Str} {p : Pruner} {excl excl' : List FileGroup}
    (he : ∀ g, fgContains excl g = fgContains excl' g) {c c' : Cache} (h : SameView c c') :
    SameOutcome List.Perm (collectSlices A t ts p excl c).2 (collectSlices A t ts p excl' c').2 ∧
      ((∃ l, (collectSlices A t ts p excl c).2 = .ok l) →
        SameView (collectSlices A t ts p excl c).1 (collectSlices A t ts p excl' c').1) := by
  have ho : SameOutcome List.Perm (collectSlices A t ts p excl c).2 (collectSlices A t ts p excl' c').2 := by
    rw [collectSlices_eq, collectSlices_eq]
    have : pickGroup t ts excl' = pickGroup t ts excl := by
      funext g
      unfold pickGroup
      rw [pickGroup_excl he]
    rw [this]
    exact (mapL_sameOutcome (sameView_included h _)).bind (fun l l' hl => .ok hl.flatten)
  refine ⟨ho, fun ⟨l, hl⟩ => ?_⟩
  obtain ⟨l', hl', _⟩ := ho.1 l hl
  rw [collectSlices_state hl, collectSlices_state hl']
  have : collected A t ts p excl' = collected A t ts p excl := by
    funext x gs
    unfold collected
    rw [pickGroup_excl he]
  rw [this]
  exact collected_same h

theorem viewSlicesAsOfH_same (H H' : HashOrder) {A : Arrow} {o : Opts} {t : Tree} {ts : Str} {p : Pruner}
    {excl excl' : List FileGroup} (he : ∀ g, fgContains excl g = fgContains excl' g) :
    Agree List.Perm (viewSlicesAsOfH H A o t ts p excl) (viewSlicesAsOfH H' A o t ts p excl') := by
  intro c c' hc
  have hl := loadFileGroupsH_same H H' A o t p hc
  unfold viewSlicesAsOfH
  cases h1 : loadFileGroupsH H A o t p c with
  | ok d =>
    obtain ⟨d', h2, hd⟩ := hl.1 d h1
    rw [h2]
    exact collectSlices_same he (SameView_perm hd (H.cached_perm _) (H'.cached_perm _))
  | err e =>
    have : ∀ d', loadFileGroupsH H' A o t p c' ≠ .ok d' := fun d' h2 => by
      obtain ⟨d, h3, _⟩ := hl.2 d' h2
      rw [h1] at h3; cases h3
    cases h2 : loadFileGroupsH H' A o t p c' with
    | ok d' => exact absurd h2 (this d')
    | err e' => exact ⟨⟨fun _ h => (by cases h), fun _ h => (by cases h)⟩, fun ⟨_, h⟩ => (by cases h)⟩
    | panic => exact ⟨⟨fun _ h => (by cases h), fun _ h => (by cases h)⟩, fun ⟨_, h⟩ => (by cases h)⟩
  | panic =>
    have : ∀ d', loadFileGroupsH H' A o t p c' ≠ .ok d' := fun d' h2 => by
      obtain ⟨d, h3, _⟩ := hl.2 d' h2
      rw [h1] at h3; cases h3
    cases h2 : loadFileGroupsH H' A o t p c' with
    | ok d' => exact absurd h2 (this d')
    | err e' => exact ⟨⟨fun _ h => (by cases h), fun _ h => (by cases h)⟩, fun ⟨_, h⟩ => (by cases h)⟩
    | panic => exact ⟨⟨fun _ h => (by cases h), fun _ h => (by cases h)⟩, fun ⟨_, h⟩ => (by cases h)⟩

/-! ## Sets of file groups -/

/-- Two sets of file groups are the same: no file group occurs twice, and the one is a reordering of the other. -/
def SameSet (s s' : List FileGroup) : Prop := (s.map groupId).Nodup ∧ s.Perm s'

theorem SameSet.symm {s s' : List FileGroup} (h : SameSet s s') : SameSet s' s :=
  ⟨(h.2.map groupId).nodup_iff.1 h.1, h.2.symm⟩

theorem SameSet.trans {s s' s'' : List FileGroup} (h : SameSet s s') (h' : SameSet s' s'') : SameSet s s'' :=
  ⟨h.1, h.2.trans h'.2⟩

theorem eq_of_groupId {s : List FileGroup} (h : (s.map groupId).Nodup) {a b : FileGroup} (ha : a ∈ s) (hb : b ∈ s)
    (he : groupId a = groupId b) : a = b := List.inj_on_of_nodup_map h ha hb he

theorem find_groupId {s : List FileGroup} {g x : FileGroup} (h : s.find? (fun x => x.same g) = some x) :
    groupId x = groupId g := by
  have h1 := List.find?_some (p := fun x => FileGroup.same x g) h
  exact same_iff_id.1 h1

theorem find_same {s s' : List FileGroup} (h : SameSet s s') (g : FileGroup) :
    s.find? (fun x => x.same g) = s'.find? (fun x => x.same g) := by
  cases h1 : s.find? (fun x => x.same g) with
  | none =>
    symm
    rw [List.find?_eq_none] at h1 ⊢
    exact fun x hx => h1 x (h.2.mem_iff.2 hx)
  | some a =>
    have ha := List.mem_of_find?_eq_some h1
    have hag := find_groupId h1
    cases h2 : s'.find? (fun x => x.same g) with
    | none => exact absurd (same_iff_id.2 hag) (List.find?_eq_none.1 h2 a (h.2.mem_iff.1 ha))
    | some b =>
      have hb := h.2.mem_iff.2 (List.mem_of_find?_eq_some h2)
      rw [eq_of_groupId h.1 ha hb (hag.trans (find_groupId h2).symm)]

/-- What becomes of a file group that is merged into a set that may already have it. -/
def mergedInto (o : Option FileGroup) (g : FileGroup) : Res FileGroup :=
  match o with
  | none => .ok g
  | some x => x.merge g

theorem merge_groupId {g o r : FileGroup} (h : g.merge o = .ok r) : groupId r = groupId g := by
  unfold FileGroup.merge at h
  split at h
  · cases h
  · obtain ⟨sl, _, h2⟩ := Res.bind_eq_ok.1 h
    cases h2
    rfl

theorem mergedInto_id {s : List FileGroup} {g m : FileGroup}
    (h : mergedInto (s.find? (fun x => x.same g)) g = .ok m) : groupId m = groupId g := by
  cases h1 : s.find? (fun x => x.same g) with
  | none => rw [h1] at h; cases h; rfl
  | some x =>
    rw [h1] at h
    exact (merge_groupId h).trans (find_groupId h1)

theorem fgMergeOne_eq {s : List FileGroup} (g : FileGroup) :
    fgMergeOne s g = (do
      let m ← mergedInto (s.find? (fun x => x.same g)) g
      return s.filter (fun x => !x.same g) ++ [m]) := by
  unfold fgMergeOne
  cases h1 : s.find? (fun x => x.same g) with
  | none =>
    have : s.filter (fun x => !x.same g) = s := by
      rw [List.filter_eq_self]
      intro x hx
      simpa using List.find?_eq_none.1 h1 x hx
    simp [mergedInto, this]
  | some x =>
    simp only [mergedInto]
    cases hm : x.merge g with
    | err e => rfl
    | panic => rfl
    | ok m =>
      simp only [Res.ok_bind, Res.pure_eq]
      rw [fgInsert_new]
      intro y hy
      have hid : groupId m = groupId g := mergedInto_id (s := s) (by rw [h1]; exact hm)
      rw [List.mem_filter] at hy
      intro he
      have : y.same g = true := same_iff_id.2 (he.trans hid)
      simp [this] at hy

theorem fgMergeOne_cong (s s' : List FileGroup) (g : FileGroup) (h : SameSet s s') :
    SameOutcome SameSet (fgMergeOne s g) (fgMergeOne s' g) := by
  rw [fgMergeOne_eq, fgMergeOne_eq, find_same h]
  cases hm : mergedInto (s'.find? (fun x => x.same g)) g with
  | err e => exact ⟨fun _ h => (by cases h), fun _ h => (by cases h)⟩
  | panic => exact ⟨fun _ h => (by cases h), fun _ h => (by cases h)⟩
  | ok m =>
    refine .ok ⟨?_, (h.2.filter _).append_right _⟩
    rw [List.map_append, List.nodup_append]
    refine ⟨(List.filter_sublist.map groupId).nodup h.1, by simp, ?_⟩
    intro i hi j hj
    obtain ⟨x, hx, rfl⟩ := List.mem_map.1 hi
    simp only [List.map_cons, List.map_nil, List.mem_singleton] at hj
    subst hj
    rw [mergedInto_id hm]
    intro he
    have : x.same g = true := same_iff_id.2 he
    simp [this] at hx

theorem fgMergeOne_swap (s : List FileGroup) (a b : FileGroup) (h : SameSet s s) (hab : groupId a ≠ groupId b) :
    SameOutcome SameSet (fgMergeOne s a >>= fun c => fgMergeOne c b) (fgMergeOne s b >>= fun c => fgMergeOne c a) := by
  have hfind : ∀ (a b m : FileGroup), groupId a ≠ groupId b →
      mergedInto (s.find? (fun x => x.same a)) a = .ok m →
      (s.filter (fun x => !x.same a) ++ [m]).find? (fun x => x.same b) = s.find? (fun x => x.same b) ∧
      (s.filter (fun x => !x.same a) ++ [m]).filter (fun x => !x.same b) =
        (s.filter (fun x => !x.same a)).filter (fun x => !x.same b) ++ [m] := by
    intro a b m hab hm
    have hmb : m.same b = false := by
      cases hs : m.same b with
      | false => rfl
      | true => exact absurd ((mergedInto_id hm).symm.trans (same_iff_id.1 hs)) hab
    constructor
    · rw [List.find?_append, List.find?_filter]
      simp only [List.find?_singleton, hmb, Bool.false_eq_true, if_false, Option.or_none]
      congr 1
      funext x
      cases hx : x.same b with
      | false => simp
      | true =>
        have : x.same a = false := by
          cases hs : x.same a with
          | false => rfl
          | true => exact absurd ((same_iff_id.1 hs).symm.trans (same_iff_id.1 hx)) hab
        simp [this]
    · rw [List.filter_append]
      simp [hmb]
  cases ha : mergedInto (s.find? (fun x => x.same a)) a with
  | err e =>
    constructor
    · intro r hr
      rw [fgMergeOne_eq, ha] at hr
      cases hr
    · intro r hr
      obtain ⟨c, h1, h2⟩ := Res.bind_eq_ok.1 hr
      rw [fgMergeOne_eq] at h1
      obtain ⟨m, hm, h3⟩ := Res.bind_eq_ok.1 h1
      cases h3
      rw [fgMergeOne_eq, (hfind b a m hab.symm hm).1, ha] at h2
      cases h2
  | panic =>
    constructor
    · intro r hr
      rw [fgMergeOne_eq, ha] at hr
      cases hr
    · intro r hr
      obtain ⟨c, h1, h2⟩ := Res.bind_eq_ok.1 hr
      rw [fgMergeOne_eq] at h1
      obtain ⟨m, hm, h3⟩ := Res.bind_eq_ok.1 h1
      cases h3
      rw [fgMergeOne_eq, (hfind b a m hab.symm hm).1, ha] at h2
      cases h2
  | ok m =>
    have e1 : (fgMergeOne s a >>= fun c => fgMergeOne c b) = (do
        let m' ← mergedInto (s.find? (fun x => x.same b)) b
        return (s.filter (fun x => !x.same a)).filter (fun x => !x.same b) ++ [m] ++ [m']) := by
      rw [fgMergeOne_eq, ha]
      simp only [Res.ok_bind, Res.pure_eq]
      rw [fgMergeOne_eq, (hfind a b m hab ha).1, (hfind a b m hab ha).2]
      rfl
    have e2 : (fgMergeOne s b >>= fun c => fgMergeOne c a) = (do
        let m' ← mergedInto (s.find? (fun x => x.same b)) b
        return (s.filter (fun x => !x.same b)).filter (fun x => !x.same a) ++ [m'] ++ [m]) := by
      rw [fgMergeOne_eq]
      cases hb : mergedInto (s.find? (fun x => x.same b)) b with
      | err e => rfl
      | panic => rfl
      | ok m' =>
        simp only [Res.ok_bind, Res.pure_eq]
        rw [fgMergeOne_eq, (hfind b a m' hab.symm hb).1, (hfind b a m' hab.symm hb).2, ha]
        rfl
    rw [e1, e2]
    cases hb : mergedInto (s.find? (fun x => x.same b)) b with
    | err e => exact ⟨fun _ h => (by cases h), fun _ h => (by cases h)⟩
    | panic => exact ⟨fun _ h => (by cases h), fun _ h => (by cases h)⟩
    | ok m' =>
      refine .ok ⟨?_, ?_⟩
      · have c1 : fgMergeOne s a = .ok (s.filter (fun x => !x.same a) ++ [m]) := by rw [fgMergeOne_eq, ha]; rfl
        obtain ⟨_, _, k1⟩ := (fgMergeOne_cong s s a h).1 _ c1
        have c2 : fgMergeOne (s.filter (fun x => !x.same a) ++ [m]) b =
            .ok ((s.filter (fun x => !x.same a)).filter (fun x => !x.same b) ++ [m] ++ [m']) := by
          rw [fgMergeOne_eq, (hfind a b m hab ha).1, (hfind a b m hab ha).2, hb]; rfl
        obtain ⟨_, _, k2⟩ := (fgMergeOne_cong _ _ b (k1.trans k1.symm)).1 _ c2
        exact k2.1
      · rw [List.filter_comm]
        rw [List.append_assoc, List.append_assoc]
        exact (List.Perm.swap m' m []).append_left _

theorem fgMerge_same {s s' gs gs' : List FileGroup} (h : SameSet s s') (hg : SameSet gs gs') :
    SameOutcome SameSet (fgMerge s gs) (fgMerge s' gs') :=
  foldL_perm (D := fun a b => groupId a ≠ groupId b) (fun _ _ h => h.symm) (fun _ _ _ h h' => h.trans h')
    (fun _ _ h => h.symm) (fun b b' a h => fgMergeOne_cong b b' a h) (fun b a a' hb hd => fgMergeOne_swap b a a' hb hd)
    hg.2 (List.pairwise_map.1 hg.1) h

theorem fgInsert_nodup {g : FileGroup} {s : List FileGroup} (h : (s.map groupId).Nodup) :
    ((fgInsert g s).map groupId).Nodup := by
  by_cases hg : groupId g ∈ s.map groupId
  · rwa [fgInsert_old hg]
  · rw [fgInsert_new (fun x hx he => hg (List.mem_map.2 ⟨x, hx, he⟩)), List.map_append, List.nodup_append]
    refine ⟨h, by simp, ?_⟩
    intro i hi j hj
    simp only [List.map_cons, List.map_nil, List.mem_singleton] at hj
    subst hj
    exact fun he => hg (he ▸ hi)

theorem buildFileGroups_nodup {md : List (Str × Json)} {gs : List FileGroup} (h : buildFileGroups md = .ok gs) :
    (gs.map groupId).Nodup := by
  unfold buildFileGroups at h
  obtain ⟨parts, _, h2⟩ := Res.bind_eq_ok.1 h
  refine foldL_inv (P := fun s => (s.map groupId).Nodup) (fun s e s' _ hs he => ?_) (by simp) h2
  obtain ⟨stats, _, h4⟩ := Res.bind_eq_ok.1 he
  refine foldL_inv (P := fun s => (s.map groupId).Nodup) (fun s stat s' _ hs he => ?_) hs h4
  obtain ⟨g, _, h6⟩ := Res.bind_eq_ok.1 he
  cases h6
  exact fgInsert_nodup hs

theorem fgContains_perm {s s' : List FileGroup} (h : s.Perm s') (g : FileGroup) :
    fgContains s g = fgContains s' g := by
  unfold fgContains
  exact Bool.eq_iff_iff.2 (by simp only [List.any_eq_true]; exact ⟨fun ⟨x, a, b⟩ => ⟨x, h.mem_iff.1 a, b⟩,
    fun ⟨x, a, b⟩ => ⟨x, h.mem_iff.2 a, b⟩⟩)

theorem fgContains_insert (x g : FileGroup) (s : List FileGroup) :
    fgContains (fgInsert x s) g = (fgContains s g || x.same g) := by
  unfold fgInsert
  split
  · rename_i h
    obtain ⟨y, hy, hyx⟩ := List.any_eq_true.1 h
    cases hxg : x.same g with
    | false => simp
    | true =>
      have : fgContains s g = true :=
        List.any_eq_true.2 ⟨y, hy, same_iff_id.2 ((same_iff_id.1 hyx).trans (same_iff_id.1 hxg))⟩
      simp [this]
  · simp [fgContains]

theorem fgContains_extend (s gs : List FileGroup) (g : FileGroup) :
    fgContains (fgExtend s gs) g = (fgContains s g || fgContains gs g) := by
  unfold fgExtend
  induction gs generalizing s with
  | nil => simp [fgContains]
  | cons x gs ih =>
    rw [List.foldl_cons, ih, fgContains_insert]
    simp [fgContains, Bool.or_assoc]

/-- The two sets have the same file groups. -/
def SameGroups (s s' : List FileGroup) : Prop := ∀ g, fgContains s g = fgContains s' g

theorem sameGroups_extend {s s' gs gs' : List FileGroup} (h : SameGroups s s') (hg : gs.Perm gs') :
    SameGroups (fgExtend s gs) (fgExtend s' gs') := fun g => by
  rw [fgContains_extend, fgContains_extend, h g, fgContains_perm hg]

theorem foldL_cong {α β : Type} {R : β → β → Prop} {f f' : β → α → Res β}
    (hf : ∀ b b' a, R b b' → SameOutcome R (f b a) (f' b' a)) (l : List α) {b b' : β} (hb : R b b') :
    SameOutcome R (Res.foldL f b l) (Res.foldL f' b' l) := by
  induction l generalizing b b' with
  | nil => exact .ok hb
  | cons a l ih => exact (hf b b' a hb).bind (fun c c' hc => ih hc)

theorem sameEq {α : Type} (r : Res α) : SameOutcome Eq r r := .refl (fun _ => rfl) r

/-- A step that both sides share. -/
theorem bind_shared {α β : Type} {S : β → β → Prop} (r : Res α) {f f' : α → Res β}
    (hf : ∀ a, r = .ok a → SameOutcome S (f a) (f' a)) : SameOutcome S (r >>= f) (r >>= f') := by
  cases r with
  | ok a => exact hf a rfl
  | err e => exact ⟨fun _ h => (by cases h), fun _ h => (by cases h)⟩
  | panic => exact ⟨fun _ h => (by cases h), fun _ h => (by cases h)⟩

theorem replacedAsOfH_same (H H' : HashOrder) (E : Env) (tl : Timeline) (t : Tree) (ts : Str) :
    SameOutcome SameGroups (tl.replacedAsOfH H E t ts) (tl.replacedAsOfH H' E t ts) := by
  unfold Timeline.replacedAsOfH
  refine bind_shared _ (fun s _ => foldL_cong (fun a a' i ha => ?_) _ (fun _ => rfl))
  refine bind_shared _ (fun md _ => bind_shared _ (fun rs _ => .ok ?_))
  exact sameGroups_extend ha ((H.groups_perm _).trans (H'.groups_perm _).symm)

theorem betweenStepH_same (H H' : HashOrder) (t : Tree) {acc acc' : List FileGroup × List FileGroup} (i : Instant)
    (h : SameSet acc.1 acc'.1 ∧ SameGroups acc.2 acc'.2) :
    SameOutcome (fun a a' => SameSet a.1 a'.1 ∧ SameGroups a.2 a'.2) (betweenStepH H t acc i)
      (betweenStepH H' t acc' i) := by
  unfold betweenStepH
  refine bind_shared _ (fun md _ => bind_shared _ (fun gs hgs => ?_))
  have hp : (H.groups gs).Perm (H'.groups gs) := (H.groups_perm _).trans (H'.groups_perm _).symm
  have hn : ((H.groups gs).map groupId).Nodup :=
    ((H.groups_perm gs).map groupId).nodup_iff.2 (buildFileGroups_nodup hgs)
  refine (fgMerge_same h.1 ⟨hn, hp⟩).bind (fun m m' hm => ?_)
  split
  · exact bind_shared _ (fun rs _ => .ok ⟨hm, sameGroups_extend h.2 ((H.groups_perm _).trans (H'.groups_perm _).symm)⟩)
  · exact .ok ⟨hm, h.2⟩

theorem fileGroupsBetweenH_same (H H' : HashOrder) (E : Env) (tl : Timeline) (t : Tree) (start stop : Option Str) :
    SameOutcome List.Perm (tl.fileGroupsBetweenH H E t start stop) (tl.fileGroupsBetweenH H' E t start stop) := by
  unfold Timeline.fileGroupsBetweenH
  refine bind_shared _ (fun s _ => ?_)
  refine (foldL_cong (R := fun a a' => SameSet a.1 a'.1 ∧ SameGroups a.2 a'.2)
    (fun a a' i ha => betweenStepH_same H H' t i ha) _ ⟨⟨by simp, .refl _⟩, fun _ => rfl⟩).bind
    (fun r r' hr => .ok ?_)
  unfold fgDifference
  have : (fun g => !fgContains r'.2 g) = (fun g => !fgContains r.2 g) := by
    funext g
    rw [hr.2 g]
  rw [this]
  exact (((H.groups_perm _).trans hr.1.2).trans (H'.groups_perm _).symm).filter _

/-! ## Queries -/

theorem agree_lift {α : Type} {R : α → α → Prop} {r r' : Res α} (h : SameOutcome R r r') :
    Agree R (Query.lift r) (Query.lift r') := fun _ _ hc => ⟨h, fun _ => hc⟩

theorem agree_bind {α β : Type} {R : α → α → Prop} {S : β → β → Prop} {q q' : Query α} {f f' : α → Query β}
    (h : Agree R q q') (hf : ∀ a a', R a a' → Agree S (f a) (f' a')) : Agree S (q >>= f) (q' >>= f') := by
  intro c c' hc
  obtain ⟨ho, hs⟩ := h c c' hc
  have e : ∀ (q : Query α) (f : α → Query β) (c : Cache), (q >>= f) c =
      match q c with
      | (c', .ok a) => f a c'
      | (c', .err e) => (c', .err e)
      | (c', .panic) => (c', .panic) := fun _ _ _ => rfl
  rw [e, e]
  rcases h1 : q c with ⟨d, r⟩
  rcases h2 : q' c' with ⟨d', r'⟩
  rw [h1, h2] at ho hs
  simp only at ho hs ⊢
  cases r with
  | ok a =>
    obtain ⟨a', ha', haa⟩ := ho.1 a rfl
    subst ha'
    exact hf a a' haa d d' (hs ⟨a, rfl⟩)
  | err x =>
    cases r' with
    | ok a' => obtain ⟨_, h3, _⟩ := ho.2 a' rfl; cases h3
    | err y => exact ⟨⟨fun _ h => (by cases h), fun _ h => (by cases h)⟩, fun ⟨_, h⟩ => (by cases h)⟩
    | panic => exact ⟨⟨fun _ h => (by cases h), fun _ h => (by cases h)⟩, fun ⟨_, h⟩ => (by cases h)⟩
  | panic =>
    cases r' with
    | ok a' => obtain ⟨_, h3, _⟩ := ho.2 a' rfl; cases h3
    | err y => exact ⟨⟨fun _ h => (by cases h), fun _ h => (by cases h)⟩, fun ⟨_, h⟩ => (by cases h)⟩
    | panic => exact ⟨⟨fun _ h => (by cases h), fun _ h => (by cases h)⟩, fun ⟨_, h⟩ => (by cases h)⟩

theorem agree_shared {α β : Type} {S : β → β → Prop} (r : Res α) {f f' : α → Query β}
    (hf : ∀ a, Agree S (f a) (f' a)) : Agree S (Query.lift r >>= f) (Query.lift r >>= f') :=
  agree_bind (agree_lift (sameEq r)) (fun a _ h => h ▸ hf a)

theorem fileSlicesInternalH_same (H H' : HashOrder) (E : Env) (A : Arrow) (tb : Table) (t : Tree) (ts : Str)
    (fs : List Filter) :
    Agree List.Perm (tb.fileSlicesInternalH H E A t ts fs) (tb.fileSlicesInternalH H' E A t ts fs) := by
  unfold Table.fileSlicesInternalH
  refine agree_bind (agree_lift (replacedAsOfH_same H H' E tb.timeline t ts)) (fun x x' hx => ?_)
  exact agree_shared _ (fun s => agree_shared _ (fun p => viewSlicesAsOfH_same H H' hx))

/-! ## Reading -/

/-- The same rows in some order. -/
def SameRowsOf (out out' : Batch) : Prop := out'.schema = out.schema ∧ out'.rows.Perm out.rows

theorem readFileSlice_orders {A : Arrow} {M M' : MergeEnv A} (hM : M.sort = M'.sort) (C : Codec) (ltz : LocalTz)
    (o : Opts) (t : Tree) (s : FileSlice) :
    SameOutcome SameRowsOf (readFileSlice C A M ltz o t s) (readFileSlice C A M' ltz o t s) := by
  have hrefl : ∀ r : Res Batch, SameOutcome SameRowsOf r r := .refl (fun _ => ⟨rfl, .refl _⟩)
  unfold readFileSlice
  split
  · exact hrefl _
  · refine bind_shared _ (fun v _ => bind_shared _ (fun b _ => ?_))
    split
    · exact hrefl _
    · unfold readMerged
      refine bind_shared _ (fun base _ => bind_shared _ (fun range _ => bind_shared _ (fun logs _ => ?_)))
      unfold mergeRecordBatches
      split
      · exact hrefl _
      · refine bind_shared _ (fun st _ => ?_)
        cases st with
        | appendOnly => exact hrefl _
        | overwriteWithLatest =>
          refine bind_shared _ (fun b _ => ?_)
          unfold mergeLatest
          split
          · exact hrefl _
          · refine bind_shared _ (fun f _ => bind_shared _ (fun pre _ => bind_shared _ (fun seq _ => ?_)))
            refine bind_shared _ (fun keys _ => .ok ⟨rfl, ?_⟩)
            unfold takeRows lexsortDesc
            rw [hM]
            exact (((M'.order_perm _).trans (M.order_perm _).symm).map _).filterMap _

theorem mapL_batches {f f' : FileSlice → Res Batch} (hf : ∀ s, SameOutcome SameRowsOf (f s) (f' s))
    {ss ss' : List FileSlice} (hp : ss.Perm ss') :
    SameOutcome SameBatches (Res.mapL f ss) (Res.mapL f' ss') := by
  have key : ∀ ss : List FileSlice, SameOutcome (List.Forall₂ SameRowsOf) (Res.mapL f ss) (Res.mapL f' ss) := by
    intro ss
    induction ss with
    | nil => exact .ok .nil
    | cons s ss ih => exact (hf s).bind (fun a a' ha => ih.bind (fun b b' hb => .ok (.cons ha hb)))
  constructor
  · intro r hr
    obtain ⟨mid, h1, h2⟩ := (key ss).1 r hr
    obtain ⟨r', h3, h4⟩ := mapL_perm hp h1
    exact ⟨r', h3, mid, h4.symm, h2⟩
  · intro r' hr'
    obtain ⟨mid, h1, h2⟩ := mapL_perm hp.symm hr'
    obtain ⟨r, h3, h4⟩ := (key ss).2 mid h1
    exact ⟨r, h3, mid, h2, h4⟩

end Hudi
