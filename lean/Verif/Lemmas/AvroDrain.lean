import Verif.Lemmas.AvroDecode
import Verif.Lemmas.Torn

/-! # Decoding from a stream that ends early -/

namespace Hudi
namespace Avro
open Spec

/-- A successful decoder reads a prefix; it reads the same from any stream starting with that prefix
(and continuing like the original one); from a proper prefix of it, it fails or reads everything. -/
def Nice {α : Type} (d : Bytes → Out α) : Prop :=
  ∀ l v rest, d l = .ok v rest → ∃ c, l = c ++ rest ∧
    (∀ r, r <+: rest → d (c ++ r) = .ok v r) ∧
    ∀ p, Cut p c → ∀ v' rest', d p = .ok v' rest' → rest' = []

theorem Nice.nil {α : Type} {d : Bytes → Out α} (h : Nice d) {v : α} {rest : Bytes}
    (hd : d [] = .ok v rest) : rest = [] := by
  obtain ⟨c, hc, _⟩ := h _ _ _ hd
  have := congrArg List.length hc
  simp at this
  exact List.eq_nil_of_length_eq_zero (by omega)

theorem Out.bind_eq_ok {α β : Type} {r : Out α} {f : α → Bytes → Out β} {b : β} {rest : Bytes} :
    r.bind f = .ok b rest ↔ ∃ a r', r = .ok a r' ∧ f a r' = .ok b rest := by
  cases r <;> simp [Out.bind]

theorem nice_ok {α : Type} (a : α) : Nice (fun b => .ok a b) := by
  intro l v rest h
  cases h
  exact ⟨[], rfl, fun r _ => rfl, fun p hp => (cut_nil hp).elim⟩

theorem nice_bind {α β : Type} {d : Bytes → Out α} {f : α → Bytes → Out β} (h1 : Nice d)
    (h2 : ∀ a, Nice (f a)) : Nice (fun b => (d b).bind f) := by
  intro l v rest h
  obtain ⟨a, r1, ha, hv⟩ := Out.bind_eq_ok.1 h
  obtain ⟨c1, rfl, h3, h4⟩ := h1 _ _ _ ha
  obtain ⟨c2, rfl, h5, h6⟩ := h2 a _ _ _ hv
  refine ⟨c1 ++ c2, by simp, ?_, ?_⟩
  · intro r hr
    simp only [List.append_assoc]
    rw [h3 _ ((List.prefix_append_right_inj _).2 hr)]
    exact h5 r hr
  · intro p hp v' rest' hr
    obtain ⟨a', r', ha', hv'⟩ := Out.bind_eq_ok.1 hr
    rcases cut_append hp with hp | ⟨q, rfl, hq⟩
    · have := h4 p hp _ _ ha'
      subst this
      exact (h2 a').nil hv'
    · have hq2 : q <+: c2 ++ rest := hq.1.trans (List.prefix_append _ _)
      have e := h3 q hq2
      rw [ha'] at e
      injection e with e1 e2
      subst e1; subst e2
      exact h6 _ hq _ _ hv'

/-- A decoder that decides nothing more about the stream. -/
theorem nice_map {α β : Type} {d : Bytes → Out α} (h1 : Nice d) (f : α → Option β) :
    Nice (fun b => (d b).bind fun a r => match f a with | some x => .ok x r | none => .bad) := by
  refine nice_bind h1 fun a => ?_
  cases f a with
  | some x => exact nice_ok x
  | none => intro l v rest h; cases h

theorem nice_congr {α : Type} {d d' : Bytes → Out α} (h : ∀ b, d b = d' b) (h1 : Nice d) : Nice d' := by
  have : d = d' := funext h
  exact this ▸ h1

theorem nice_bad {α : Type} : Nice (fun _ => (.bad : Out α)) := by intro l v rest h; cases h

theorem take_cut {n : Nat} {p c : Bytes} (hc : c.length = n) (hp : Cut p c) : take n p = .eof := by
  unfold take
  rw [if_neg (by have := hp.lt; omega)]

theorem nice_take (n : Nat) : Nice (take n) := by
  intro l v rest h
  unfold take at h
  split at h
  · next hn =>
    cases h
    refine ⟨l.take n, (List.take_append_drop n l).symm, ?_, ?_⟩
    · intro r _
      exact take_append' (by simp [hn])
    · intro p hp v' rest' h'
      rw [take_cut (by simp [hn]) hp] at h'
      cases h'
  · cases h

theorem nice_varint (fuel j i : Nat) : Nice (varint fuel j i) := by
  induction fuel generalizing j i with
  | zero => intro l v rest h; cases h
  | succ fuel ih =>
    intro l v rest h
    cases l with
    | nil => cases h
    | cons x b =>
      simp only [varint] at h
      split at h
      · next hx =>
        cases h
        refine ⟨[x], rfl, fun r _ => by simp [varint, hx], ?_⟩
        intro p hp v' rest' h'
        have := hp.lt
        simp at this
        subst this
        cases h'
      · next hx =>
        obtain ⟨c, rfl, h1, h2⟩ := ih _ _ _ _ _ h
        refine ⟨x :: c, rfl, fun r hr => by simp [varint, hx, h1 r hr], ?_⟩
        intro p hp v' rest' h'
        cases p with
        | nil => cases h'
        | cons y p =>
          obtain ⟨⟨t, ht⟩, hne⟩ := hp
          simp only [List.cons_append, List.cons.injEq] at ht
          obtain ⟨rfl, ht⟩ := ht
          simp only [varint, if_neg hx] at h'
          exact h2 p ⟨⟨t, ht⟩, fun e => hne (by rw [e])⟩ _ _ h'

theorem nice_zagI64 : Nice zagI64 := nice_bind (nice_varint _ _ _) fun _ => nice_ok _

theorem nice_ite {α : Type} {c : Prop} [Decidable c] {d d' : Bytes → Out α} (h : Nice d)
    (h' : Nice d') : Nice (fun b => if c then d b else d' b) := by
  by_cases hc : c
  · simpa [hc] using h
  · simpa [hc] using h'

theorem nice_zagI32 : Nice zagI32 :=
  nice_bind nice_zagI64 fun _ => nice_ite (nice_ok _) nice_bad

theorem nice_decodeLen : Nice decodeLen :=
  nice_bind nice_zagI64 fun _ => nice_ite (nice_ok _) nice_bad

theorem nice_decodeSeqLen : Nice decodeSeqLen := by
  refine nice_bind nice_zagI64 fun i => nice_ite (nice_ok _) (nice_ite (nice_ite (nice_ok _) nice_bad) ?_)
  exact nice_bind nice_zagI64 fun _ => nice_ite nice_bad (nice_ite (nice_ok _) nice_bad)

theorem nice_times {α : Type} {d : Bytes → Out α} (h : Nice d) (n : Nat) : Nice (times d n) := by
  induction n with
  | zero => exact nice_ok _
  | succ n ih => exact nice_bind h fun v => nice_bind ih fun vs => nice_ok _

theorem nice_blocks {α : Type} {d : Bytes → Out α} (h : Nice d) (fuel : Nat) :
    Nice (blocks d fuel) := by
  induction fuel with
  | zero => exact nice_bad
  | succ fuel ih =>
    refine nice_bind nice_decodeSeqLen fun n => nice_ite (nice_ok _) ?_
    exact nice_bind (nice_times h n) fun vs => nice_bind ih fun ws => nice_ok _

theorem Nice.le {α : Type} {d : Bytes → Out α} (h : Nice d) {l rest : Bytes} {v : α}
    (hd : d l = .ok v rest) : rest.length ≤ l.length := by
  obtain ⟨c, rfl, _⟩ := h _ _ _ hd
  simp

theorem varint_shrinks {fuel j i : Nat} {l rest : Bytes} {v : Nat}
    (h : varint fuel j i l = .ok v rest) : rest.length < l.length := by
  induction fuel generalizing j i l with
  | zero => cases h
  | succ fuel ih =>
    cases l with
    | nil => cases h
    | cons x b =>
      simp only [varint] at h
      split at h
      · cases h; simp
      · have := ih h; simp; omega

theorem zagI64_shrinks {l rest : Bytes} {v : Int} (h : zagI64 l = .ok v rest) :
    rest.length < l.length := by
  obtain ⟨a, r, h1, h2⟩ := Out.bind_eq_ok.1 h
  cases h2
  exact varint_shrinks h1

theorem decodeSeqLen_shrinks {l rest : Bytes} {v : Nat} (h : decodeSeqLen l = .ok v rest) :
    rest.length < l.length := by
  obtain ⟨a, r, h1, h2⟩ := Out.bind_eq_ok.1 h
  have h3 := zagI64_shrinks h1
  by_cases ha : a = 0
  · rw [if_pos ha] at h2; cases h2; exact h3
  · rw [if_neg ha] at h2
    by_cases hb : 0 < a
    · rw [if_pos hb] at h2
      split at h2
      · cases h2; exact h3
      · cases h2
    · rw [if_neg hb] at h2
      obtain ⟨a', r', h4, h5⟩ := Out.bind_eq_ok.1 h2
      have h6 := zagI64_shrinks h4
      split at h5
      · cases h5
      · split at h5
        · cases h5; omega
        · cases h5

/-- The fuel does not matter when it exceeds the number of bytes. -/
theorem blocks_fuel {α : Type} {d : Bytes → Out α} (hd : Nice d) (f : Nat) (b : Bytes) (vs : List α)
    (rest : Bytes) (h : blocks d f b = .ok vs rest) (g : Nat) (hg : b.length < g) :
    blocks d g b = .ok vs rest := by
  induction f generalizing b vs g rest with
  | zero => cases h
  | succ f ih =>
    obtain ⟨g, rfl⟩ := Nat.exists_eq_succ_of_ne_zero (Nat.pos_iff_ne_zero.1 (Nat.zero_lt_of_lt hg))
    simp only [blocks] at h ⊢
    obtain ⟨n, r1, h1, h2⟩ := Out.bind_eq_ok.1 h
    have s1 := decodeSeqLen_shrinks h1
    rw [h1]
    simp only [Out.ok_bind]
    by_cases hn : n = 0
    · rw [if_pos hn] at h2 ⊢; exact h2
    · rw [if_neg hn] at h2 ⊢
      obtain ⟨ws, r2, h3, h4⟩ := Out.bind_eq_ok.1 h2
      have s2 := (nice_times hd n).le h3
      rw [h3]
      simp only [Out.ok_bind]
      obtain ⟨us, r3, h5, h6⟩ := Out.bind_eq_ok.1 h4
      rw [ih _ _ _ h5 g (by omega)]
      exact h6

theorem nice_allBlocks {α : Type} {d : Bytes → Out α} (hd : Nice d) :
    Nice (fun b => blocks d (b.length + 1) b) := by
  intro l v rest h
  obtain ⟨c, rfl, h1, h2⟩ := nice_blocks hd _ _ _ _ h
  refine ⟨c, rfl, ?_, ?_⟩
  · intro r hr
    exact blocks_fuel hd _ _ _ _ (h1 r hr) _ (by simp)
  · intro p hp v' rest' h'
    exact h2 p hp v' rest' (blocks_fuel hd _ _ _ _ h' _ (by
      have := hp.lt; simp; omega))

theorem nice_readString (n : Nat) : Nice (readString n) := by
  intro l v rest h
  unfold readString at h
  cases ht : take n l with
  | ok s r =>
    rw [ht] at h
    simp only at h
    cases hu : utf8Decode s with
    | none => rw [hu] at h; cases h
    | some t =>
      rw [hu] at h
      cases h
      obtain ⟨c, rfl, h1, h2⟩ := nice_take n _ _ _ ht
      refine ⟨c, rfl, ?_, ?_⟩
      · intro r' hr
        unfold readString
        rw [h1 r' hr]
        simp only [hu]
      · intro p hp v' rest' h'
        unfold readString at h'
        cases hq : take n p with
        | ok s' r' =>
          have := h2 p hp _ _ hq
          subst this
          rw [hq] at h'
          simp only at h'
          cases hw : utf8Decode s' with
          | none => rw [hw] at h'; cases h'
          | some t' => rw [hw] at h'; cases h'; rfl
        | eof => rw [hq] at h'; cases h'; rfl
        | bad => rw [hq] at h'; cases h'
  | eof =>
    rw [ht] at h
    cases h
    refine ⟨l, by simp, ?_, ?_⟩
    · intro r hr
      have : r = [] := List.prefix_nil.1 hr
      subst this
      unfold readString
      simp only [List.append_nil, ht]
    · intro p hp v' rest' h'
      unfold readString at h'
      cases hq : take n p with
      | ok s' r' =>
        have hn : ¬ n ≤ l.length := by
          intro hle; unfold take at ht; rw [if_pos hle] at ht; cases ht
        unfold take at hq
        rw [if_neg (by have := hp.lt; omega)] at hq
        cases hq
      | eof => rw [hq] at h'; cases h'; rfl
      | bad => rw [hq] at h'; cases h'
  | bad => rw [ht] at h; cases h

theorem nice_decodeString : Nice decodeString := nice_bind nice_decodeLen nice_readString

theorem nice_decodeBytes : Nice decodeBytes := nice_bind nice_decodeLen nice_take

theorem nice_decodeEntry {d : Bytes → Out AvroValue} (h : Nice d) : Nice (decodeEntry d) := by
  refine nice_bind nice_decodeString fun k => ?_
  cases k <;> first | exact nice_bad | exact nice_bind h fun v => nice_ok _

theorem nice_boolean : Nice (decode .boolean) := by
  intro l v rest h
  cases l with
  | nil =>
    simp only [decode, take] at h
    cases h
    refine ⟨[], rfl, ?_, fun p hp => (cut_nil hp).elim⟩
    intro r hr
    have : r = [] := List.prefix_nil.1 hr
    subst this; rfl
  | cons x l =>
    have hk : ∀ r, decode .boolean (x :: r) = (if x = 0 then .ok (.boolean false) r
        else if x = 1 then .ok (.boolean true) r else .bad) := by
      intro r
      simp only [decode, take, List.length_cons, Nat.le_add_left, if_true, List.take_succ_cons,
        List.take_zero, Out.ok_bind, List.drop_succ_cons, List.drop_zero, List.cons.injEq, and_true]
      by_cases h0 : x = 0
      · simp [h0, Out.orEof]
      · by_cases h1 : x = 1
        · simp [h1, Out.orEof]
        · simp [h0, h1, Out.orEof]
    rw [hk] at h
    refine ⟨[x], ?_, ?_, ?_⟩
    · split at h
      · cases h; rfl
      · split at h
        · cases h; rfl
        · cases h
    · intro r _
      rw [List.singleton_append, hk]
      split at h
      · next h0 => cases h; rw [if_pos h0]
      · next h0 =>
        split at h
        · next h1 => cases h; rw [if_neg h0, if_pos h1]
        · cases h
    · intro p hp v' rest' h'
      have := hp.lt
      simp at this
      subst this
      simp only [decode, take] at h'
      cases h'; rfl

theorem varint_prefix {fuel j i : Nat} {p l rest : Bytes} {v : Nat}
    (h : varint fuel j i p = .ok v rest) (hp : p <+: l) : varint fuel j i l ≠ .eof := by
  induction fuel generalizing j i p l with
  | zero => cases h
  | succ fuel ih =>
    obtain ⟨t, rfl⟩ := hp
    cases p with
    | nil => cases h
    | cons x p =>
      simp only [varint, List.cons_append] at h ⊢
      split at h
      · next hx => rw [if_pos hx]; intro e; cases e
      · next hx => rw [if_neg hx]; exact ih h (List.prefix_append _ _)

theorem zagI64_not_eof {p l rest : Bytes} {v : Int} (h : zagI64 p = .ok v rest) (hp : p <+: l) :
    zagI64 l ≠ .eof := by
  obtain ⟨a, r, h1, _⟩ := Out.bind_eq_ok.1 h
  have := varint_prefix h1 hp
  unfold zagI64
  intro e
  cases hv : varint 10 0 0 l with
  | ok z r => rw [hv] at e; cases e
  | eof => exact this hv
  | bad => rw [hv] at e; cases e

mutual
theorem nice_decode (s : AvroSchema) : Nice (decode s) := by
  cases s with
  | null => exact nice_ok _
  | boolean => exact nice_boolean
  | int => exact nice_bind nice_zagI32 fun _ => nice_ok _
  | long => exact nice_bind nice_zagI64 fun _ => nice_ok _
  | float => exact nice_bind (nice_take _) fun _ => nice_ok _
  | double => exact nice_bind (nice_take _) fun _ => nice_ok _
  | bytes => exact nice_bind nice_decodeBytes fun _ => nice_ok _
  | string => exact nice_decodeString
  | array s => exact nice_bind (nice_allBlocks (nice_decode s)) fun _ => nice_ok _
  | map s => exact nice_bind (nice_allBlocks (nice_decodeEntry (nice_decode s))) fun _ => nice_ok _
  | union ss =>
    intro l v rest h
    simp only [decode] at h
    cases hz : zagI64 l with
    | ok i r =>
      rw [hz] at h
      simp only at h
      obtain ⟨c1, rfl, h1, h2⟩ := nice_zagI64 _ _ _ hz
      by_cases hi : i < 0
      · rw [if_pos hi] at h; cases h
      · rw [if_neg hi] at h
        obtain ⟨w, r', h3, h4⟩ := Out.bind_eq_ok.1 h
        cases h4
        obtain ⟨c2, rfl, h5, h6⟩ := nice_decodeVariant ss i.toNat _ _ _ h3
        refine ⟨c1 ++ c2, by simp, ?_, ?_⟩
        · intro r hr
          simp only [decode, List.append_assoc]
          rw [h1 _ ((List.prefix_append_right_inj _).2 hr)]
          simp only [if_neg hi]
          rw [h5 r hr]; rfl
        · intro p hp v' rest' h'
          simp only [decode] at h'
          rcases cut_append hp with hp | ⟨q, rfl, hq⟩
          · cases hp2 : zagI64 p with
            | ok i' r'' =>
              have := h2 p hp _ _ hp2
              subst this
              rw [hp2] at h'
              simp only at h'
              by_cases hi' : i' < 0
              · rw [if_pos hi'] at h'; cases h'
              · rw [if_neg hi'] at h'
                obtain ⟨w', r3, h7, h8⟩ := Out.bind_eq_ok.1 h'
                cases h8
                exact (nice_decodeVariant ss i'.toNat).nil h7
            | eof => rw [hp2] at h'; cases h'; rfl
            | bad => rw [hp2] at h'; cases h'
          · have hq2 : q <+: c2 ++ rest := hq.1.trans (List.prefix_append _ _)
            rw [h1 q hq2] at h'
            simp only [if_neg hi] at h'
            obtain ⟨w', r3, h7, h8⟩ := Out.bind_eq_ok.1 h'
            cases h8
            exact h6 q hq _ _ h7
    | eof =>
      rw [hz] at h
      cases h
      refine ⟨l, by simp, ?_, ?_⟩
      · intro r hr
        have : r = [] := List.prefix_nil.1 hr
        subst this
        simp only [decode, List.append_nil, hz]
      · intro p hp v' rest' h'
        simp only [decode] at h'
        cases hp2 : zagI64 p with
        | ok i r =>
          rw [hp2] at h'
          simp only at h'
          exfalso
          obtain ⟨c, rfl, h1, _⟩ := nice_zagI64 _ _ _ hp2
          exact zagI64_not_eof hp2 hp.1 hz
        | eof => rw [hp2] at h'; cases h'; rfl
        | bad => rw [hp2] at h'; cases h'
    | bad => rw [hz] at h; cases h
  | record fs => exact nice_bind (nice_decodeFields fs) fun _ => nice_ok _
  | enum syms =>
    refine nice_bind nice_zagI32 fun i => nice_ite nice_bad ?_
    cases syms[i.toNat]? with
    | none => exact nice_bad
    | some x => exact nice_ok _
  | fixed n => exact nice_bind (nice_take _) fun _ => nice_ok _
  | decimal f p sc =>
    cases f with
    | none => exact nice_bind nice_decodeBytes fun _ => nice_ok _
    | some n => exact nice_bind (nice_take _) fun _ => nice_ok _
  | bigDecimal => exact nice_bind nice_decodeBytes fun _ => nice_ok _
  | uuid => exact nice_bind nice_decodeBytes fun _ => nice_ok _
  | date => exact nice_bind nice_zagI32 fun _ => nice_ok _
  | timeMillis => exact nice_bind nice_zagI32 fun _ => nice_ok _
  | timeMicros => exact nice_bind nice_zagI64 fun _ => nice_ok _
  | timestampMillis => exact nice_bind nice_zagI64 fun _ => nice_ok _
  | timestampMicros => exact nice_bind nice_zagI64 fun _ => nice_ok _
  | timestampNanos => exact nice_bind nice_zagI64 fun _ => nice_ok _
  | localTimestampMillis => exact nice_bind nice_zagI64 fun _ => nice_ok _
  | localTimestampMicros => exact nice_bind nice_zagI64 fun _ => nice_ok _
  | localTimestampNanos => exact nice_bind nice_zagI64 fun _ => nice_ok _
  | duration => exact nice_bind (nice_take _) fun _ => nice_ok _
  | ref n => exact nice_bad
termination_by structural s
theorem nice_decodeVariant (ss : List AvroSchema) (k : Nat) : Nice (decodeVariant ss k) := by
  match ss with
  | [] => exact nice_bad
  | s :: ss =>
    cases k with
    | zero => exact nice_decode s
    | succ k => exact nice_decodeVariant ss k
termination_by structural ss
theorem nice_decodeFields (fs : List (Str × AvroSchema)) : Nice (decodeFields fs) := by
  match fs with
  | [] => exact nice_ok _
  | (n, s) :: fs =>
    exact nice_bind (nice_decode s) fun _ => nice_bind (nice_decodeFields fs) fun _ => nice_ok _
termination_by structural fs
end

end Avro
end Hudi
