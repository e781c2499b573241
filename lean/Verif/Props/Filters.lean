import Verif.Spec.Filter
import Verif.Lemmas.Order
import Verif.Lemmas.Files

/-! # C31: filter operators -/

namespace Hudi
open Spec

theorem holds_iff_relOrd (op : Op) (o : Ordering) : op.holds o = true ↔ relOrd op.token o := by
  unfold relOrd
  cases op <;> cases o <;> decide

theorem rel_iff_relOrd {α : Type} [LT α] [LE α] [Ord α] [Std.LawfulEqOrd α] [Std.OrientedOrd α]
    (hlt : ∀ a b : α, compare a b = .lt ↔ a < b) (hle : ∀ a b : α, a ≤ b ↔ ¬ b < a) (token : Str)
    (a b : α) : rel token a b ↔ relOrd token (compare a b) := by
  unfold rel relOrd
  have heq : a = b ↔ compare a b = .eq := Std.LawfulEqCmp.compare_eq_iff_eq.symm
  have hgt : compare b a = .lt ↔ compare a b = .gt := Std.OrientedCmp.gt_iff_lt.symm
  simp only [ne_eq, heq, hle, ← hlt, hgt]

theorem compare_lt_str (a b : Str) : compare a b = .lt ↔ a < b := by
  induction a generalizing b with
  | nil =>
    cases b with
    | nil => decide
    | cons y ys => exact ⟨fun _ => List.nil_lt_cons _ _, fun _ => rfl⟩
  | cons x xs ih =>
    cases b with
    | nil => exact ⟨fun h => (by cases h), fun h => (by cases h)⟩
    | cons y ys =>
      rw [compare_cons, Ordering.then_eq_lt, ih, List.cons_lt_cons_iff, compare_char,
        Nat.compare_eq_lt, Nat.compare_eq_eq]
      have h1 : x < y ↔ x.toNat < y.toNat := by
        show x.val < y.val ↔ _
        rw [UInt32.lt_iff_toNat_lt]; rfl
      have h2 : x = y ↔ x.toNat = y.toNat := ⟨fun h => by rw [h], Char.toNat_inj.1⟩
      rw [h1, h2]

/-- Comparing a value with a filter's value either is an error (different types), or answers whether
the two stand in the relation named by the filter's token. -/
theorem apply_iff (A : Arrow) (f : SFilter) (v : Val) (b : Bool) :
    f.apply A v = .ok b ↔
      ((∃ o, v.cmp A f.value = some o) ∧ (b = true ↔ Related A f.op.token v f.value)) := by
  have key : ∀ o, v.cmp A f.value = some o →
      (f.op.holds o = true ↔ Related A f.op.token v f.value) := by
    intro o ho
    rw [holds_iff_relOrd]
    cases v with
    | str a =>
      cases hv : f.value with
      | str c =>
        rw [hv] at ho
        cases ho
        rw [← rel_iff_relOrd compare_lt_str (fun _ _ => Iff.rfl)]
        exact ⟨Related.str _ _, fun h => by cases h; assumption⟩
      | _ => rw [hv] at ho; cases ho
    | bool a =>
      cases hv : f.value with
      | bool c =>
        rw [hv] at ho
        cases ho
        rw [← rel_iff_relOrd (α := Bool) (by decide) (by decide)]
        exact ⟨Related.bool _ _, fun h => by cases h; assumption⟩
      | _ => rw [hv] at ho; cases ho
    | int a =>
      cases hv : f.value with
      | int c =>
        rw [hv] at ho
        cases ho
        rw [← rel_iff_relOrd (α := Int) (fun _ _ => Int.compare_eq_lt)
          (fun _ _ => Int.not_lt.symm)]
        exact ⟨Related.int _ _, fun h => by cases h; assumption⟩
      | _ => rw [hv] at ho; cases ho
    | opq a =>
      cases hv : f.value with
      | opq c =>
        rw [hv] at ho
        cases ho
        exact ⟨Related.opq _ _, fun h => by cases h; assumption⟩
      | _ => rw [hv] at ho; cases ho
  unfold SFilter.apply
  cases hc : v.cmp A f.value with
  | none => simp
  | some o =>
    simp only [Res.ok.injEq, Option.some.injEq, exists_eq', true_and]
    rw [← key o hc]
    cases f.op.holds o <;> cases b <;> simp

theorem lowerChar_symbol {c d : Char} (h : lowerChar c = d) (hd : d.toNat < 65) : c = d := by
  unfold lowerChar at h
  split at h
  · rename_i hc
    exfalso
    rw [← h] at hd
    have hv : (c.toNat + 32).isValidChar := by left; omega
    rw [show (Char.ofNat (c.toNat + 32)).toNat = c.toNat + 32 by
      unfold Char.ofNat; rw [dif_pos hv]; rfl] at hd
    omega
  · exact h

theorem lower_symbols {s t : Str} (h : lower s = t) (ht : ∀ d ∈ t, d.toNat < 65) : s = t := by
  induction s generalizing t with
  | nil => simpa [lower] using h
  | cons c s ih =>
    cases t with
    | nil => simp [lower] at h
    | cons d t =>
      simp only [lower, List.map_cons, List.cons.injEq] at h
      rw [lowerChar_symbol h.1 (ht d List.mem_cons_self),
        ih h.2 (fun d hd => ht d (List.mem_cons_of_mem _ hd))]

theorem fromStr_iff (s : Str) (op : Op) : Op.fromStr s = .ok op ↔ s = op.token := by
  constructor
  · intro h
    unfold Op.fromStr at h
    rw [Res.ofOption_eq_ok] at h
    simp only [Op.pairs, List.findSome?_cons, List.findSome?_nil] at h
    have e1 : lower c!"=" = c!"=" := rfl
    have e2 : lower c!"!=" = c!"!=" := rfl
    have e3 : lower c!"<" = c!"<" := rfl
    have e4 : lower c!"<=" = c!"<=" := rfl
    have e5 : lower c!">" = c!">" := rfl
    have e6 : lower c!">=" = c!">=" := rfl
    rw [e1, e2, e3, e4, e5, e6] at h
    split at h
    · rename_i hx; split at hx
      · rename_i hl; cases hx; cases h; exact lower_symbols hl.symm (by decide)
      · cases hx
    split at h
    · rename_i hx; split at hx
      · rename_i hl; cases hx; cases h; exact lower_symbols hl.symm (by decide)
      · cases hx
    split at h
    · rename_i hx; split at hx
      · rename_i hl; cases hx; cases h; exact lower_symbols hl.symm (by decide)
      · cases hx
    split at h
    · rename_i hx; split at hx
      · rename_i hl; cases hx; cases h; exact lower_symbols hl.symm (by decide)
      · cases hx
    split at h
    · rename_i hx; split at hx
      · rename_i hl; cases hx; cases h; exact lower_symbols hl.symm (by decide)
      · cases hx
    split at h
    · rename_i hx; split at hx
      · rename_i hl; cases hx; cases h; exact lower_symbols hl.symm (by decide)
      · cases hx
    · cases h
  · rintro rfl
    cases op <;> rfl

theorem textReads_iff {A : Arrow} {d : DType} {t : Str} {v : Val} :
    castStr A d t = some v ↔ TextReads A d t v := by
  have hall : ∀ l : Str, l.all isDigit = true ↔ ∀ c ∈ l, isDigit c = true := fun l => List.all_eq_true
  have hpow : ∀ k : Nat, (0 : Int) < 2 ^ k := fun k => Int.pow_pos (by omega)
  have hcast : ∀ k : Nat, ((2 ^ k : Nat) : Int) = 2 ^ k := fun k => by push_cast; rfl
  have hhead : ∀ (ds : Str) (c : Char), (∀ x ∈ c :: ds, isDigit x = true) → c ≠ '-' ∧ c ≠ '+' := by
    intro ds c h
    have := h c List.mem_cons_self
    constructor <;> rintro rfl <;> exact absurd this (by decide)
  constructor
  · intro h
    cases d with
    | utf8 => cases h; exact .utf8 _
    | boolean =>
      simp only [castStr, parseArrowBool, Option.map_eq_some_iff] at h
      obtain ⟨b, hb, rfl⟩ := h
      split at hb
      · cases hb; exact .yes _ (by assumption)
      · split at hb
        · cases hb; exact .no _ (by assumption)
        · cases hb
    | other n =>
      simp only [castStr, Option.map_eq_some_iff] at h
      obtain ⟨s, hs, rfl⟩ := h
      exact .other _ _ _ hs
    | int signed bits =>
      simp only [castStr, Option.map_eq_some_iff] at h
      obtain ⟨i, hi, rfl⟩ := h
      unfold parseArrowInt at hi
      simp only at hi
      have nat : ∀ ds : Str, (t = ds ∨ t = '+' :: ds) → (if ds ≠ [] ∧ ds.all isDigit = true then
          (if signed = true then
            if -(2 ^ (bits - 1) : Int) ≤ (natOfDigits ds : Int) ∧ (natOfDigits ds : Int) < (2 ^ (bits - 1) : Int)
              then some (natOfDigits ds : Int) else none
          else if 0 ≤ (natOfDigits ds : Int) ∧ (natOfDigits ds : Int) < (2 ^ bits : Int)
            then some (natOfDigits ds : Int) else none) else none) = some i →
          TextReads A (.int signed bits) t (.int i) := by
        intro ds ht h
        split at h
        · rename_i hd
          have h1 := hcast (bits - 1)
          have h2 := hcast bits
          cases signed with
          | true =>
            simp only [if_true] at h
            split at h
            · cases h
              exact .nat true bits _ _ ht hd.1 ((hall _).1 hd.2) (by simp only [if_true]; omega)
            · cases h
          | false =>
            simp only [Bool.false_eq_true, if_false] at h
            split at h
            · cases h
              exact .nat false bits _ _ ht hd.1 ((hall _).1 hd.2)
                (by simp only [Bool.false_eq_true, if_false]; omega)
            · cases h
        · cases h
      split at hi
      · rename_i ds
        split at hi
        · rename_i hd
          have h1 := hcast (bits - 1)
          have h2 := hcast bits
          cases signed with
          | true =>
            simp only [if_true] at hi
            split at hi
            · cases hi
              exact .neg true bits _ hd.1 ((hall _).1 hd.2) (by simp only [if_true]; omega)
            · cases hi
          | false =>
            simp only [Bool.false_eq_true, if_false] at hi
            split at hi
            · cases hi
              exact .neg false bits _ hd.1 ((hall _).1 hd.2)
                (by simp only [Bool.false_eq_true, if_false]; omega)
            · cases hi
        · cases hi
      · exact nat _ (.inr rfl) hi
      · exact nat _ (.inl rfl) hi
  · intro h
    cases h with
    | utf8 => rfl
    | yes _ h => simp only [castStr, parseArrowBool, if_pos h, Option.map_some]
    | no _ h =>
      have : lower (trim t) ∉ [c!"t", c!"tr", c!"tru", c!"true", c!"y", c!"ye", c!"yes", c!"on", c!"1"] := by
        intro h'
        generalize lower (trim t) = l at h h'
        simp only [List.mem_cons, List.not_mem_nil, or_false] at h
        rcases h with rfl | rfl | rfl | rfl | rfl | rfl | rfl | rfl | rfl | rfl <;> revert h' <;> decide
      simp only [castStr, parseArrowBool, if_neg this, if_pos h, Option.map_some]
    | other _ _ _ h => simp only [castStr, h, Option.map_some]
    | nat signed bits _ ds ht hne hd hn =>
      simp only [castStr, Option.map_eq_some_iff]
      refine ⟨natOfDigits ds, ?_, rfl⟩
      have h1 := hcast (bits - 1)
      have h2 := hcast bits
      have h3 := hpow (bits - 1)
      have hif : (if ds ≠ [] ∧ ds.all isDigit = true then
          (if signed = true then
            if -(2 ^ (bits - 1) : Int) ≤ (natOfDigits ds : Int) ∧ (natOfDigits ds : Int) < (2 ^ (bits - 1) : Int)
              then some (natOfDigits ds : Int) else none
          else if 0 ≤ (natOfDigits ds : Int) ∧ (natOfDigits ds : Int) < (2 ^ bits : Int)
            then some (natOfDigits ds : Int) else none) else none) = some (natOfDigits ds : Int) := by
        rw [if_pos ⟨hne, (hall _).2 hd⟩]
        cases signed with
        | true =>
          simp only [if_true] at hn ⊢
          rw [if_pos]; omega
        | false =>
          simp only [Bool.false_eq_true, if_false] at hn ⊢
          rw [if_pos]; omega
      rcases ht with rfl | rfl
      · cases t with
        | nil => exact absurd rfl hne
        | cons c cs =>
          obtain ⟨hm, hp⟩ := hhead cs c hd
          unfold parseArrowInt
          simp only
          split
          · rename_i heq; cases heq; exact absurd rfl hm
          · rename_i heq; cases heq; exact absurd rfl hp
          · exact hif
      · exact hif
    | neg signed bits ds hne hd hn =>
      simp only [castStr, Option.map_eq_some_iff]
      refine ⟨-natOfDigits ds, ?_, rfl⟩
      have h1 := hcast (bits - 1)
      have h2 := hcast bits
      have h3 := hpow (bits - 1)
      have h4 := hpow bits
      unfold parseArrowInt
      simp only
      rw [if_pos ⟨hne, (hall _).2 hd⟩]
      cases signed with
      | true =>
        simp only [if_true] at hn ⊢
        rw [if_pos]; omega
      | false =>
        simp only [Bool.false_eq_true, if_false] at hn ⊢
        rw [if_pos]; omega

theorem castStr_hasType {A : Arrow} {d : DType} {s : Str} {v : Val} (h : castStr A d s = some v) :
    v.hasType d = true := by
  unfold castStr at h
  split at h
  · cases h; rfl
  all_goals
    rw [Option.map_eq_some_iff] at h
    obtain ⟨a, _, rfl⟩ := h
    rfl

theorem cmp_of_hasType (A : Arrow) {d : DType} {v w : Val} (hv : v.hasType d = true)
    (hw : w.hasType d = true) : ∃ o, v.cmp A w = some o := by
  cases v <;> cases w <;> cases d <;> simp_all [Val.hasType, Val.cmp]

theorem ofFilter_ok {A : Arrow} {f : Filter} {schema : Schema} {sf : SFilter}
    (h : SFilter.ofFilter A f schema = .ok sf) :
    schema.fieldWithName f.field = some sf.field ∧ sf.op = f.op ∧
      castStr A sf.field.dtype f.value = some sf.value := by
  unfold SFilter.ofFilter castValue at h
  obtain ⟨fld, h1, h⟩ := Res.bind_eq_ok.1 h
  obtain ⟨v, h2, h⟩ := Res.bind_eq_ok.1 h
  cases h
  exact ⟨Res.ofOption_eq_ok.1 h1, rfl, Res.ofOption_eq_ok.1 h2⟩

/-- **C31.**  A filter built from a field name, an operator token and a text keeps exactly those
values of the column that stand in the relation named by the token to the filter's value: for every
token the library accepts, every schema and every value of the filtered column. -/
theorem C31_operators_mean_what_they_say (A : Arrow) (name token text : Str) (schema : Schema)
    (f : Filter) (sf : SFilter) (v : Val) (hf : Filter.ofTuple (name, token, text) = .ok f)
    (hs : SFilter.ofFilter A f schema = .ok sf) (hv : v.hasType sf.field.dtype = true) :
    ∃ b w, sf.apply A v = .ok b ∧ TextReads A sf.field.dtype text w ∧
      (b = true ↔ Related A token v w) := by
  unfold Filter.ofTuple at hf
  obtain ⟨op, h1, hf⟩ := Res.bind_eq_ok.1 hf
  cases hf
  obtain ⟨h2, h3, h4⟩ := ofFilter_ok hs
  obtain ⟨o, ho⟩ := cmp_of_hasType A hv (castStr_hasType h4)
  have htok : token = sf.op.token := by rw [h3]; exact (fromStr_iff _ _).1 h1
  refine ⟨sf.op.holds o, sf.value, ?_, textReads_iff.1 h4, ?_⟩
  · simp [SFilter.apply, ho]
  · have := (apply_iff A sf v (sf.op.holds o)).1 (by simp [SFilter.apply, ho])
    rw [htok]; exact this.2

/-- **C31, negation.**  The negated filter exists and keeps exactly the values of the column that the
filter drops. -/
theorem C31_negation_keeps_the_others (A : Arrow) (f : Filter) (schema : Schema) (sf : SFilter)
    (hs : SFilter.ofFilter A f schema = .ok sf) :
    ∃ f' sf', f.negate = some f' ∧ SFilter.ofFilter A f' schema = .ok sf' ∧
      f'.field = f.field ∧ f'.value = f.value ∧
      ∀ (v : Val) (b : Bool), sf.apply A v = .ok b ↔ sf'.apply A v = .ok (!b) := by
  obtain ⟨h2, h3, h4⟩ := ofFilter_ok hs
  have hneg : ∃ op', f.op.negate = some op' ∧ ∀ o, op'.holds o = !f.op.holds o := by
    cases f.op <;> refine ⟨_, rfl, ?_⟩ <;> intro o <;> cases o <;> rfl
  obtain ⟨op', hop, hh⟩ := hneg
  refine ⟨{ f with op := op' }, { sf with op := op' }, by simp [Filter.negate, hop], ?_, rfl, rfl, ?_⟩
  · simp only [SFilter.ofFilter, castValue]
    rw [h2]
    show (Res.ofOption _ (castStr A sf.field.dtype f.value)).bind _ = _
    rw [h4]; rfl
  · intro v b
    unfold SFilter.apply
    cases v.cmp A sf.value with
    | none => simp
    | some o =>
      simp only [Res.ok.injEq, hh, h3]
      cases f.op.holds o <;> cases b <;> simp

/-- **C31, tokens.**  The accepted operator tokens are exactly `=`, `!=`, `<`, `<=`, `>`, `>=`, and
writing a filter out as texts and reading it back gives the same filter. -/
theorem C31_tokens (s : Str) :
    ((∃ op, Op.fromStr s = .ok op) ↔ s ∈ [c!"=", c!"!=", c!"<", c!"<=", c!">", c!">="]) ∧
    (∀ f : Filter, Filter.ofTuple f.toTuple = .ok f) ∧ Op.fromStr s ≠ .panic := by
  refine ⟨?_, ?_, ?_⟩
  · constructor
    · rintro ⟨op, h⟩
      rw [fromStr_iff] at h
      rw [h]; cases op <;> decide
    · intro h
      simp only [List.mem_cons, List.not_mem_nil, or_false] at h
      rcases h with h | h | h | h | h | h <;> subst h
      · exact ⟨.eq, rfl⟩
      · exact ⟨.ne, rfl⟩
      · exact ⟨.lt, rfl⟩
      · exact ⟨.lte, rfl⟩
      · exact ⟨.gt, rfl⟩
      · exact ⟨.gte, rfl⟩
  · rintro ⟨a, op, v⟩
    simp only [Filter.ofTuple, Filter.toTuple, (fromStr_iff op.token op).2 rfl]
    rfl
  · unfold Op.fromStr
    intro h
    cases hx : Op.pairs.findSome? (fun e => if lower e.1 = lower s then some e.2 else none) <;>
      rw [hx] at h <;> cases h

namespace Demo

/-- An arrow without further types. -/
def arrow : Arrow := ⟨fun _ _ => none, fun _ _ => .eq,
  { eq_swap := rfl, isLE_trans := fun _ _ => rfl }⟩

def pSchema : Schema := [⟨c!"byteField", .int true 32, true⟩, ⟨c!"shortField", .utf8, true⟩]

end Demo

example : ∃ f sf, Filter.ofTuple (c!"byteField", c!"<=", c!"20") = .ok f ∧
    SFilter.ofFilter Demo.arrow f Demo.pSchema = .ok sf ∧
    sf.apply Demo.arrow (.int 30) = .ok false ∧ sf.apply Demo.arrow (.int (-3)) = .ok true :=
  ⟨_, _, rfl, rfl, by decide, by decide⟩

end Hudi
