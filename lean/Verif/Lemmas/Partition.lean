import Verif.Spec.Filter
import Verif.Lemmas.Utf8
import Verif.Lemmas.HMap
import Verif.Lemmas.Str
import Verif.Lemmas.Order
import Verif.Props.Filters

/-! # Lemmas: partition paths -/

namespace Hudi
open Spec

theorem segs_ok {A : Arrow} {p : Pruner} {schema : Schema} {parts : List Str}
    {segs : List (Str × Val)} (hl : parts.length = schema.length) (hp : ∀ s ∈ parts, '/' ∉ s)
    (h : Res.mapL (fun e => p.segment A e.1 e.2) (schema.zip parts) = .ok segs) :
    ∃ (texts : List Str) (vals : List Val), texts.length = schema.length ∧
      vals.length = schema.length ∧ (∀ t ∈ texts, '/' ∉ t) ∧
      parts = (schema.zip texts).map (fun e => segmentText p.hiveStyle e.1.name e.2) ∧
      segs = (schema.map Field.name).zip vals ∧
      ∀ (i : Nat) (f : Field) (t : Str) (v : Val), schema[i]? = some f → texts[i]? = some t →
        vals[i]? = some v → TextReads A f.dtype t v := by
  induction schema generalizing parts segs with
  | nil =>
    have : parts = [] := List.length_eq_zero_iff.1 (by simpa using hl)
    subst this
    cases h
    exact ⟨[], [], rfl, rfl, by simp, rfl, rfl, by simp⟩
  | cons f schema ih =>
    cases parts with
    | nil => simp at hl
    | cons part parts =>
      rw [List.zip_cons_cons, Res.mapL_cons_ok] at h
      obtain ⟨y, ys, h1, h2, rfl⟩ := h
      obtain ⟨texts, vals, a1, a2, a3, a4, a5, a6⟩ := ih (by simpa using hl)
        (fun s hs => hp s (List.mem_cons_of_mem _ hs)) h2
      unfold Pruner.segment at h1
      obtain ⟨value, h3, h1⟩ := Res.bind_eq_ok.1 h1
      obtain ⟨v, h4, h1⟩ := Res.bind_eq_ok.1 h1
      cases h1
      have hseg : part = segmentText p.hiveStyle f.name value ∧ '/' ∉ value := by
        unfold Pruner.segmentValue at h3
        split at h3
        · rename_i hh
          split at h3
          · cases h3
          · rename_i name val hs
            split at h3
            · cases h3
            · rename_i hn
              cases h3
              obtain ⟨rfl, _⟩ := splitOnce_eq_some.1 hs
              have hn' : name = f.name := Decidable.not_not.1 hn
              refine ⟨by rw [hn', segmentText, if_pos hh]; simp, ?_⟩
              have := hp _ List.mem_cons_self
              intro hm
              exact this (by simp [hm])
        · rename_i hh
          cases h3
          exact ⟨by simp [segmentText, hh], hp _ List.mem_cons_self⟩
      refine ⟨value :: texts, v :: vals, by simp [a1], by simp [a2], ?_, ?_, ?_, ?_⟩
      · intro t ht
        rcases List.mem_cons.1 ht with ht | ht
        · exact ht ▸ hseg.2
        · exact a3 t ht
      · simp [← a4, ← hseg.1]
      · simp [a5]
      · intro i g t w hg ht hw
        cases i with
        | zero =>
          simp only [List.getElem?_cons_zero, Option.some.injEq] at hg ht hw
          subst hg ht hw
          exact textReads_iff.1 (Res.ofOption_eq_ok.1 h4)
        | succ i =>
          simp only [List.getElem?_cons_succ] at hg ht hw
          exact a6 i g t w hg ht hw

theorem parse_reads {A : Arrow} {p : Pruner} {path : Str} {segs : List (Str × Val)}
    (h : p.parseSegments A path = .ok segs) :
    ∃ vals, PathReads A p.schema p.hiveStyle p.urlEncoded path vals ∧
      segs = hmOfList ((p.schema.map Field.name).zip vals) := by
  unfold Pruner.parseSegments at h
  obtain ⟨plain, h1, h⟩ := Res.bind_eq_ok.1 h
  simp only at h
  split at h
  · cases h
  rename_i hl
  obtain ⟨sg, h2, h3⟩ := Res.bind_eq_ok.1 h
  cases h3
  have hl : (splitAll '/' plain).length = p.schema.length := by simpa using hl
  obtain ⟨texts, vals, a1, a2, a3, a4, a5, a6⟩ := segs_ok hl (splitAll_not_mem '/' plain) h2
  refine ⟨vals, ⟨plain, texts, ?_, ?_, a1, a2, ?_, a3, ?_, a6⟩, by rw [a5]⟩
  · intro hu
    rw [Pruner.decodePath, hu] at h1
    cases h1; rfl
  · intro hu
    rw [Pruner.decodePath, hu] at h1
    exact Res.ofOption_eq_ok.1 h1
  · intro hn
    rw [hn] at hl
    exact splitAll_ne_nil '/' plain (List.length_eq_zero_iff.1 hl)
  · rw [← a4, join_splitAll]

/-- Names that a hive-style path segment can carry. -/
def PlainNames (hive : Bool) (schema : Schema) : Prop :=
  hive = true → ∀ f ∈ schema, '/' ∉ f.name ∧ '=' ∉ f.name

theorem segs_of {A : Arrow} {p : Pruner} {schema : Schema} {texts : List Str} {vals : List Val}
    (hn : PlainNames p.hiveStyle schema) (h1 : texts.length = schema.length)
    (h2 : vals.length = schema.length)
    (h3 : ∀ (i : Nat) (f : Field) (t : Str) (v : Val), schema[i]? = some f → texts[i]? = some t →
      vals[i]? = some v → TextReads A f.dtype t v) :
    Res.mapL (fun e => p.segment A e.1 e.2)
      (schema.zip ((schema.zip texts).map (fun e => segmentText p.hiveStyle e.1.name e.2))) =
      .ok ((schema.map Field.name).zip vals) := by
  induction schema generalizing texts vals with
  | nil => rfl
  | cons f schema ih =>
    cases texts with
    | nil => simp at h1
    | cons t texts =>
      cases vals with
      | nil => simp at h2
      | cons v vals =>
        simp only [List.zip_cons_cons, List.map_cons]
        rw [Res.mapL_cons_ok]
        refine ⟨(f.name, v), (schema.map Field.name).zip vals, ?_, ?_, rfl⟩
        · have hc : castStr A f.dtype t = some v := textReads_iff.2 (h3 0 f t v rfl rfl rfl)
          unfold Pruner.segment Pruner.segmentValue segmentText
          cases hh : p.hiveStyle with
          | false => simp [castValue, hc]
          | true =>
            have : '=' ∉ f.name := (hn hh f List.mem_cons_self).2
            have hs : splitOnce '=' (f.name ++ c!"=" ++ t) = some (f.name, t) := by
              rw [List.append_assoc]; exact splitOnce_append this
            simp only [if_true, hs]
            simp [castValue, hc]
        · exact ih (fun hh g hg => hn hh g (List.mem_cons_of_mem _ hg)) (by simpa using h1)
            (by simpa using h2) (fun i g t v a b c => h3 (i + 1) g t v a b c)

theorem reads_parse {A : Arrow} {p : Pruner} {path : Str} {vals : List Val}
    (hn : PlainNames p.hiveStyle p.schema)
    (h : PathReads A p.schema p.hiveStyle p.urlEncoded path vals) :
    p.parseSegments A path = .ok (hmOfList ((p.schema.map Field.name).zip vals)) := by
  obtain ⟨plain, texts, b1, b2, a1, a2, a0, a3, a4, a5⟩ := h
  have hd : p.decodePath path = .ok plain := by
    unfold Pruner.decodePath
    cases hu : p.urlEncoded with
    | false => simp [b1 hu]
    | true => simp [b2 hu]
  have hne : (p.schema.zip texts).map (fun e => segmentText p.hiveStyle e.1.name e.2) ≠ [] := by
    cases hs : p.schema with
    | nil => exact absurd hs a0
    | cons f fs =>
      cases texts with
      | nil => rw [hs] at a1; simp at a1
      | cons t ts => simp
  have hsl : ∀ q ∈ (p.schema.zip texts).map (fun e => segmentText p.hiveStyle e.1.name e.2),
      '/' ∉ q := by
    intro q hq
    rw [List.mem_map] at hq
    obtain ⟨⟨f, t⟩, he, rfl⟩ := hq
    have hf := (List.of_mem_zip he).1
    have ht := a3 t (List.of_mem_zip he).2
    unfold segmentText
    cases hh : p.hiveStyle with
    | false => simpa using ht
    | true =>
      have := (hn hh f hf).1
      simp only [if_true, List.mem_append, not_or]
      exact ⟨⟨this, by decide⟩, ht⟩
  have hsp : splitAll '/' plain =
      (p.schema.zip texts).map (fun e => segmentText p.hiveStyle e.1.name e.2) := by
    rw [a4]; exact splitAll_joinWith hne hsl
  unfold Pruner.parseSegments
  rw [hd]
  simp only [Res.ok_bind, hsp]
  rw [if_neg (by simp [a1]), segs_of hn a1 a2 a5]
  rfl

end Hudi
