import Verif.Spec.WriterOpened
import Verif.Props.OpenedMore

/-! # Writers that agree on the same options -/

namespace Hudi
open Spec

section
variable {S : Setting} {o : Opts} (hp : ∀ x, PartitionPath S.o x ↔ PartitionPath o x)
  (hf : partitionFieldNames S.o = partitionFieldNames o ∧ (OverwritesWithLatest o → OverwritesWithLatest S.o))
include hp

theorem site_with {x : Str} : Site S x ↔ Site { S with o := o } x := by
  unfold Site
  rw [hp]

theorem unread_with {p : List Str} (h : Unread S p) : Unread { S with o := o } p := by
  rcases h with h | ⟨x, name, h1, h2, h3⟩
  · exact .inl h
  · exact .inr ⟨x, name, h1, (site_with hp).1 h2, h3⟩

include hf

theorem jobOk_with {before : List Job} {j : Job} (h : JobOk S before j) : JobOk { S with o := o } before j where
  later := h.later
  time := h.time
  parses := h.parses
  once := h.once
  sites := fun e he => (site_with hp).1 (h.sites e he)
  replaces := h.replaces
  gone := h.gone
  live := h.live
  ids := h.ids
  tokens := h.tokens
  logs := h.logs
  batches := fun k token hk => ⟨(h.batches k token hk).1, fun ho => (h.batches k token hk).2 (hf.2 ho)⟩
  blocks := h.blocks
  rows := h.rows
  document := h.document
  firstFile := by
    have := h.firstFile
    rw [hf.1] at this
    exact this

theorem step_with {s s' : Work} (h : WorkStep S s s') : WorkStep { S with o := o } s s' := by
  cases h with
  | aside q hq => exact .aside _ q (unread_with hp hq)
  | begin j hc hfr hj => exact .begin _ j hc hfr (jobOk_with hp hf hj)
  | request a q hc hu hq => exact .request _ a q hc hu hq
  | complete a hc hu hq ho => exact .complete _ a hc hu hq ho
  | rollback a r hc hfr ht hpd ho => exact .rollback _ a r hc hfr ht hpd ho
  | delete a r k token hc hu hk => exact .delete _ a r k token hc hu hk
  | block a r k ls v l w hc hu hk hv hl hg hw hr => exact .block _ a r k ls v l w hc hu hk hv hl hg hw hr
  | recovered a r hc hu hd hb => exact .recovered _ a r hc hu hd hb

theorem works_with {s s' : Work} (h : Works S s s') : Works { S with o := o } s s' := by
  induction h with
  | refl => exact .refl _
  | step _ hs ih => exact .step ih (step_with hp hf hs)

theorem since_with {s : Work} {m : Moments} (h : Since S s m) : Since { S with o := o } s m where
  replaced := fun i => works_with hp hf (h.replaced i)
  latest := works_with hp hf h.latest
  schema := works_with hp hf h.schema
  dirs := fun x => works_with hp hf (h.dirs x)
  files := fun x => works_with hp hf (h.files x)
  sizes := fun x => works_with hp hf (h.sizes x)
  data := fun x path => works_with hp hf (h.data x path)

end

theorem partitionPath_same {o o' : Opts} (h : ∀ k, hmGet k o = hmGet k o') (x : Str) :
    PartitionPath o x ↔ PartitionPath o' x := by
  unfold PartitionPath Partitioned
  rw [h, h]

theorem agree_same {o o' : Opts} (h : ∀ k, hmGet k o = hmGet k o') :
    partitionFieldNames o = partitionFieldNames o' ∧ (OverwritesWithLatest o' → OverwritesWithLatest o) :=
  ⟨partitionFieldNames_same h, (overwrites_congr (h _) (h _) (h _)).2⟩

/-- The table opens, and the handle has options that the writers agree on. -/
theorem tableOf_opens {E : Env} {S : Setting} {s : Work} {w : World} {uri : Str} {calls : List Call}
    (h : TableOf E S s w uri calls) : ∃ tb, (builderOf uri calls).build E w = .ok tb ∧
      (∀ k, hmGet k S.o = hmGet k tb.opts) ∧ HandleAt E { S with o := tb.opts } s tb := by
  obtain ⟨st, hat, htree⟩ := h.storage
  obtain ⟨tb, hb, h1, h2, ho⟩ := opened_same (E := E) hat h.wellFormed h.supported (htree ▸ h.timeline)
  have h1' := fun k => (h1 k).symm
  have hz : timezoneOf tb.opts = .ok S.tz := (timezoneOf_same h1).trans h.zone
  exact ⟨tb, hb, h1', ⟨⟨_, htree ▸ h2⟩, h.clock, ho ▸ hz, rfl,
    ⟨opened_plain h.calls hb, mergesBy_same h1' h.merges, (h1 _).trans h.start, hz⟩⟩⟩

theorem askable_with {A : Arrow} {S : Setting} {o : Opts} (ho : ∀ k, hmGet k S.o = hmGet k o)
    {filters : List (Str × Str × Str)} {fs : List Filter} {hive url : Bool} (h : Askable A S filters fs hive url)
    {E : Env} {s : Work} {tb : Table} (hh : HandleAt E { S with o := o } s tb) :
    OpenedAt E A { S with o := o } s tb filters fs hive url where
  toHandleAt := hh
  names := h.names
  parsed := h.parsed
  applicable := h.applicable
  style := pathStyle_same ho h.style
  parallelism := fun v hv => h.parallelism v ((ho _).trans hv)

end Hudi
