import Verif.Model.Log
import Verif.Lemmas.Utf8
import Verif.Lemmas.Builder
import Verif.Props.Timeline
import Verif.Props.LogDemo

/-!
# C78: the metadata of an instant, as text
-/

namespace Hudi

open Spec

/-- The instants that a handle gives out: those it loaded when it was opened, and those it lists for one action. -/
def Spec.GivenOut (E : Env) (tl : Timeline) (t : Tree) (i : Instant) : Prop :=
  i ∈ tl.completed ∨ ∃ a desc is, tl.completedOf E a t desc = .ok is ∧ i ∈ is

theorem givenOut_file {E : Env} {o : Opts} {t0 t1 : Tree} {tl : Timeline}
    (hload : Timeline.load E o t0 = .ok tl) {i : Instant} (hi : GivenOut E tl t1 i) :
    ∃ tz acts n, (n ∈ timelineNames t0 ∨ n ∈ timelineNames t1) ∧ CompletedFile E.ltz tz acts n i := by
  rcases hi with hi | ⟨a, desc, is, h, hi⟩
  · obtain ⟨tz, _, _, ⟨f, hf, hp⟩, _⟩ := C05_loaded_timeline E o t0 tl hload
    obtain ⟨n, hn, h'⟩ := List.mem_filterMap.1 (hp.mem_iff.1 hi)
    exact ⟨tz, _, n, .inl hn, (hf n i).1 h'⟩
  · obtain ⟨tz, _, ⟨f, hf, hp⟩, _⟩ := C05_completed_of_action E tl a t1 desc is h
    have hi' : i ∈ (if desc then is.reverse else is) := by cases desc <;> simpa using hi
    obtain ⟨n, hn, h'⟩ := List.mem_filterMap.1 (hp.mem_iff.1 hi')
    exact ⟨tz, _, n, .inr hn, (hf n i).1 h'⟩

/-- **C78.**  The text that is returned for an instant is the present content of the file
`.hoodie/<timestamp>.<action>`, byte for byte.  Without such a file, or if its bytes are no text, the call fails
with an error. -/
theorem C78_metadata_text (C : Codec) (E : Env) (o : Opts) (t0 t1 t : Tree) (tl : Timeline)
    (hload : Timeline.load E o t0 = .ok tl) (i : Instant) (hi : GivenOut E tl t1 i)
    (hn : ∀ n, n ∈ timelineNames t0 ∨ n ∈ timelineNames t1 → NormalName n) :
    (∀ s, instantMetadataText C t i = .ok s ↔
      ∃ m c, t.fileAt [c!".hoodie", i.timestamp ++ c!"." ++ suffix i.action .completed] = some (m, c) ∧
        C.bytesOf c = utf8Encode s) ∧
    instantMetadataText C t i ≠ .panic := by
  obtain ⟨tz, acts, n, hnm, hc⟩ := givenOut_file hload hi
  have hseg := relativePath_segs hc (hn n hnm)
  have hst : i.state = .completed := by
    obtain ⟨ts, a, dt, _, _, _, _, rfl⟩ := hc
    rfl
  rw [hst] at hseg
  unfold instantMetadataText getFile
  rw [hseg]
  cases t.fileAt [c!".hoodie", i.timestamp ++ c!"." ++ suffix i.action .completed] with
  | none => exact ⟨fun s => ⟨fun h => (nomatch h), fun ⟨_, _, h, _⟩ => (nomatch h)⟩, fun h => (nomatch h)⟩
  | some e =>
    obtain ⟨m, c⟩ := e
    show (∀ s, (Res.ofOption .timeline (utf8Decode (C.bytesOf c)) : Res Str) = .ok s ↔ _) ∧
      (Res.ofOption .timeline (utf8Decode (C.bytesOf c)) : Res Str) ≠ .panic
    constructor
    · intro s
      rw [ofOption_ok]
      constructor
      · intro h
        exact ⟨m, c, rfl, (utf8Encode_decode h).symm⟩
      · rintro ⟨m', c', h, hb⟩
        cases h
        rw [hb, utf8Decode_encode]
    · cases utf8Decode (C.bytesOf c) <;> exact fun h => (nomatch h)

namespace Demo

/-- A commit whose metadata is the text `{"é":1}`, and a delta commit whose file is no text. -/
def textStore : Tree :=
  .dir c!".hoodie" (.file c!"20240103153000000.commit" 9 (.bytes (utf8Encode ['{', '"', 'é', '"', ':', '1', '}']))
    (.file c!"20240103153005000.deltacommit" 2 (.bytes [0xc3, 0x28]) .nil)) .nil

end Demo

open Demo in
/-- The text of the first is returned as written, the second gives an error. -/
example : ∃ tl i j, Timeline.load env [] textStore = .ok tl ∧ tl.completed = [i, j] ∧
    GivenOut env tl textStore i ∧ (∀ n ∈ timelineNames textStore, NormalName n) ∧
    instantMetadataText codec textStore i = .ok ['{', '"', 'é', '"', ':', '1', '}'] ∧
    instantMetadataText codec textStore j = .err .timeline :=
  ⟨_, ⟨c!"20240103153000000", .commit, .completed, 1704295800000⟩,
    ⟨c!"20240103153005000", .deltaCommit, .completed, 1704295805000⟩, rfl, by decide, .inl (by decide), by decide,
    by decide, by decide⟩

end Hudi
