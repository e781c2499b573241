import Verif.Model.Distributed
import Verif.Spec.Options
import Verif.Spec.Reader
import Verif.Spec.Handout

/-!
# Specification: reading a table piece by piece

A planner asks a table handle for file slices, hands their descriptions to workers, and each worker
reads its slices with a reader of its own.
-/

namespace Hudi.Spec

/-- What is connected to depends on the storage options as a map from names to values. -/
def ByOptions (w : World) : Prop :=
  ∀ so so' uri, (∀ k, hmGet k so = hmGet k so') → w.connect so uri = w.connect so' uri

/-- The table's options lead to the storage `s`. -/
structure Connected (w : World) (tb : Table) (s : Storage) : Prop where
  options : ByOptions w
  map : HmNodup tb.storageOptions
  apart : ∀ e ∈ tb.storageOptions, ¬ HudiKey e.1
  storage : ∃ uri, hmGet c!"hoodie.base.path" tb.hudiOptions = some uri ∧ w.connect tb.storageOptions uri = .ok s

/-- The options that restrict a reader to what was written up to a time. -/
def upTo (stop : Str) : List (Str × Str) := [(c!"hoodie.read.file_group.end_timestamp", stop)]

/-- The options that restrict a reader to what was written after one time and up to another. -/
def during (start stop : Str) : List (Str × Str) :=
  [(c!"hoodie.read.file_group.start_timestamp", start), (c!"hoodie.read.file_group.end_timestamp", stop)]

/-- The options given are the table's, as it reports them, and some more that take precedence. -/
def WithTableOptions (tb : Table) (more options : List (Str × Str)) : Prop :=
  ∀ k, lastGiven k options = firstOf [lastGiven k more, hmGet k tb.storageOptions, hmGet k tb.hudiOptions]

/-- A reader for the table with more options: one that the table creates, or one made from a base path
with the table's options and those (and the options that the table has as hudi options have names of
hudi options). -/
inductive ReaderFor (w : World) (tb : Table) (more : List (Str × Str)) : FgReader → Prop
  | created {r : FgReader} (h : tb.createReader w more = .ok r) : ReaderFor w tb more r
  | made {r : FgReader} (uri : Str) (options : List (Str × Str)) (hh : ∀ e ∈ tb.hudiOptions, HudiKey e.1)
      (ho : WithTableOptions tb more options) (h : FgReader.newWithOptions w uri options = .ok r) : ReaderFor w tb more r

/-- The batches are those that the reader returns for the slices, one for each: by their descriptions for
those that are `described`, else by the slices themselves. -/
def ReadOneByOne (C : Codec) (A : Arrow) (M : MergeEnv A) (ltz : LocalTz) (r : FgReader)
    (described : FileSlice → Bool) (ss : List FileSlice) (bs : List Batch) : Prop :=
  List.Forall₂ (fun s b => if described s = true then r.readDescribed C A M ltz (PySlice.ofSlice s) = .ok b
    else r.readSlice C A M ltz s = .ok b) ss bs

end Hudi.Spec
