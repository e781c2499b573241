import Verif.Spec.RacingWriter

/-!
# Specification: a cleaner that works while writers and readers do

A cleaner deletes the files of versions of file groups that have been superseded.  It keeps what reads as of a given
time or later need, and deletes the log files of a version before its base file.
-/

namespace Hudi.Spec

/-- The version of the file group whose base file is of the instant `base` has been superseded by a completed write up
to `r`, which has written a new base file for the file group or replaced it. -/
def Superseded (js : List Job) (r : Str) (k : GroupKey) (base : Str) : Prop :=
  ∃ j ∈ js, compare base j.commit.ts = .lt ∧ (compare j.commit.ts r).isLE ∧
    ((∃ token, (k, Change.write token) ∈ j.commit.changes) ∨ (k, Change.replace) ∈ j.commit.changes)

/-- The steps of writers and of a cleaner that keeps what reads as of `r` or later need. -/
inductive CleanStep (S : Setting) (r : Str) : Work → Work → Prop
  /-- A step of a writer. -/
  | work (s s' : Work) (h : WorkStep S s s') : CleanStep S r s s'
  /-- The cleaner deletes a log file of a superseded version. -/
  | log (s : Work) (j : Job) (k : GroupKey) (token : Str) (l : Str × Str) (hj : j ∈ s.done)
    (hk : (k, Change.write token) ∈ j.commit.changes) (hs : Superseded s.done r k j.commit.ts)
    (hl : NamePart l.1 ∧ NamePart l.2) :
    CleanStep S r s { s with store := (Request.delete (logAt k j.commit.ts l)).run s.store }
  /-- It deletes the base file of a superseded version, when the log files are gone. -/
  | base (s : Work) (j : Job) (k : GroupKey) (token : Str) (hj : j ∈ s.done)
    (hk : (k, Change.write token) ∈ j.commit.changes) (hs : Superseded s.done r k j.commit.ts)
    (hl : ∀ l, NamePart l.1 ∧ NamePart l.2 → s.store.get (logAt k j.commit.ts l) = none) :
    CleanStep S r s { s with store := (Request.delete (baseAt k token j.commit.ts)).run s.store }

/-- Any number of steps. -/
inductive Cleans (S : Setting) (r : Str) : Work → Work → Prop
  | refl (s : Work) : Cleans S r s s
  | step {s s' s'' : Work} (h : Cleans S r s s') (hs : CleanStep S r s' s'') : Cleans S r s s''

/-- All requests of a read are answered after writers and cleaner had come to `s`; files are read after their
partitions have been listed. -/
structure SinceCleaned (S : Setting) (r : Str) (s : Work) (m : Moments) : Prop where
  replaced : ∀ i, Cleans S r s (m.replaced i)
  latest : Cleans S r s m.latest
  schema : Cleans S r s m.schema
  dirs : ∀ x, Cleans S r s (m.dirs x)
  files : ∀ x, Cleans S r s (m.files x)
  sizes : ∀ x, Cleans S r s (m.sizes x)
  data : ∀ x path, Cleans S r (m.files x) (m.data path)

/-- The latest completed write names first, in its document, a base file of a version that is current after it (such
as one that it has written itself). -/
def NamesCurrent (s : Work) : Prop :=
  ∀ j, s.done.getLast? = some j → ∀ path, FirstFile j.doc path →
    ∃ k v, versionAfter s.history k = some v ∧ pathSegs path = baseAt k v.token v.base

end Hudi.Spec
