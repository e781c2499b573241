import Verif.Spec.Writer

/-! # Specification: reads that run while writers work -/

namespace Hudi.Spec

/-- How far the writers have come when each request of a read is answered; see `Race`. -/
structure Moments where
  replaced : Instant → Work
  latest : Work
  schema : Work
  dirs : Str → Work
  files : Str → Work
  sizes : Str → Work
  data : Str → Work

/-- What the storage holds when each request is answered. -/
def Moments.race (m : Moments) : Race where
  replaced := fun i => (m.replaced i).tree
  latest := m.latest.tree
  schema := m.schema.tree
  dirs := fun x => (m.dirs x).tree
  files := fun x => (m.files x).tree
  sizes := fun x => (m.sizes x).tree
  data := fun x => (m.data x).tree

/-- All requests are answered after the writers had come to `s`; files are read after their partitions have been
listed. -/
structure Since (S : Setting) (s : Work) (m : Moments) : Prop where
  replaced : ∀ i, Works S s (m.replaced i)
  latest : Works S s m.latest
  schema : Works S s m.schema
  dirs : ∀ x, Works S s (m.dirs x)
  files : ∀ x, Works S s (m.files x)
  sizes : ∀ x, Works S s (m.sizes x)
  data : ∀ x path, Works S (m.files x) (m.data path)

end Hudi.Spec
