import Verif.Spec.Listing
import Verif.Spec.Orders
import Verif.Model.TableBuilder

/-! # Specification: the same storage, listed in another order -/

namespace Hudi.Spec

/-- The second tree has the same files and directories as the first; in every directory, at every depth, they may be
listed in another order. -/
inductive Relisted : Tree → Tree → Prop
  | nil : Relisted .nil .nil
  | file (n : Str) (s : Nat) (c : Content) {r r' : Tree} : Relisted r r' →
      Relisted (.file n s c r) (.file n s c r')
  | dir (n : Str) {u u' r r' : Tree} : Relisted u u' → Relisted r r' → Relisted (.dir n u r) (.dir n u' r')
  | fileFile (n : Str) (s : Nat) (c : Content) (m : Str) (k : Nat) (d : Content) (r : Tree) :
      Relisted (.file n s c (.file m k d r)) (.file m k d (.file n s c r))
  | fileDir (n : Str) (s : Nat) (c : Content) (m : Str) (u r : Tree) :
      Relisted (.file n s c (.dir m u r)) (.dir m u (.file n s c r))
  | dirFile (m : Str) (u : Tree) (n : Str) (s : Nat) (c : Content) (r : Tree) :
      Relisted (.dir m u (.file n s c r)) (.file n s c (.dir m u r))
  | dirDir (n : Str) (u : Tree) (m : Str) (v r : Tree) : Relisted (.dir n u (.dir m v r)) (.dir m v (.dir n u r))
  | trans {t t' t'' : Tree} : Relisted t t' → Relisted t' t'' → Relisted t t''

/-- In no directory are there two log files whose names differ in nothing but the extension. -/
def OneExtensionAnywhere (t : Tree) : Prop := ∀ path, OneExtension (t.at path).files

/-- Two attempts to open a storage: the stores hold the same, listed in different orders, or neither is opened. -/
inductive SameStore : Res Storage → Res Storage → Prop
  | opened {s s' : Storage} : TreeWF s.tree → Relisted s.tree s'.tree → s.absolute = s'.absolute →
      SameStore (.ok s) (.ok s')
  | refused (e : ErrKind) : SameStore (.err e) (.err e)
  | crashed : SameStore .panic .panic

/-- Two worlds that differ only in the order in which their stores list directories. -/
structure RelistedWorld (w w' : World) : Prop where
  vars : w.vars = w'.vars
  connect : ∀ o base, SameStore (w.connect o base) (w'.connect o base)

end Hudi.Spec
