import Verif.Model.TableBuilder

/-! # Specification: options of a table -/

namespace Hudi.Spec

/-! ## Properties texts -/

/-- `t` is `s` without the white space around it. -/
def Trimmed (s t : Str) : Prop :=
  ∃ a b, s = a ++ t ++ b ∧ (∀ c ∈ a, isWs c = true) ∧ (∀ c ∈ b, isWs c = true) ∧
    (∀ c, t.head? = some c → isWs c = false) ∧ (∀ c, t.getLast? = some c → isWs c = false)

/-- The line gives the key the value: it is neither blank nor a comment, the key is what stands before the
first separator and the value what stands after it (nothing, if there is no separator). -/
def Defines (seps : Str) (line k v : Str) : Prop :=
  ∃ t, Trimmed line t ∧ t ≠ [] ∧ t.head? ≠ some '#' ∧
    ((∃ a c b, t = a ++ c :: b ∧ c ∈ seps ∧ (∀ x ∈ a, x ∉ seps) ∧ Trimmed a k ∧ Trimmed b v) ∨
     ((∀ x ∈ t, x ∉ seps) ∧ k = t ∧ v = []))

/-- The text consists of the lines. -/
def HasLines (text : Str) (lines : List Str) : Prop :=
  lines ≠ [] ∧ (∀ l ∈ lines, '\n' ∉ l) ∧ text = (lines.intersperse c!"\n").flatten

/-- The last line of the text that defines the key gives it the value. -/
def LastDefines (seps : Str) (text k v : Str) : Prop :=
  ∃ before line after, HasLines text (before ++ line :: after) ∧ Defines seps line k v ∧
    ∀ l ∈ after, ∀ v', ¬ Defines seps l k v'

/-- The properties given by a text. -/
def PropertiesOf (seps text : Str) (f : Str → Option Str) : Prop :=
  ∀ k v, f k = some v ↔ LastDefines seps text k v

/-! ## Sources of options -/

/-- The last value given for a key. -/
def lastGiven (k : Str) (l : List (Str × Str)) : Option Str :=
  ((l.filter (fun e => decide (e.1 = k))).getLast?).map Prod.snd

/-- The first available value. -/
def firstOf (l : List (Option Str)) : Option Str := l.findSome? id

/-- A call on the builder of a table. -/
inductive Call
  | hudiOption (k v : Str)
  | hudiOptions (l : List (Str × Str))
  | storageOption (k v : Str)
  | storageOptions (l : List (Str × Str))
  | option (k v : Str)
  | options (l : List (Str × Str))

/-- The builder after a call. -/
def Call.apply (b : TableBuilder) : Call → TableBuilder
  | .hudiOption k v => b.withHudiOption k v
  | .hudiOptions l => b.withHudiOptions l
  | .storageOption k v => b.withStorageOption k v
  | .storageOptions l => b.withStorageOptions l
  | .option k v => b.withOption k v
  | .options l => b.withOptions l

/-- The builder of a table after some calls. -/
def builderOf (uri : Str) (calls : List Call) : TableBuilder :=
  calls.foldl Call.apply (TableBuilder.fromBaseUri uri)

/-- The explicit hudi options given by a call. -/
def Call.hudi : Call → List (Str × Str)
  | .hudiOption k v => [(k, v)]
  | .hudiOptions l => l
  | _ => []

/-- The explicit storage options given by a call. -/
def Call.storage : Call → List (Str × Str)
  | .storageOption k v => [(k, v)]
  | .storageOptions l => l
  | _ => []

/-- The options of unspecified kind given by a call. -/
def Call.generic : Call → List (Str × Str)
  | .option k v => [(k, v)]
  | .options l => l
  | _ => []

/-- A hudi option by its name. -/
def HudiKey (k : Str) : Prop := ∃ r, k = c!"hoodie." ++ r

instance (k : Str) : Decidable (HudiKey k) :=
  decidable_of_iff (startsWith c!"hoodie." k = true) (by
    unfold startsWith HudiKey
    rw [List.isPrefixOf_iff_prefix]
    exact ⟨fun ⟨r, h⟩ => ⟨r, h.symm⟩, fun ⟨r, h⟩ => ⟨r, h.symm⟩⟩)

/-- An environment variable for a cloud storage. -/
def CloudVar (name : Str) : Prop :=
  ∃ r, name = c!"AWS_" ++ r ∨ name = c!"AZURE_" ++ r ∨ name = c!"GOOGLE_" ++ r

/-- The file holds the text. -/
def HoldsText (c : Content) (text : Str) : Prop := c = .text text ∨ c = .bytes (utf8Encode text)

/-- The directory of the global configuration: the environment variable `HUDI_CONF_DIR` if it is set, else
`/etc/hudi/conf`. -/
def ConfDir (vars : List (Str × Str)) (dir : Str) : Prop :=
  (∃ before after, vars = before ++ (c!"HUDI_CONF_DIR", dir) :: after ∧ ∀ e ∈ before, e.1 ≠ c!"HUDI_CONF_DIR") ∨
  ((∀ e ∈ vars, e.1 ≠ c!"HUDI_CONF_DIR") ∧ dir = c!"/etc/hudi/conf")

/-- The file of the global configuration: `hudi-defaults.conf` in that directory, whether or not the name of
the directory ends with a slash. -/
def ConfPath (vars : List (Str × Str)) (path : Str) : Prop :=
  ∃ dir, ConfDir vars dir ∧
    (((dir = [] ∨ ∃ d, dir = d ++ c!"/") ∧ path = dir ++ c!"hudi-defaults.conf") ∨
     ((dir ≠ [] ∧ ¬ ∃ d, dir = d ++ c!"/") ∧ path = dir ++ c!"/hudi-defaults.conf"))

/-- The global configuration gives the options; it is optional. -/
def GlobalOptions (w : World) (s : Storage) (f : Str → Option Str) : Prop :=
  ∃ path, ConfPath w.vars path ∧
  ((∃ c text, s.absolute path = some c ∧ HoldsText c text ∧ PropertiesOf c!" \t=" text f) ∨
   ((¬ ∃ c text, s.absolute path = some c ∧ HoldsText c text) ∧ ∀ k, f k = none))

/-- The table's own properties file gives the options. -/
def TableOptions (s : Storage) (f : Str → Option Str) : Prop :=
  ∃ size c text, s.tree.fileAt [c!".hoodie", c!"hoodie.properties"] = some (size, c) ∧ HoldsText c text ∧
    PropertiesOf c!"=" text f

/-- The value of an environment variable that provides the storage option: the first whose name is the
key in lower case. -/
def cloudVar (vars : List (Str × Str)) (k v : Str) : Prop :=
  ∃ before name after, vars = before ++ (name, v) :: after ∧ CloudVar name ∧ lower name = k ∧
    ∀ e ∈ before, CloudVar e.1 → lower e.1 ≠ k

end Hudi.Spec
