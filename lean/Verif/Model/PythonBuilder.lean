import Verif.Model.TableBuilder

/-!
# The Python builder of tables

Models python/hudi/table/builder.py and `build_hudi_table` of python/src/internal.rs.
-/

namespace Hudi

/-- `HudiTableBuilder` (python/hudi/table/builder.py:23-38): three dictionaries. -/
structure PyBuilder where
  baseUri : Str
  hudiOptions : Opts
  storageOptions : Opts
  options : Opts
  deriving DecidableEq, Repr

/-- `from_base_uri` (python/hudi/table/builder.py:40-52). -/
def PyBuilder.fromBaseUri (uri : Str) : PyBuilder := ⟨uri, [], [], []⟩

/-- `with_hudi_option` and `_add_options` (python/hudi/table/builder.py:54-72). -/
def PyBuilder.withHudiOption (b : PyBuilder) (k v : Str) : PyBuilder :=
  { b with hudiOptions := hmExtend b.hudiOptions [(k, v)] }

/-- `with_hudi_options` (python/hudi/table/builder.py:74-85). -/
def PyBuilder.withHudiOptions (b : PyBuilder) (l : List (Str × Str)) : PyBuilder :=
  { b with hudiOptions := hmExtend b.hudiOptions l }

/-- `with_storage_option` (python/hudi/table/builder.py:87-99). -/
def PyBuilder.withStorageOption (b : PyBuilder) (k v : Str) : PyBuilder :=
  { b with storageOptions := hmExtend b.storageOptions [(k, v)] }

/-- `with_storage_options` (python/hudi/table/builder.py:101-114). -/
def PyBuilder.withStorageOptions (b : PyBuilder) (l : List (Str × Str)) : PyBuilder :=
  { b with storageOptions := hmExtend b.storageOptions l }

/-- `with_option` (python/hudi/table/builder.py:116-128). -/
def PyBuilder.withOption (b : PyBuilder) (k v : Str) : PyBuilder :=
  { b with options := hmExtend b.options [(k, v)] }

/-- `with_options` (python/hudi/table/builder.py:130-141). -/
def PyBuilder.withOptions (b : PyBuilder) (l : List (Str × Str)) : PyBuilder :=
  { b with options := hmExtend b.options l }

/-- `build_hudi_table` (python/src/internal.rs:584-602).  The dictionaries arrive as hash maps, the
entries of which are gone through in any order. -/
def buildHudiTable (E : Env) (w : World) (uri : Str) (hudi storage options : List (Str × Str)) : Res Table :=
  ((((TableBuilder.fromBaseUri uri).withHudiOptions hudi).withStorageOptions storage).withOptions options).build E w

end Hudi
