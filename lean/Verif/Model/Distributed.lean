import Verif.Model.TableBuilder
import Verif.Model.Python

/-!
# File group readers of their own

Models the constructors of crates/core/src/file_group/reader.rs and
`Table::create_file_group_reader_with_options`: a reader connects to a storage of its own, with the
options it is given.
-/

namespace Hudi

/-- `FileGroupReader` (crates/core/src/file_group/reader.rs:39-43). -/
structure FgReader where
  opts : Opts
  storage : Storage

/-- `FileGroupReader::new_with_configs_and_options` (crates/core/src/file_group/reader.rs:47-67). -/
def FgReader.newWithConfigs (w : World) (configs : Opts) (options : List (Str × Str)) : Res FgReader := do
  let s ← w.storage (splitHudiOptions options).2 (readerOpts configs options)
  return ⟨readerOpts configs options, s⟩

/-- `FileGroupReader::new_with_options` (crates/core/src/file_group/reader.rs:74-86), and
`HudiFileGroupReader::new` (python/src/internal.rs:71-77). -/
def FgReader.newWithOptions (w : World) (uri : Str) (options : List (Str × Str)) : Res FgReader :=
  FgReader.newWithConfigs w [(Cfg.basePath.key, uri)] options

/-- `Table::create_file_group_reader_with_options` (crates/core/src/table/mod.rs:383-403). -/
def Table.createReader (w : World) (tb : Table) (options : List (Str × Str)) : Res FgReader :=
  FgReader.newWithConfigs w tb.opts (hmExtend tb.storageOpts options)

/-- `FileGroupReader::read_file_slice` (crates/core/src/file_group/reader.rs:194-227). -/
def FgReader.readSlice (C : Codec) (A : Arrow) (M : MergeEnv A) (ltz : LocalTz) (r : FgReader)
    (s : FileSlice) : Res Batch :=
  readFileSlice C A M ltz r.opts r.storage.tree s

/-- `HudiFileGroupReader::read_file_slice` (python/src/internal.rs:88-112). -/
def FgReader.readDescribed (C : Codec) (A : Arrow) (M : MergeEnv A) (ltz : LocalTz) (r : FgReader)
    (d : PySlice) : Res Batch :=
  d.read C A M ltz r.opts r.storage.tree

end Hudi
