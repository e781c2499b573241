import Verif.Base.Utf8
import Verif.Model.Table
import Verif.Model.Merge

/-!
# Opening a table

Models crates/core/src/table/builder.rs.
-/

namespace Hudi

/-- `TableBuilder` (crates/core/src/table/builder.rs:46-51). -/
structure TableBuilder where
  baseUri : Str
  hudiOptions : Opts
  storageOptions : Opts
  options : Opts
  deriving DecidableEq, Repr

/-- `TableBuilder::from_base_uri` (crates/core/src/table/builder.rs:98-105). -/
def TableBuilder.fromBaseUri (uri : Str) : TableBuilder := ⟨uri, [], [], []⟩

/-- `with_hudi_option` (crates/core/src/table/builder.rs:60-67, generated by a macro). -/
def TableBuilder.withHudiOption (b : TableBuilder) (k v : Str) : TableBuilder :=
  { b with hudiOptions := hmInsert k v b.hudiOptions }

/-- `with_hudi_options` (crates/core/src/table/builder.rs:71-79, generated by a macro). -/
def TableBuilder.withHudiOptions (b : TableBuilder) (l : List (Str × Str)) : TableBuilder :=
  { b with hudiOptions := hmExtend b.hudiOptions l }

/-- `with_storage_option` (crates/core/src/table/builder.rs:60-67, generated by a macro). -/
def TableBuilder.withStorageOption (b : TableBuilder) (k v : Str) : TableBuilder :=
  { b with storageOptions := hmInsert k v b.storageOptions }

/-- `with_storage_options` (crates/core/src/table/builder.rs:71-79, generated by a macro). -/
def TableBuilder.withStorageOptions (b : TableBuilder) (l : List (Str × Str)) : TableBuilder :=
  { b with storageOptions := hmExtend b.storageOptions l }

/-- `with_option` (crates/core/src/table/builder.rs:60-67, generated by a macro). -/
def TableBuilder.withOption (b : TableBuilder) (k v : Str) : TableBuilder :=
  { b with options := hmInsert k v b.options }

/-- `with_options` (crates/core/src/table/builder.rs:71-79, generated by a macro). -/
def TableBuilder.withOptions (b : TableBuilder) (l : List (Str × Str)) : TableBuilder :=
  { b with options := hmExtend b.options l }

/-- `extend_if_absent` (crates/core/src/table/builder.rs:285-293). -/
def extendIfAbsent (target source : Opts) : Opts :=
  source.foldl (fun m e => hmInsertIfAbsent e.1 e.2 m) target

/-- `resolve_user_provided_options` (crates/core/src/table/builder.rs:153-167). -/
def TableBuilder.resolveUserProvided (b : TableBuilder) : TableBuilder :=
  let hudi := hmInsert Cfg.basePath.key b.baseUri b.hudiOptions
  let generic := splitHudiOptions b.options
  { b with
    hudiOptions := extendIfAbsent hudi generic.1
    storageOptions := extendIfAbsent b.storageOptions generic.2 }

/-- `Storage::CLOUD_STORAGE_PREFIXES` (crates/core/src/storage/mod.rs:60). -/
def cloudPrefixes : List Str := [c!"AWS_", c!"AZURE_", c!"GOOGLE_"]

/-- `resolve_cloud_env_vars` (crates/core/src/table/builder.rs:169-179).  `vars` are the environment
variables in the order of `env::vars()`, all of them valid Unicode (the code panics otherwise). -/
def resolveCloudEnvVars (vars : List (Str × Str)) (storage : Opts) : Opts :=
  vars.foldl
    (fun m e =>
      if cloudPrefixes.any (fun p => startsWith p e.1) = true ∧ hmContains (lower e.1) m = false then
        hmInsert (lower e.1) e.2 m
      else m)
    storage

/-- An opened storage, `Storage` (crates/core/src/storage/mod.rs:50-57): the files below the base
path, and the files of the same object store by absolute path. -/
structure Storage where
  tree : Tree
  absolute : Str → Option Content

/-- What opening a table depends on besides the builder: the environment variables, and the storage
that `Storage::new` (crates/core/src/storage/mod.rs:62-85) connects to for given storage options and a
base path (an error for an invalid uri or unusable options). -/
structure World where
  vars : List (Str × Str)
  connect : Opts → Str → Res Storage

/-- `Storage::new` (crates/core/src/storage/mod.rs:62-85): the base path is required. -/
def World.storage (w : World) (storageOpts hudiOpts : Opts) : Res Storage :=
  match Cfg.basePath.tryGet hudiOpts with
  | none => .err .storage
  | some v => do w.connect storageOpts (← v.toStr)

/-- `parse_data_for_options` (crates/core/src/config/util.rs:55-80) on the content of a file: bytes
that are not UTF-8 are an error.  (`BufRead::lines` decodes each line; a line break is never part of
another character, so that decoding the whole first is the same.)  Documents of other kinds are no
options files and are reported as errors in the model. -/
def parseContentForOptions (c : Content) (seps : Str) : Res Opts :=
  match c with
  | .text s => .ok (parseDataForOptions s seps)
  | .bytes l => do return parseDataForOptions (← Res.ofOption .config (utf8Decode l)) seps
  | _ => .err .config

/-- `imbue_table_properties` (crates/core/src/table/builder.rs:198-212). -/
def imbueTableProperties (o : Opts) (s : Storage) : Res Opts := do
  let c ← getFile s.tree c!".hoodie/hoodie.properties"
  let props ← parseContentForOptions c.2 c!"="
  return hmExtend o props

/-- `PathBuf::join` (std) with a relative file name.
Used at crates/core/src/table/builder.rs:221. -/
def pathJoin (dir name : Str) : Str :=
  if dir = [] ∨ dir.getLast? = some '/' then dir ++ name else dir ++ c!"/" ++ name

/-- The path of the global configuration (crates/core/src/table/builder.rs:218-221). -/
def globalConfigPath (vars : List (Str × Str)) : Str :=
  pathJoin ((hmGet c!"HUDI_CONF_DIR" vars).getD c!"/etc/hudi/conf") c!"hudi-defaults.conf"

/-- `imbue_global_hudi_configs_if_absent` (crates/core/src/table/builder.rs:214-237): a missing or
unreadable file is ignored. -/
def imbueGlobalConfigs (w : World) (o : Opts) (s : Storage) : Opts :=
  match s.absolute (globalConfigPath w.vars) with
  | none => o
  | some c =>
    match parseContentForOptions c c!" \t=" with
    | .ok global =>
      global.foldl
        (fun m e =>
          if startsWith c!"hoodie." e.1 = true ∧ hmContains e.1 m = false then hmInsert e.1 e.2 m else m)
        o
    | _ => o

/-- `resolve_hudi_options` (crates/core/src/table/builder.rs:181-196). -/
def resolveHudiOptions (w : World) (b : TableBuilder) : Res TableBuilder := do
  let s ← w.storage b.storageOptions b.hudiOptions
  let o ← imbueTableProperties b.hudiOptions s
  return { b with hudiOptions := imbueGlobalConfigs w o s }

/-- `resolve_options` (crates/core/src/table/builder.rs:141-151). -/
def TableBuilder.resolveOptions (w : World) (b : TableBuilder) : Res TableBuilder :=
  let b := b.resolveUserProvided
  resolveHudiOptions w { b with storageOptions := resolveCloudEnvVars w.vars b.storageOptions }

/-- A `ConfigError` as a `CoreError` (crates/core/src/error.rs).
Used at crates/core/src/error.rs:34. -/
def Res.ofCfg {α : Type} : Except CfgErr α → Res α
  | .ok a => .ok a
  | .error _ => .err .config

/-- `validate_configs` (crates/core/src/table/builder.rs:239-283). -/
def validateConfigs (o : Opts) : Res Unit := do
  if ← (← Cfg.skipConfigValidation.getOrDefault o).toBool then .ok ()
  else
    let _ ← Res.mapL (fun c => Res.ofCfg (c.validate o)) tableConfigs
    let _ ← Res.mapL (fun c => Res.ofCfg (c.validate o)) readConfigs
    let version ← (← Res.ofCfg (Cfg.tableVersion.get o)).toIsize
    if ¬ (5 ≤ version ∧ version ≤ 6) then .err .unsupported
    else
      let layout ← (← Res.ofCfg (Cfg.timelineLayoutVersion.get o)).toIsize
      if layout ≠ 1 then .err .unsupported
      else if ← (← Cfg.dropsPartitionFields.getOrDefault o).toBool then .err .unsupported
      else Res.ofCfg (← mergeValidate o)

/-- `Result::expect` (std). Used at crates/core/src/table/builder.rs:112. -/
def Res.expect {α : Type} : Res α → Res α
  | .ok a => .ok a
  | _ => .panic

/-- `TableBuilder::build` (crates/core/src/table/builder.rs:107-129); the storage is opened again, with
the resolved options, by the timeline and the file system view (timeline/mod.rs:73, fs_view.rs:48). -/
def TableBuilder.build (E : Env) (w : World) (b : TableBuilder) : Res Table := do
  let b ← b.resolveOptions w
  let o := hmOfList b.hudiOptions
  let _ ← (validateConfigs o).expect
  let s ← w.storage b.storageOptions o
  let timeline ← Timeline.load E o s.tree
  let _ ← w.storage b.storageOptions o
  return { opts := o, storageOpts := b.storageOptions, timeline := timeline }

/-- What `TableBuilder::build`, which takes `&mut self`, leaves behind in the builder
(crates/core/src/table/builder.rs:107-129, 141-196, 198-237): the resolved options, without those of the table's
properties file and of the global configuration if the storage or the properties file cannot be opened or read. -/
def TableBuilder.afterBuild (w : World) (b : TableBuilder) : TableBuilder :=
  let b' := { b.resolveUserProvided with
    storageOptions := resolveCloudEnvVars w.vars b.resolveUserProvided.storageOptions }
  match resolveHudiOptions w b' with
  | .ok b'' => b''
  | _ => b'

/-- `Table::new_with_options` (crates/core/src/table/mod.rs:128-138). -/
def Table.newWithOptions (E : Env) (w : World) (uri : Str) (options : List (Str × Str)) : Res Table :=
  ((TableBuilder.fromBaseUri uri).withOptions options).build E w

/-- `Table::new` (crates/core/src/table/mod.rs:123-125). -/
def Table.new (E : Env) (w : World) (uri : Str) : Res Table := (TableBuilder.fromBaseUri uri).build E w

/-- `Table::hudi_options` (crates/core/src/table/mod.rs:140-142). -/
def Table.hudiOptions (tb : Table) : Opts := tb.opts

/-- `Table::storage_options` (crates/core/src/table/mod.rs:144-146). -/
def Table.storageOptions (tb : Table) : Opts := tb.storageOpts

/-- `Table::table_name` (crates/core/src/table/mod.rs:170-176). -/
def Table.tableName (tb : Table) : Res Str := do
  (← (Res.ofCfg (Cfg.tableName.get tb.opts)).expect).toStr

/-- `Table::table_type` (crates/core/src/table/mod.rs:178-184). -/
def Table.tableType (tb : Table) : Res Str := do
  (← (Res.ofCfg (Cfg.tableType.get tb.opts)).expect).toStr

/-- `Table::is_mor` (crates/core/src/table/mod.rs:186-188). -/
def Table.isMor (tb : Table) : Res Bool := do
  return decide ((← tb.tableType) = c!"MERGE_ON_READ")

/-- `Table::timezone` (crates/core/src/table/mod.rs:190-194). -/
def Table.timezone (tb : Table) : Res Str := timezoneOf tb.opts

end Hudi
