import Verif.Model.Data

/-!
# Storage

Models crates/core/src/storage/{mod,util,file_metadata}.rs over a directory tree.  A store is a
snapshot of the object store below the table's base path.  I/O errors other than "not found" and
"not a readable file of the expected kind" are in `Model/Faults`.
-/

namespace Hudi

/-- A JSON value (`serde_json::Value`); the entries of an object are in iteration order and have
distinct keys. Used at crates/core/src/timeline/mod.rs:198-212. -/
inductive Json
  | null
  | bool (b : Bool)
  | num (n : Int)
  | str (s : Str)
  | arr (l : List Json)
  | obj (l : List (Str × Json))
  deriving Repr

/-- What a file contains, as far as the modelled code can tell: a JSON document, a text, a parquet
file, raw bytes, or something no reader accepts.  Of a parquet file: the total byte size of its row groups;
its rows, with the Arrow columns that readers give them; and the Arrow columns that follow from its own
columns alone, which are others if the writer embedded an Arrow schema that says so.
Used at crates/core/src/storage/mod.rs:168-215. -/
inductive Content
  | json (j : Json)
  | text (s : Str)
  | parquet (byteSize : Int) (b : Batch) (footer : Schema := b.schema)
  | bytes (l : List UInt8)
  | junk
  deriving Repr

/-- The entries of a directory, in listing order.
Used at crates/core/src/storage/mod.rs:217-256. -/
inductive Tree
  | nil
  | file (name : Str) (size : Nat) (c : Content) (rest : Tree)
  | dir (name : Str) (sub : Tree) (rest : Tree)
  deriving Repr

/-- `FileMetadata` (crates/core/src/storage/file_metadata.rs:21-37). -/
structure FileMeta where
  name : Str
  size : Nat
  byteSize : Int
  numRecords : Int
  full : Bool
  deriving DecidableEq, Repr

/-- `FileMetadata::new` (crates/core/src/storage/file_metadata.rs:39-48). -/
def FileMeta.new (name : Str) (size : Nat) : FileMeta :=
  { name := name, size := size, byteSize := 0, numRecords := 0, full := false }

/-- The characters that the url crate leaves out wherever they occur in its input: tabs and line breaks.
Used at crates/core/src/storage/util.rs:57. -/
def urlDrops (c : Char) : Bool := c = '\t' || c = '\n' || c = '\r'

/-- What the url crate takes a path segment for. Used at crates/core/src/storage/util.rs:57. -/
def urlSegment (s : Str) : Str := s.filter (fun c => !urlDrops c)

/-- `join_url_segments` (crates/core/src/storage/util.rs:47-61) followed by
`ObjPath::from_url_path`: the segments of a relative path below the base path.  Empty segments are
dropped by the code, `.` and `..` by the `url` crate; percent-encoding by `url` and decoding by
`object_store` cancel out.  Simplified: segments that are empty or dots once their tabs and line breaks
are left out are dropped here as well, and a path with another control character, which `object_store`
rejects with an error, is here the path of something that does not exist. -/
def pathSegs (p : Str) : List Str :=
  ((splitAll '/' p).map urlSegment).filter
    (fun s => decide (s ≠ []) && decide (s ≠ c!".") && decide (s ≠ c!".."))

/-- The files directly in a directory, with their sizes.
Used at crates/core/src/storage/mod.rs:240-256. -/
def Tree.files : Tree → List (Str × Nat)
  | .nil => []
  | .file n s _ rest => (n, s) :: rest.files
  | .dir _ _ rest => rest.files

/-- The names of the directories directly in a directory.
Used at crates/core/src/storage/mod.rs:217-238. -/
def Tree.dirs : Tree → List Str
  | .nil => []
  | .file _ _ _ rest => rest.dirs
  | .dir n _ rest => n :: rest.dirs

/-- The subdirectory with the given name; missing directories are empty.
Used at crates/core/src/storage/mod.rs:217-256. -/
def Tree.sub (n : Str) : Tree → Tree
  | .nil => .nil
  | .file _ _ _ rest => rest.sub n
  | .dir n' t rest => if n' = n then t else rest.sub n

/-- The subdirectory at the given path; missing directories are empty (`object_store` lists a
missing prefix as empty). Used at crates/core/src/storage/mod.rs:217-256. -/
def Tree.at : List Str → Tree → Tree
  | [], t => t
  | s :: ss, t => (t.sub s).at ss

/-- The file with the given name directly in a directory.
Used at crates/core/src/storage/mod.rs:168-215. -/
def Tree.file? (n : Str) : Tree → Option (Nat × Content)
  | .nil => none
  | .file n' s c rest => if n' = n then some (s, c) else rest.file? n
  | .dir _ _ rest => rest.file? n

/-- The file at the given path. Used at crates/core/src/storage/mod.rs:168-215. -/
def Tree.fileAt : List Str → Tree → Option (Nat × Content)
  | [], _ => none
  | [n], t => t.file? n
  | s :: s' :: ss, t => (t.sub s).fileAt (s' :: ss)

/-- `Storage::list_files` (crates/core/src/storage/mod.rs:240-256). -/
def listFiles (t : Tree) (subdir : Str) : List FileMeta :=
  (t.at (pathSegs subdir)).files.map (fun e => FileMeta.new e.1 e.2)

/-- `Storage::list_dirs` (crates/core/src/storage/mod.rs:217-238). -/
def listDirs (t : Tree) (subdir : Str) : List Str := (t.at (pathSegs subdir)).dirs

/-- The object at a relative path, `Storage::get_file_data` and friends
(crates/core/src/storage/mod.rs:168-174); missing files are storage errors. -/
def getFile (t : Tree) (path : Str) : Res (Nat × Content) :=
  Res.ofOption .storage (t.fileAt (pathSegs path))

/-- `Storage::get_parquet_file_schema` (crates/core/src/storage/mod.rs:146-166); an embedded Arrow schema is
not looked at (`parquet_to_arrow_schema` with `None`). -/
def getParquetSchema (t : Tree) (path : Str) : Res Schema := do
  match (← getFile t path).2 with
  | .parquet _ _ footer => .ok footer
  | _ => .err .storage

/-- `Storage::get_parquet_file_data` (crates/core/src/storage/mod.rs:183-205).  The batches of one
parquet file share its schema, so concatenating them yields all the rows in file order. -/
def getParquetData (t : Tree) (path : Str) : Res Batch := do
  match (← getFile t path).2 with
  | .parquet _ b _ => .ok b
  | _ => .err .storage

/-- `Storage::get_file_metadata` (crates/core/src/storage/mod.rs:119-145). -/
def getFileMetadata (t : Tree) (path : Str) : Res FileMeta := do
  let segs := pathSegs path
  match ← getFile t path with
  | (size, .parquet byteSize b _) =>
    let name ← Res.ofOption .storage segs.getLast?
    return { name := name, size := size, byteSize := byteSize, numRecords := b.rows.length,
             full := true }
  | _ => .err .storage

end Hudi
