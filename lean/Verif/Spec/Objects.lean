import Verif.Spec.Store
import Verif.Spec.Log

/-!
# Specification: an object store and the requests of writers

The model's reader sees a directory tree.  A writer sees objects with paths: it puts, extends and deletes them.
-/

namespace Hudi.Spec

/-- What is stored under a path: a file, or a log file with its blocks. -/
inductive Stored
  | file (c : Content)
  | log (ws : List WBlock)

/-- The content that readers find. -/
def Stored.content : Stored → Content
  | .file c => c
  | .log ws => .bytes (logBytes ws)

/-- The blocks of a log file. -/
def Stored.blocks : Stored → List WBlock
  | .file _ => []
  | .log ws => ws

/-- The objects of a store. -/
abbrev Objects := List (List Str × Stored)

/-- What is stored under the path. -/
def Objects.get (s : Objects) (p : List Str) : Option Stored :=
  (s.find? (fun e => decide (e.1 = p))).map Prod.snd

/-- A request of a writer: put an object, replacing what is there; append blocks to a log file, creating it if
need be; delete an object.  Each is atomic. -/
inductive Request
  | put (path : List Str) (c : Content)
  | append (path : List Str) (ws : List WBlock)
  | delete (path : List Str)

/-- The path of a request. -/
def Request.path : Request → List Str
  | .put p _ => p
  | .append p _ => p
  | .delete p => p

/-- What is under the path of the request afterwards, given what was there. -/
def Request.result : Request → Option Stored → Option Stored
  | .put _ c, _ => some (.file c)
  | .append _ ws, old => some (.log ((old.elim [] Stored.blocks) ++ ws))
  | .delete _, _ => none

/-- The store after a request. -/
def Request.run (q : Request) (s : Objects) : Objects :=
  s.filter (fun e => decide (e.1 ≠ q.path)) ++ ((q.result (s.get q.path)).map (fun x => (q.path, x))).toList

/-- Put a file into a directory. -/
def addFile (n : Str) (c : Content) : Tree → Tree
  | .nil => .file n 1 c .nil
  | .file n' s c' rest => if n' = n then .file n 1 c rest else .file n' s c' (addFile n c rest)
  | .dir d sub rest => .dir d sub (addFile n c rest)

/-- Change a subdirectory, creating it if need be. -/
def inDir (d : Str) (f : Tree → Tree) : Tree → Tree
  | .nil => .dir d (f .nil) .nil
  | .file n s c rest => .file n s c (inDir d f rest)
  | .dir d' sub rest => if d' = d then .dir d (f sub) rest else .dir d' sub (inDir d f rest)

/-- Put a file at a path. -/
def addAt : List Str → Content → Tree → Tree
  | [], _, t => t
  | [n], c, t => addFile n c t
  | d :: n :: ns, c, t => inDir d (addAt (n :: ns) c) t

/-- The directory tree that shows the objects.  As in an object store, there are no empty directories.  The sizes of
files, which do not matter for what is read, are all 1. -/
def treeOf : Objects → Tree
  | [] => .nil
  | e :: s => addAt e.1 e.2.content (treeOf s)

end Hudi.Spec
