import Verif.Model.Time

/-!
# Instants

Models crates/core/src/timeline/instant.rs.
-/

namespace Hudi

/-- `Action` (crates/core/src/timeline/instant.rs:29-34). -/
inductive Action | commit | deltaCommit | replaceCommit
  deriving DecidableEq, Repr

/-- `Action::from_str` (crates/core/src/timeline/instant.rs:36-47). -/
def Action.fromStr (s : Str) : Res Action :=
  if s = c!"commit" then .ok .commit
  else if s = c!"deltacommit" then .ok .deltaCommit
  else if s = c!"replacecommit" then .ok .replaceCommit
  else .err .timeline

/-- `Action::as_ref` (crates/core/src/timeline/instant.rs:49-57). -/
def Action.str : Action → Str
  | .commit => c!"commit"
  | .deltaCommit => c!"deltacommit"
  | .replaceCommit => c!"replacecommit"

/-- `State` (crates/core/src/timeline/instant.rs:65-72). -/
inductive State | requested | inflight | completed
  deriving DecidableEq, Repr

/-- The derived order of `State` (crates/core/src/timeline/instant.rs:67). -/
def State.rank : State → Nat
  | .requested => 0
  | .inflight => 1
  | .completed => 2

/-- `State::from_str` (crates/core/src/timeline/instant.rs:74-88). -/
def State.fromStr (s : Str) : Res State :=
  if s = c!"requested" then .ok .requested
  else if s = c!"inflight" then .ok .inflight
  else if s = [] then .ok .completed
  else .err .timeline

/-- `State::as_ref` (crates/core/src/timeline/instant.rs:90-98). -/
def State.str : State → Str
  | .requested => c!"requested"
  | .inflight => c!"inflight"
  | .completed => []

/-- `Instant` (crates/core/src/timeline/instant.rs:100-108). -/
structure Instant where
  timestamp : Str
  action : Action
  state : State
  epochMillis : Int
  deriving DecidableEq, Repr

/-- `impl Ord for Instant` (crates/core/src/timeline/instant.rs:116-122): time, then state; the
action and the timestamp text are not compared. -/
def Instant.cmp (a b : Instant) : Ordering :=
  (compare a.epochMillis b.epochMillis).then (compare a.state.rank b.state.rank)

/-- `a <= b` for instants. Used at crates/core/src/timeline/instant.rs:110-124. -/
def Instant.le (a b : Instant) : Bool := (a.cmp b).isLE

/-- `Instant::validate_timestamp` (crates/core/src/timeline/instant.rs:150-158). -/
def validateTimestamp (ts : Str) : Res Unit :=
  if byteLen ts = 14 ∨ byteLen ts = 17 then .ok () else .err .timeline

/-- `Instant::parse_action_and_state` (crates/core/src/timeline/instant.rs:192-202). -/
def parseActionAndState (suffix : Str) : Res (Action × State) :=
  match splitOnce '.' suffix with
  | some (a, s) => do
    let action ← Action.fromStr a
    let state ← State.fromStr s
    return (action, state)
  | none =>
    if suffix = c!"inflight" then .ok (.commit, .inflight)
    else do
      let action ← Action.fromStr suffix
      return (action, .completed)

/-- `Instant::try_from_file_name_and_timezone` (crates/core/src/timeline/instant.rs:134-148);
`Instant::from_str` is this with timezone `"UTC"` (lines 124-131). -/
def Instant.fromFileName (ltz : LocalTz) (fileName tz : Str) : Res Instant := do
  let (ts, suffix) ← Res.ofOption .timeline (splitOnce '.' fileName)
  validateTimestamp ts
  let dt ← parseDatetime ltz ts tz
  let (action, state) ← parseActionAndState suffix
  return { timestamp := ts, action := action, state := state, epochMillis := dt.epochMillis }

/-- `Instant::file_name` (crates/core/src/timeline/instant.rs:204-217). -/
def Instant.fileName (i : Instant) : Str :=
  match i.action, i.state with
  | _, .completed => i.timestamp ++ c!"." ++ i.action.str
  | .commit, .inflight => i.timestamp ++ c!"." ++ i.state.str
  | _, _ => i.timestamp ++ c!"." ++ i.action.str ++ c!"." ++ i.state.str

/-- `HUDI_METADATA_DIR` (crates/core/src/metadata/mod.rs:21). -/
def hudiMetadataDir : Str := c!".hoodie"

/-- Rust's `PathBuf::push` of a relative name (std::path, Unix): a separator is added unless the
path is empty or already ends with one; an absolute name replaces the path.
Used at crates/core/src/timeline/instant.rs:219-223. -/
def pathPush (p name : Str) : Str :=
  match name with
  | '/' :: _ => name
  | _ => if p = [] ∨ p.getLast? = some '/' then p ++ name else p ++ c!"/" ++ name

/-- `Instant::relative_path` (crates/core/src/timeline/instant.rs:219-230).  `to_str` cannot fail
on a path built from strings. -/
def Instant.relativePath (i : Instant) : Str := pathPush hudiMetadataDir i.fileName

end Hudi
