import Verif.Model.Config
import Verif.Model.Instant

/-!
# Selecting instants

Models crates/core/src/timeline/selector.rs.
-/

namespace Hudi

/-- What the model leaves arbitrary about the process and the libraries: the local time zone and
the placement of equal elements by `sort_unstable` (std), which is any function returning a sorted
permutation of its input. Used at crates/core/src/timeline/mod.rs:113. -/
structure Env where
  ltz : LocalTz
  sort : List Instant → List Instant
  sort_perm : ∀ l, (sort l).Perm l
  sort_sorted : ∀ l, (sort l).Pairwise (fun a b => Instant.le a b = true)

/-- `InstantRange` (crates/core/src/timeline/selector.rs:28-36). -/
structure InstantRange where
  timezone : Str
  start : Option Str
  stop : Option Str
  startInclusive : Bool
  endInclusive : Bool
  deriving DecidableEq, Repr

/-- `InstantRange::up_to` (crates/core/src/timeline/selector.rs:55-64). -/
def InstantRange.upTo (stop tz : Str) : InstantRange := ⟨tz, none, some stop, false, true⟩

/-- `InstantRange::within` (crates/core/src/timeline/selector.rs:66-75). -/
def InstantRange.within (start stop tz : Str) : InstantRange :=
  ⟨tz, some start, some stop, false, false⟩

/-- `InstantRange::within_open_closed` (crates/core/src/timeline/selector.rs:77-86). -/
def InstantRange.withinOpenClosed (start stop tz : Str) : InstantRange :=
  ⟨tz, some start, some stop, false, true⟩

/-- `Option<&str>` timestamps parsed with `transpose` (crates/core/src/timeline/selector.rs:92-104,
155-159). -/
def parseOpt (ltz : LocalTz) (tz : Str) : Option Str → Res (Option DateTime)
  | none => .ok none
  | some ts => do return some (← parseDatetime ltz ts tz)

/-- The check against the start in `is_in_range` (crates/core/src/timeline/selector.rs:108-116). -/
def InstantRange.startOk (r : InstantRange) (t : DateTime) : Option DateTime → Bool
  | none => true
  | some s => if r.startInclusive then !(t.lt s) else !(t.le s)

/-- The check against the end in `is_in_range` (crates/core/src/timeline/selector.rs:118-126). -/
def InstantRange.endOk (r : InstantRange) (t : DateTime) : Option DateTime → Bool
  | none => true
  | some e => if r.endInclusive then !(e.lt t) else !(e.le t)

/-- `InstantRange::is_in_range` (crates/core/src/timeline/selector.rs:106-129).  The end is parsed
only when the start check passed. -/
def InstantRange.isInRange (ltz : LocalTz) (r : InstantRange) (ts tz : Str) : Res Bool := do
  let t ← parseDatetime ltz ts tz
  let s ← parseOpt ltz r.timezone r.start
  if r.startOk t s = false then return false
  else
    let e ← parseOpt ltz r.timezone r.stop
    return r.endOk t e

/-- `InstantRange::not_in_range` (crates/core/src/timeline/selector.rs:131-133). -/
def InstantRange.notInRange (ltz : LocalTz) (r : InstantRange) (ts tz : Str) : Res Bool := do
  return !(← r.isInRange ltz ts tz)

/-- `TimelineSelector` (crates/core/src/timeline/selector.rs:136-145). -/
structure Selector where
  timezone : Str
  start : Option DateTime
  stop : Option DateTime
  states : List State
  actions : List Action
  deriving DecidableEq, Repr

/-- `TimelineSelector::completed_actions_in_range`
(crates/core/src/timeline/selector.rs:161-178). -/
def completedActionsInRange (ltz : LocalTz) (actions : List Action) (o : Opts)
    (start stop : Option Str) : Res Selector := do
  let tz ← timezoneOf o
  let s ← parseOpt ltz tz start
  let e ← parseOpt ltz tz stop
  return { timezone := tz, start := s, stop := e, states := [.completed], actions := actions }

/-- `should_include_action` (crates/core/src/timeline/selector.rs:204-206). -/
def Selector.includesAction (s : Selector) (a : Action) : Bool :=
  s.actions.isEmpty || s.actions.contains a

/-- `should_include_state` (crates/core/src/timeline/selector.rs:208-210). -/
def Selector.includesState (s : Selector) (st : State) : Bool :=
  s.states.isEmpty || s.states.contains st

/-- `TimelineSelector::try_create_instant` (crates/core/src/timeline/selector.rs:212-258). -/
def Selector.tryCreateInstant (ltz : LocalTz) (s : Selector) (fileName : Str) : Res Instant := do
  let (ts, suffix) ← Res.ofOption .timeline (splitOnce '.' fileName)
  let (action, state) ← parseActionAndState suffix
  if s.includesAction action = false then .err .timeline
  else if s.includesState state = false then .err .timeline
  else
    let dt ← parseDatetime ltz ts s.timezone
    if s.start.any (fun b => dt.lt b) then .err .timeline
    else if s.stop.any (fun b => b.le dt) then .err .timeline
    else
      return { timestamp := ts, action := action, state := state, epochMillis := dt.epochMillis }

/-- The loop of `slice::binary_search_by` (std, since Rust 1.82) for a comparison that answers "less" on
the elements that satisfy `p` and "greater" on the others; `fuel` bounds the number of iterations.
Used at crates/core/src/timeline/selector.rs:268-282. -/
def bisect {α : Type} (p : α → Bool) (l : List α) : Nat → Nat → Nat → Nat
  | 0, base, _ => base
  | fuel + 1, base, size =>
    if size ≤ 1 then base
    else
      let half := size / 2
      let mid := base + half
      bisect p l fuel (if (l[mid]?).any p then mid else base) (size - half)

/-- `slice::partition_point` (std): a binary search, which finds the end of the elements that satisfy
the predicate when those come first. Used at crates/core/src/timeline/selector.rs:268-282. -/
def partitionPoint {α : Type} (p : α → Bool) (l : List α) : Nat :=
  if l = [] then 0
  else
    let base := bisect p l l.length 0 l.length
    if (l[base]?).any p then base + 1 else base

/-- `TimelineSelector::select` (crates/core/src/timeline/selector.rs:263-302).  It never fails; the
`Result` of the code is always `Ok`. -/
def Selector.select (s : Selector) (completed : List Instant) : List Instant :=
  let pruned := match s.start with
    | some b =>
      let startPos := partitionPoint (fun i : Instant => decide (i.epochMillis ≤ b.epochMillis)) completed
      match s.stop with
      | some e =>
        let endPos := partitionPoint (fun i : Instant => decide (i.epochMillis ≤ e.epochMillis))
          (completed.drop startPos)
        (completed.drop startPos).take endPos
      | none => completed.drop startPos
    | none =>
      match s.stop with
      | some e =>
        completed.take (partitionPoint (fun i : Instant => decide (i.epochMillis ≤ e.epochMillis)) completed)
      | none => completed
  pruned.filter (fun i => s.includesAction i.action && s.includesState i.state)

end Hudi
