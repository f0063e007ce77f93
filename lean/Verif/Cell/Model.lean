import Verif.Arena.Model
/-!
# ReactiveCell

Model of `async_ui_internal_utils/src/reactive_cell/`. `none` is a panic. A waker is the number of a
task (`some t`), or the dummy waker (`none`). Versions do not overflow `u64`.

The cell is used by any number of listeners (`until_change`) and by one `for_each` future, and
borrowed from outside.
-/
namespace Verif.Cell
open Verif.Arena (Arena)

abbrev Waker := Option Nat

/-- `Inner` (mod.rs 73-77) and the borrow flag of the `RefCell` around it. -/
structure Inner (V : Type) where
  data : V
  listeners : Arena Waker
  version : Nat
  /-- a `RefMut` exists -/
  writing : Bool
  /-- number of `Ref`s -/
  readers : Nat

/-- `SUBLIST`, mod.rs 79. -/
def SUBLIST : Nat := 1

/-- `UntilChangeFuture`, until_change.rs 19-23. -/
structure Listener where
  lastVersion : Nat
  slot : Nat
deriving DecidableEq

section
variable {V : Type}

/-- `RefCell::borrow_mut` succeeds. -/
def Inner.free (c : Inner V) : Bool := !c.writing && c.readers == 0

/-- `ReactiveCell::new`, mod.rs 82-91. -/
def Inner.new (v : V) : Option (Inner V) := do
  let (listeners, _) ← Arena.addSublist none (Arena.new none)
  return ⟨v, listeners, 1, false, 0⟩

/-- `until_change`, until_change.rs 10-16. -/
def untilChange (c : Inner V) : Option (Inner V × Listener) :=
  if c.free then do
    let (a, slot) ← Arena.add none c.listeners SUBLIST
    return ({ c with listeners := a }, ⟨0, slot⟩)
  else none

/-- `poll_next`, until_change.rs 28-45 (also `poll`, 50-55). The boolean is `is_ready`. -/
def pollNext (c : Inner V) (l : Listener) (w : Waker) : Option (Inner V × Listener × Bool) :=
  if c.free then do
    let (l', res) :=
      if l.lastVersion = 0 then ({ l with lastVersion := c.version }, false)
      else if l.lastVersion < c.version then ({ l with lastVersion := c.version }, true)
      else (l, false)
    let a ← Arena.update c.listeners l.slot w
    return ({ c with listeners := a }, l', res)
  else none

/-- `Drop` of a listener, until_change.rs 58-66. -/
def dropListener (c : Inner V) (l : Listener) : Option (Inner V) :=
  if c.free then do
    let a ← Arena.remove none c.listeners l.slot
    return { c with listeners := a }
  else none

/-- `Drop` of the guard of `borrow_mut`, borrow_mut.rs 26-34: the wakers called, in order. -/
def dropGuard (c : Inner V) : Option (Inner V × List Waker) := do
  let ws ← Arena.iter c.listeners SUBLIST
  return ({ c with version := c.version + 1, writing := false }, ws)

/-- State of the `for_each` future, for_each.rs 4-11. -/
inductive ForEach
  | start
  | awaiting (l : Listener)
  | dropped

/-- The loop of `for_each`, for_each.rs 5-10, from its beginning until it is pending. `seen`: the
values passed to the closure. Out of fuel: the loop does not end (shown not to happen). -/
def forEachLoop (w : Waker) : Nat → Inner V → List V → Option (Inner V × Listener × List V)
  | 0, _, _ => none
  | fuel + 1, c, seen =>
    if c.writing then none
    else do
      let seen := seen ++ [c.data]
      let (c, l) ← untilChange c
      let (c, l, ready) ← pollNext c l w
      if ready then
        let c ← dropListener c l
        forEachLoop w fuel c seen
      else return (c, l, seen)

/-- Poll of the `for_each` future. -/
def forEachPoll (w : Waker) (c : Inner V) (f : ForEach) (seen : List V) :
    Option (Inner V × ForEach × List V) :=
  match f with
  | .start => do
    let (c, l, seen) ← forEachLoop w 2 c seen
    return (c, .awaiting l, seen)
  | .awaiting l => do
    let (c, l, ready) ← pollNext c l w
    if ready then
      let c ← dropListener c l
      let (c, l, seen) ← forEachLoop w 2 c seen
      return (c, .awaiting l, seen)
    else return (c, .awaiting l, seen)
  | .dropped => none

/-- The cell and what uses it. -/
structure Sys (V : Type) where
  cell : Inner V
  /-- listeners in order of creation, `none` when dropped -/
  listeners : List (Option Listener)
  forEach : ForEach
  /-- what the closure of `for_each` was called with -/
  seen : List V

inductive Op (V : Type)
  | borrowMut
  | write (v : V)
  | dropGuard
  | borrow
  | dropRef
  | listen
  | poll (l : Nat) (w : Waker)
  | dropListener (l : Nat)
  | forEachPoll (w : Waker)
  | forEachDrop

inductive Out
  | unit
  | woken (ws : List Waker)
  | polled (ready : Bool)
deriving DecidableEq

def step (s : Sys V) : Op V → Option (Sys V × Out)
  | .borrowMut =>
    if s.cell.free then some ({ s with cell := { s.cell with writing := true } }, .unit) else none
  | .write v =>
    if s.cell.writing then some ({ s with cell := { s.cell with data := v } }, .unit) else none
  | .dropGuard =>
    if s.cell.writing then do
      let (c, ws) ← dropGuard s.cell
      return ({ s with cell := c }, .woken ws)
    else none
  | .borrow =>
    if s.cell.writing then none
    else some ({ s with cell := { s.cell with readers := s.cell.readers + 1 } }, .unit)
  | .dropRef =>
    if s.cell.readers = 0 then none
    else some ({ s with cell := { s.cell with readers := s.cell.readers - 1 } }, .unit)
  | .listen => do
    let (c, l) ← untilChange s.cell
    return ({ s with cell := c, listeners := s.listeners ++ [some l] }, .unit)
  | .poll i w =>
    match s.listeners[i]? with
    | some (some l) => do
      let (c, l, r) ← pollNext s.cell l w
      return ({ s with cell := c, listeners := s.listeners.set i (some l) }, .polled r)
    | _ => none
  | .dropListener i =>
    match s.listeners[i]? with
    | some (some l) => do
      let c ← dropListener s.cell l
      return ({ s with cell := c, listeners := s.listeners.set i none }, .unit)
    | _ => none
  | .forEachPoll w => do
    let (c, f, seen) ← forEachPoll w s.cell s.forEach s.seen
    return ({ s with cell := c, forEach := f, seen := seen }, .unit)
  | .forEachDrop =>
    match s.forEach with
    | .start => some ({ s with forEach := .dropped }, .unit)
    | .awaiting l => do
      let c ← dropListener s.cell l
      return ({ s with cell := c, forEach := .dropped }, .unit)
    | .dropped => none

/-- A new cell with a `for_each` future that has not been polled. -/
def init (v : V) : Option (Sys V) := (Inner.new v).map fun c => ⟨c, [], .start, []⟩

end

/-- Histories with what was observed. -/
inductive Run {V : Type} : Sys V → List (Op V × Out) → Sys V → Prop
  | nil (s) : Run s [] s
  | cons {s op o s1 h s2} : step s op = some (s1, o) → Run s1 h s2 → Run s ((op, o) :: h) s2

end Verif.Cell
