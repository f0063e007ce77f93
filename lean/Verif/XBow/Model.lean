import Verif.Arena.Model
import Verif.XBow.Hash
/-!
# x-bow: subscriptions

Model of `x-bow/src/wakers.rs`, `until_change.rs`, `borrow_mut_guard.rs` and of the effects of
`hash_visitor.rs`. `none` is a panic. A waker is the number of a task (`some t`), or the dummy waker
(`none`). Versions do not overflow `u64`.

The `RefCell` around the `StoreWakers` is only borrowed inside these functions, and wakers called
from `wake_entry` do not come back to the store (they schedule tasks), so its flag is left out.
-/
namespace Verif.XBow
open Verif.Arena (Arena)

abbrev Waker := Option Nat

/-- `Entry`, wakers.rs 14-17. -/
structure Entry where
  sublist : Nat
  version : Nat
deriving DecidableEq

/-- `StoreWakers`, wakers.rs 9-12. The map has each key once; its order is not observable. -/
structure StoreWakers where
  all : Arena Waker
  map : List (Key × Entry)

/-- `StoreWakers::new`, wakers.rs 44-49. -/
def StoreWakers.new : StoreWakers := ⟨Arena.new none, []⟩

/-- `HashMap::get`. -/
def StoreWakers.find (st : StoreWakers) (k : Key) : Option Entry :=
  (st.map.find? fun e => e.1 == k).map (·.2)

/-- `get_entry`, wakers.rs 50-58, with `Entry::new`, 19-24. -/
def getEntry (st : StoreWakers) (k : Key) : Option (StoreWakers × Entry) :=
  match st.find k with
  | some e => some (st, e)
  | none => do
    let (a, sublist) ← Arena.addSublist none st.all
    return (⟨a, st.map ++ [(k, ⟨sublist, 1⟩)]⟩, ⟨sublist, 1⟩)

/-- `add_waker_slot`, wakers.rs 32-34, after `get_entry`. -/
def addWakerSlot (st : StoreWakers) (k : Key) : Option (StoreWakers × Nat) := do
  let (st, e) ← getEntry st k
  let (a, slot) ← Arena.add none st.all e.sublist
  return (⟨a, st.map⟩, slot)

/-- `wake_entry`, wakers.rs 59-66: the wakers called, in order. -/
def wakeEntry (st : StoreWakers) (k : Key) : Option (StoreWakers × List Waker) :=
  match st.find k with
  | some e => do
    let ws ← Arena.iter st.all e.sublist
    return (⟨st.all, st.map.map fun x => if x.1 = k then (x.1, ⟨x.2.sublist, x.2.version + 1⟩) else x⟩, ws)
  | none => some (st, [])

/-- `remove_waker_slot`, wakers.rs 67-81. -/
def removeWakerSlot (st : StoreWakers) (k : Key) (slot : Nat) : Option StoreWakers :=
  match st.find k with
  | some e => do
    let a ← Arena.remove none st.all slot
    let (a, gone) ← Arena.removeSublistIfEmpty a e.sublist
    return ⟨a, if gone then st.map.filter fun x => decide (x.1 ≠ k) else st.map⟩
  | none => none

/-- `UntilChange`, until_change.rs 17-21. -/
structure Listener where
  lastVersion : Nat
  slots : List (Key × Nat)

/-- Creating the slots: `finish_one` with `BuildRegularListeners`, hash_visitor.rs 65-72. -/
def subscribe (st : StoreWakers) : List Key → Option (StoreWakers × List (Key × Nat))
  | [] => some (st, [])
  | k :: ks => do
    let (st, x) ← addWakerSlot st k
    let (st, slots) ← subscribe st ks
    return (st, (k, x) :: slots)

/-- `UntilChange::new`, until_change.rs 24-39: one slot at the regular key of every path visited. -/
def untilChange (hash : Path → BitVec 64) (st : StoreWakers) (p : Path) : Option (StoreWakers × Listener) := do
  let (st, slots) ← subscribe st ((visited p).map (regularKey hash))
  return (st, ⟨0, slots⟩)

/-- `UntilChange::new_bubbling`, until_change.rs 40-55: one slot at the bubbling key of the path. -/
def untilBubblingChange (hash : Path → BitVec 64) (st : StoreWakers) (p : Path) :
    Option (StoreWakers × Listener) := do
  let (st, slots) ← subscribe st [bubblingKey hash p]
  return (st, ⟨0, slots⟩)

/-- The fold in `poll_next`, until_change.rs 71-75. -/
def pollSlots (w : Waker) : StoreWakers → List (Key × Nat) → Nat → Option (StoreWakers × Nat)
  | st, [], ver => some (st, ver)
  | st, (k, x) :: slots, ver => do
    let (st, e) ← getEntry st k
    let a ← Arena.update st.all x w
    pollSlots w ⟨a, st.map⟩ slots (ver + e.version)

/-- `poll_next`, until_change.rs 64-80. The boolean is `is_ready`. -/
def pollNext (st : StoreWakers) (l : Listener) (w : Waker) : Option (StoreWakers × Listener × Bool) := do
  let (st, ver) ← pollSlots w st l.slots 0
  return (st, ⟨ver, l.slots⟩, decide (1 ≤ l.lastVersion) && decide (l.lastVersion ≠ ver))

/-- `has_been_polled`, until_change.rs 56-58. -/
def Listener.hasBeenPolled (l : Listener) : Bool := decide (l.lastVersion > 0)

/-- `Drop` of `UntilChange`, until_change.rs 83-90. -/
def dropSlots : StoreWakers → List (Key × Nat) → Option StoreWakers
  | st, [] => some st
  | st, (k, x) :: slots => do
    let st ← removeWakerSlot st k x
    dropSlots st slots

/-- Waking several entries in turn. -/
def wakeKeys : StoreWakers → List Key → Option (StoreWakers × List Waker)
  | st, [] => some (st, [])
  | st, k :: ks => do
    let (st, ws) ← wakeEntry st k
    let (st, ws') ← wakeKeys st ks
    return (st, ws ++ ws')

/-- `notify`, borrow_mut_guard.rs 51-57: the bubbling entries of all paths visited, then the regular
entry of the path. Called when the guard of `borrow_mut`/`borrow_opt_mut` is dropped (45-49) and by
`notify_changed`. -/
def notify (hash : Path → BitVec 64) (st : StoreWakers) (p : Path) : Option (StoreWakers × List Waker) :=
  wakeKeys st ((visited p).map (bubblingKey hash) ++ [regularKey hash p])

/-- A store's subscriptions and the listeners created so far, `none` when dropped. -/
structure Sys where
  wakers : StoreWakers
  listeners : List (Option Listener)

inductive Op
  /-- `until_change` on a path -/
  | listen (p : Path)
  /-- `until_bubbling_change` on a path -/
  | listenBubbling (p : Path)
  | poll (i : Nat) (w : Waker)
  | drop (i : Nat)
  /-- a mutable borrow of a path ends, or `notify_changed` -/
  | change (p : Path)

inductive Out
  | unit
  | woken (ws : List Waker)
  | polled (ready : Bool)
deriving DecidableEq

def step (hash : Path → BitVec 64) (s : Sys) : Op → Option (Sys × Out)
  | .listen p => do
    let (st, l) ← untilChange hash s.wakers p
    return (⟨st, s.listeners ++ [some l]⟩, .unit)
  | .listenBubbling p => do
    let (st, l) ← untilBubblingChange hash s.wakers p
    return (⟨st, s.listeners ++ [some l]⟩, .unit)
  | .poll i w =>
    match s.listeners[i]? with
    | some (some l) => do
      let (st, l, r) ← pollNext s.wakers l w
      return (⟨st, s.listeners.set i (some l)⟩, .polled r)
    | _ => none
  | .drop i =>
    match s.listeners[i]? with
    | some (some l) => do
      let st ← dropSlots s.wakers l.slots
      return (⟨st, s.listeners.set i none⟩, .unit)
    | _ => none
  | .change p => do
    let (st, ws) ← notify hash s.wakers p
    return (⟨st, s.listeners⟩, .woken ws)

/-- A new store. -/
def init : Sys := ⟨StoreWakers.new, []⟩

/-- Histories with what was observed. -/
inductive Run (hash : Path → BitVec 64) : Sys → List (Op × Out) → Sys → Prop
  | nil (s) : Run hash s [] s
  | cons {s op o s1 h s2} : step hash s op = some (s1, o) → Run hash s1 h s2 →
      Run hash s ((op, o) :: h) s2

end Verif.XBow
