/-!
# The waker arena

Model of `async_ui_internal_utils/src/wakers_arena.rs`. `none` is a panic (index out of bounds).
Waker values are an arbitrary type `W` with a value `dummy`; `Waker::will_wake` is equality.
Growth of the vector never fails (no out-of-memory), and indices do not overflow `usize`.
-/
namespace Verif.Arena

/-- `Item`, wakers_arena.rs 10-15. -/
structure Item (W : Type) where
  waker : W
  prev : Nat
  next : Nat
deriving DecidableEq

/-- `WakersArena.items`, 6-8. -/
abbrev Arena (W : Type) := List (Item W)

section
variable {W : Type}

/-- `WakersArena::new`, 26-41. -/
def new (dummy : W) : Arena W := [⟨dummy, 1, 1⟩, ⟨dummy, 0, 0⟩]

def getNext (a : Arena W) (i : Nat) : Option Nat := (a[i]?).map (·.next)
def getPrev (a : Arena W) (i : Nat) : Option Nat := (a[i]?).map (·.prev)

/-- `self.items[i].next = v` -/
def setNext (a : Arena W) (i v : Nat) : Option (Arena W) :=
  match a[i]? with
  | none => none
  | some x => some (a.set i { x with next := v })

/-- `self.items[i].prev = v` -/
def setPrev (a : Arena W) (i v : Nat) : Option (Arena W) :=
  match a[i]? with
  | none => none
  | some x => some (a.set i { x with prev := v })

/-- `self.items[i].waker = w` -/
def setWaker (a : Arena W) (i : Nat) (w : W) : Option (Arena W) :=
  match a[i]? with
  | none => none
  | some x => some (a.set i { x with waker := w })

/-- `grow_full_list`, 167-180. -/
def growFullList (dummy : W) (a : Arena W) : Option (Arena W × Nat) := do
  let oldLen := a.length
  let a := a ++ (List.range' oldLen oldLen).map fun idx => ⟨dummy, idx - 1, idx + 1⟩
  let a ← setPrev a (oldLen + 1) 0
  let a ← setNext a (oldLen * 2 - 1) 0
  let a ← setPrev a 0 (oldLen * 2 - 1)
  let a ← setNext a 0 (oldLen + 1)
  return (a, oldLen)

/-- The choice of a node at the beginning of `add_sublist` and `add`, 46-58 and 76-88: the node and
whether it is in the free list. -/
def pick (dummy : W) (a : Arena W) : Option (Arena W × Nat × Bool) := do
  let freeNext ← getNext a 0
  if freeNext = 0 then
    let (a, index) ← growFullList dummy a
    return (a, index, false)
  else return (a, freeNext, true)

/-- `if must_fix_free_list { .. }`, 65-68 and 99-102. -/
def fixFree (a : Arena W) (must : Bool) (oldFreePrev oldFreeNext : Nat) : Option (Arena W) := do
  if must then
    let a ← setNext a oldFreePrev oldFreeNext
    setPrev a oldFreeNext oldFreePrev
  else return a

/-- `add_sublist`, 45-70. -/
def addSublist (dummy : W) (a : Arena W) : Option (Arena W × Nat) := do
  let (a, index, must) ← pick dummy a
  let oldFreePrev ← getPrev a index
  let a ← setPrev a index index
  let oldFreeNext ← getNext a index
  let a ← setNext a index index
  let a ← fixFree a must oldFreePrev oldFreeNext
  return (a, index)

/-- `add`, 75-104. -/
def add (dummy : W) (a : Arena W) (sublistHead : Nat) : Option (Arena W × Nat) := do
  let (a, index, must) ← pick dummy a
  let oldUsedPrev ← getPrev a sublistHead
  let a ← setPrev a sublistHead index
  let a ← setNext a oldUsedPrev index
  let oldFreePrev ← getPrev a index
  let a ← setPrev a index oldUsedPrev
  let oldFreeNext ← getNext a index
  let a ← setNext a index sublistHead
  let a ← fixFree a must oldFreePrev oldFreeNext
  return (a, index)

/-- `remove`, 106-121. -/
def remove (dummy : W) (a : Arena W) (index : Nat) : Option (Arena W) := do
  let oldFreeNext ← getNext a 0
  let a ← setNext a 0 index
  let a ← setPrev a oldFreeNext index
  let oldUsedPrev ← getPrev a index
  let a ← setPrev a index 0
  let oldUsedNext ← getNext a index
  let a ← setNext a index oldFreeNext
  let a ← setWaker a index dummy
  let a ← setNext a oldUsedPrev oldUsedNext
  setPrev a oldUsedNext oldUsedPrev

/-- `remove_sublist_if_empty`, 123-138. -/
def removeSublistIfEmpty (a : Arena W) (sublistHead : Nat) : Option (Arena W × Bool) := do
  let next ← getNext a sublistHead
  if next = sublistHead then
    let a ← setPrev a sublistHead 0
    let oldNext ← getNext a 0
    let a ← setNext a 0 sublistHead
    let a ← setPrev a oldNext sublistHead
    let a ← setNext a sublistHead oldNext
    return (a, true)
  else return (a, false)

/-- `update`, 142-147. -/
def update [DecidableEq W] (a : Arena W) (slot : Nat) (w : W) : Option (Arena W) :=
  match a[slot]? with
  | none => none
  | some x => if x.waker = w then some a else setWaker a slot w

/-- The iterator of `iter`, 151-165, run to its end. `none`: a panic, or more items than nodes (the
iterator would go round forever). -/
def iterFrom (a : Arena W) (sublistHead : Nat) : Nat → Nat → Option (List W)
  | 0, index => if index = sublistHead then some [] else none
  | fuel + 1, index =>
    if index = sublistHead then some []
    else
      match a[index]? with
      | none => none
      | some x => (iterFrom a sublistHead fuel x.next).map (x.waker :: ·)

/-- `iter`, 151-165. -/
def iter (a : Arena W) (sublistHead : Nat) : Option (List W) := do
  let index ← getNext a sublistHead
  iterFrom a sublistHead a.length index

end
end Verif.Arena
