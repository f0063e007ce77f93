import Verif.Arena.Model
/-!
# Specification for C21: independent ordered lists

The book keeping of a user of the arena who only notes what was asked and which handle was returned.
-/
namespace Verif.Arena
variable {W : Type}

inductive Op (W : Type)
  | addSublist
  | add (list : Nat)
  | remove (slot : Nat)
  | update (slot : Nat) (w : W)
  | removeIfEmpty (list : Nat)

inductive Res
  | unit
  | handle (i : Nat)
  | bool (b : Bool)
deriving DecidableEq

/-- Lists with their handles; the slots in order of insertion, with the waker last put in. -/
abbrev Book (W : Type) := List (Nat × List (Nat × W))

def Book.lists (s : Book W) : List Nat := s.map (·.1)
def Book.slots (s : Book W) : List Nat := s.flatMap fun e => e.2.map (·.1)

/-- The operation is on handles that exist. -/
def Book.allows (s : Book W) : Op W → Prop
  | .addSublist => True
  | .add h => h ∈ s.lists
  | .remove x => x ∈ s.slots
  | .update x _ => x ∈ s.slots
  | .removeIfEmpty h => h ∈ s.lists

/-- The book after an operation and its result. -/
def Book.note (dummy : W) (s : Book W) : Op W → Res → Book W
  | .addSublist, .handle h => s ++ [(h, [])]
  | .add h, .handle x => s.map fun e => if e.1 = h then (e.1, e.2 ++ [(x, dummy)]) else e
  | .remove x, _ => s.map fun e => (e.1, e.2.filter fun y => decide (y.1 ≠ x))
  | .update x w, _ => s.map fun e => (e.1, e.2.map fun y => if y.1 = x then (x, w) else y)
  | .removeIfEmpty h, .bool true => s.filter fun e => decide (e.1 ≠ h)
  | _, _ => s

/-- What the result of an operation has to be: handles are fresh, and `remove_sublist_if_empty`
tells whether the list was empty. -/
def Book.expects (s : Book W) : Op W → Res → Prop
  | .addSublist, r => ∃ h, r = .handle h ∧ h ∉ s.lists ∧ h ∉ s.slots
  | .add _, r => ∃ x, r = .handle x ∧ x ∉ s.lists ∧ x ∉ s.slots
  | .remove _, r => r = .unit
  | .update _ _, r => r = .unit
  | .removeIfEmpty h, r => ∃ b, r = .bool b ∧ (b = true ↔ (h, []) ∈ s)

/-- One call on the arena. -/
def step [DecidableEq W] (dummy : W) (a : Arena W) : Op W → Option (Arena W × Res)
  | .addSublist => (addSublist dummy a).map fun p => (p.1, .handle p.2)
  | .add h => (add dummy a h).map fun p => (p.1, .handle p.2)
  | .remove x => (remove dummy a x).map fun a => (a, .unit)
  | .update x w => (update a x w).map fun a => (a, .unit)
  | .removeIfEmpty h => (removeSublistIfEmpty a h).map fun p => (p.1, .bool p.2)

/-- Histories: the arena and the book after any sequence of calls on handles that exist. -/
inductive Run [DecidableEq W] (dummy : W) : Arena W → Book W → Prop
  | nil : Run dummy (new dummy) []
  | cons {a s op a' r} : Run dummy a s → s.allows op → step dummy a op = some (a', r) →
      Run dummy a' (s.note dummy op r)

end Verif.Arena
