/-!
# The detachment blocker

Model of `async_ui_web_core/src/dropping.rs`.
-/
namespace Verif.Drop

/-- Address of a `DetachmentBlocker` object (`dropping.rs:28`, a zero-sized struct). -/
abbrev Addr := Nat

/-- `IS_DROPPING`, `dropping.rs:14-21`: null or the address of the owning blocker. -/
abbrev Flag := Option Addr

/-- `DetachmentBlocker::block_until_drop`, `dropping.rs:35-45`: "was already blocked" and the
new flag. -/
def blockUntilDrop (a : Addr) : Flag → Bool × Flag
  | none => (false, some a)
  | some o => (true, some o)

/-- `impl Drop for DetachmentBlocker`, `dropping.rs:47-57`. -/
def release (a : Addr) : Flag → Flag
  | none => none
  | some o => if o = a then none else some o

/-- A finite forest of nested drops: an object with a blocker at address `a` is dropped; the
drops of its parts (`inner`) happen between its `Drop` body and the drop of the blocker, its
last field; afterwards the `rest` is dropped. -/
inductive Drops
  | nil
  | drop (a : Addr) (inner rest : Drops)
deriving Repr

/-- Execute the drops. The output lists, per object in drop order, whether it was told to
detach its nodes (`!block_until_drop()`). -/
def Drops.run : Drops → Flag → List Bool × Flag
  | .nil, f => ([], f)
  | .drop a inner rest, f =>
    let (was, f) := blockUntilDrop a f
    let (xs, f) := inner.run f
    let f := release a f
    let (ys, f) := rest.run f
    ((!was) :: xs ++ ys, f)

def Drops.addrs : Drops → List Addr
  | .nil => []
  | .drop a inner rest => a :: inner.addrs ++ rest.addrs

/-- Specification: outermost objects detach, nested ones do not. -/
def Drops.expected (outer : Bool) : Drops → List Bool
  | .nil => []
  | .drop _ inner rest => outer :: inner.expected false ++ rest.expected outer

/-- Objects that are alive at the same time (an object and its parts) have different
addresses. -/
def Drops.Distinct : Drops → Prop
  | .nil => True
  | .drop a inner rest => a ∉ inner.addrs ∧ inner.Distinct ∧ rest.Distinct

end Verif.Drop
