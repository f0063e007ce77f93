import Verif.Apps.Circles
/-!
# What a circle drawer should show

The drawer remembers whole pictures: those before the present one and those that were undone. There are no
operations, cursors, ids or nodes here.
-/
namespace Verif.Circles
open Verif.Dom (NodeId)

/-- Position and size of every circle, in the order in which they were drawn. -/
abbrev Picture := List (Int × Int × Scale)

structure Memory where
  /-- the pictures before, the latest first -/
  past : List Picture
  now : Picture
  /-- the pictures that were undone, the latest first -/
  future : List Picture
  /-- the circle that was nearest to the mouse when it last moved -/
  pointed : Option Nat
  /-- the highlighted circle -/
  lit : Option Nat

def Memory.start : Memory := ⟨[], [], [], none, none⟩

/-- A new picture: the present one goes to the past, and what was undone is forgotten. -/
def Memory.draw (M : Memory) (p : Picture) : Memory := { M with past := M.now :: M.past, now := p, future := [] }

def Memory.point (M : Memory) (mx my : Int) : Memory := { M with pointed := hit M.now mx my, lit := hit M.now mx my }

/-- The picture with another size for one of its circles. -/
def resize (p : Picture) (i : Nat) (z : Scale) : Picture :=
  p.modify i fun c => (c.1, c.2.1, z)

def Memory.next (M : Memory) : Event → Memory
  | .move mx my => M.point mx my
  | .click mx my _ => (M.draw (M.now ++ [(mx, my, one)])).point mx my
  | .menu values =>
    match M.pointed, values.getLast? with
    | some i, some z => M.draw (resize M.now i z)
    | _, _ => M
  | .undo =>
    match M.past with
    | [] => M
    | p :: ps => { M with past := ps, now := p, future := M.now :: M.future, lit := M.lit.filter (· < p.length) }
  | .redo _ =>
    match M.future with
    | [] => M
    | p :: ps => { M with past := M.now :: M.past, now := p, future := ps }
  | .env _ => M

def Memory.after (M : Memory) (es : List Event) : Memory := es.foldl Memory.next M

/-- What the elements look like, in order. -/
def Memory.looks (M : Memory) : List Look :=
  M.now.zipIdx.map fun c => ⟨c.1.1, c.1.2.1, c.1.2.2, M.lit == some c.2⟩

/-- The document shows the picture: between the markers of the list are, in order, items of one element each, which
look like the circles, and nothing else. -/
def Draws (A : App) (M : Memory) : Prop :=
  ∃ (l : List Lists.Item) (elems : List NodeId), Lists.Shows A.sys.dom A.sys.list l [] ∧
    l.map Lists.Item.content = elems.map (fun n => [n]) ∧ elems.map A.look = M.looks

/-- Three different nodes that are nowhere in the document. -/
def Nodes.new (ns : Nodes) (A : App) : Prop :=
  Lists.Fresh A.sys.dom ns.elem ∧ Lists.Fresh A.sys.dom ns.start ∧ Lists.Fresh A.sys.dom ns.stop ∧
    ns.elem ≠ ns.start ∧ ns.elem ≠ ns.stop ∧ ns.start ≠ ns.stop

/-- What is asked of an event: created nodes are new, the rest of the program does not touch the nodes of the list,
and the menu is not opened for a circle that is gone. -/
def Allowed (A : App) (M : Memory) : Event → Prop
  | .move _ _ => True
  | .click _ _ ns => ns.new A
  | .menu _ => ∀ i, M.pointed = some i → i < M.now.length
  | .undo => True
  | .redo ns => ns.new A
  | .env op => ∀ l, Lists.Shows A.sys.dom A.sys.list l [] → Lists.Allowed A.sys l op

def AllowedRun (A : App) (M : Memory) : List Event → Prop
  | [] => True
  | e :: es => Allowed A M e ∧ ∀ A', step A e = some A' → AllowedRun A' (M.next e) es

/-- The point is inside of the circle. -/
def Inside (c : Int × Int × Scale) (mx my : Int) : Prop := 16 * dist c.1 c.2.1 mx my < (c.2.2 * c.2.2 : Nat)

end Verif.Circles
