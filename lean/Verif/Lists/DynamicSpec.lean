import Verif.Lists.Dynamic
/-!
# What a DynamicList should show

A plain list of items. An item is its key, its two markers and its content.
-/
namespace Verif.Lists
open Verif.Dom

structure Item where
  key : Key
  start : NodeId
  stop : NodeId
  content : List NodeId
deriving DecidableEq

def Item.nodes (x : Item) : List NodeId := x.start :: (x.content ++ [x.stop])

/-- The item of a key. -/
def find (k : Key) (l : List Item) : Option Item := l.find? fun x => x.key == k

/-- Put `x` before the item with the key `b`. -/
def placeBefore (x : Item) (b : Key) : List Item → List Item
  | [] => []
  | y :: ys => if y.key = b then x :: y :: ys else y :: placeBefore x b ys

/-- Put `x` before the item with the given key, or at the end. -/
def place (x : Item) : Option Key → List Item → List Item
  | none, l => l ++ [x]
  | some b, l => placeBefore x b l

/-- All items but the one with the key `k`. -/
def without (k : Key) (l : List Item) : List Item := l.filter fun x => x.key != k

/-- `insert`: an item with the same key is replaced. -/
def specInsert (x : Item) (before : Option Key) (l : List Item) : List Item :=
  if before = some x.key then l.map fun y => if y.key = x.key then x else y
  else place x before (without x.key l)

/-- `move_before` -/
def specMove (k : Key) (before : Option Key) (l : List Item) : List Item :=
  match find k l with
  | some x => place x before (without k l)
  | none => l

/-- `swap` -/
def specSwap (a b : Key) (l : List Item) : List Item :=
  match find a l, find b l with
  | some x, some y => l.map fun z => if z.key = a then y else if z.key = b then x else z
  | _, _ => l

/-- New content for the item with the key `k`. -/
def specContent (k : Key) (cs : List NodeId) (l : List Item) : List Item :=
  l.map fun x => if x.key = k then { x with content := cs } else x

/-- `a` is shown directly before `b`. -/
def directlyBefore (a b : Key) (l : List Item) : Prop := [a, b] <:+: l.map (·.key)

/-- Parts of the children between the two markers of the list. -/
inductive Seg
  | item (x : Item)
  /-- a node of a removed item whose task has not ended yet -/
  | orphan (n : NodeId)

def Seg.nodes : Seg → List NodeId
  | .item x => x.nodes
  | .orphan n => [n]

def Seg.item? : Seg → Option Item
  | .item x => some x
  | .orphan _ => none

/-- The document shows the items in this order: each between its markers, nothing else between the
markers of the list but nodes of removed items, which are those in `left`. -/
def Shows (d : Dom) (L : DynList) (items : List Item) (left : List NodeId) : Prop :=
  ∃ (pre : List NodeId) (segs : List Seg) (post : List NodeId),
    d.kids L.container = pre ++ [L.listStart] ++ segs.flatMap Seg.nodes ++ [L.listEnd] ++ post ∧
    segs.filterMap Seg.item? = items ∧ ∀ n, Seg.orphan n ∈ segs ↔ n ∈ left

/-- The same when only a bound on the nodes of removed items is known: they are among `given`. -/
def ShowsAmong (d : Dom) (L : DynList) (items : List Item) (given : List NodeId) : Prop :=
  ∃ (pre : List NodeId) (segs : List Seg) (post : List NodeId),
    d.kids L.container = pre ++ [L.listStart] ++ segs.flatMap Seg.nodes ++ [L.listEnd] ++ post ∧
    segs.filterMap Seg.item? = items ∧ ∀ n, Seg.orphan n ∈ segs → n ∈ given

end Verif.Lists
