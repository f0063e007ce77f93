import Verif.Lists.DynamicSystem
import Verif.Dom.HistorySpec
/-!
# The items of a DynamicList are futures

`Verif.Lists.Dynamic` treats what an item shows as given from outside. Here the items render through
the context that `SiblingNodeFuture` gives them, so that the list and its items change the same document.
-/
namespace Verif.Lists
open Verif.Dom

/-- The document, the list, and the groups of the futures of its items. The group of the future that
`insert` creates (`node_sibling.rs` 21-26) is found under the end marker of the item. -/
structure ItemSys where
  st : State
  list : DynList
  /-- the context of the future of `render`, while there is one -/
  ctx : Option Ctx

def ItemSys.sys (s : ItemSys) : Sys := ⟨s.st.dom, s.list⟩

def ItemSys.withSys (s : ItemSys) (r : Sys) : ItemSys := { s with st := { s.st with dom := r.dom }, list := r.list }

inductive ItemOp
  /-- a call of the list other than `render`, or what the rest of the page does -/
  | list (op : Op)
  /-- the list is rendered in a context, before `after` -/
  | render (ctx : Ctx) (after : Option NodeId)
  /-- the future of the item with this end marker displays a node at a place in its component tree -/
  | add (stop : NodeId) (path : List Nat) (n : NodeId)
  /-- the same future takes away what it displays at and below a place -/
  | hide (stop : NodeId) (path : List Nat)
  /-- the same future is dropped, because it has completed or because its task was cancelled -/
  | finish (stop : NodeId)

/-- The context in which the future of an item is polled and dropped, `node_sibling.rs` 44-49 and 60-65. -/
def itemCtx (c : Ctx) (stop : NodeId) : Ctx := .sibling c stop stop

/-- The context of a component inside an item: combinators and components wrap `Child`. -/
def below (c : Ctx) (path : List Nat) : Ctx := path.foldl Ctx.child c

/-- One step. `none` is a panic. The futures of the items run only while the list is rendered
(dynamic_list.rs 340); for a list that is not rendered their steps are `none` as well.
* `insert` makes a new future with an empty group, dynamic_list.rs 136-139 and `node_sibling.rs` 29-36.
* The first poll of a component is `add_child` and its drop is `remove_child`, see `Verif.Dom.HistorySpec`.
* The drop of `SiblingNodeFuture` is `remove_child` at the root, `node_sibling.rs` 56-68, unless a
  drop around it has started (see `Verif.Drop`), which is not the case when an executor drops a task. -/
def itemStep (b : Build) (s : ItemSys) : ItemOp → Option (ItemSys × Option Bool)
  | .list (.insert k bf x y) =>
    (step s.sys (.insert k bf x y)).map fun r =>
      ({ (s.withSys r.1) with st := { s.st with dom := r.1.dom }.setGroup y [] }, r.2)
  | .list .unrender => (step s.sys .unrender).map fun r => ({ (s.withSys r.1) with ctx := none }, r.2)
  | .list op => (step s.sys op).map fun r => (s.withSys r.1, r.2)
  | .render c a => (step s.sys (.render c.containingNode a)).map fun r => ({ (s.withSys r.1) with ctx := some c }, r.2)
  | .add y path n => do
    let c ← s.ctx
    let st ← (below (itemCtx c y) path).addChild b s.st [] n
    return ({ s with st := st }, none)
  | .hide y path => do
    let c ← s.ctx
    let st ← (below (itemCtx c y) path).removeChild b s.st []
    return ({ s with st := st }, none)
  | .finish y => do
    let c ← s.ctx
    let st ← (itemCtx c y).removeChild b s.st []
    return ({ s with st := st }, none)

def itemRun (b : Build) (s : ItemSys) : List ItemOp → Option (ItemSys × List (Option Bool))
  | [] => some (s, [])
  | op :: ops => do
    let (s, a) ← itemStep b s op
    let (s, as) ← itemRun b s ops
    return (s, a :: as)

/-! ## what the user expects -/

/-- A node that a component inside an item displays: the end marker of the item, the place of the
component in the component tree of the item, the node. -/
structure Part where
  stop : NodeId
  path : List Nat
  node : NodeId
deriving DecidableEq

/-- The items, in order, and what they display. (The items here have no content of their own.) -/
structure View where
  rows : List Item
  parts : List Part

def View.step (V : View) : ItemOp → View
  | .list op => { V with rows := specStep V.rows op }
  | .render _ _ => V
  | .add y path n => { V with parts := ⟨y, path, n⟩ :: V.parts }
  | .hide y path => { V with parts := V.parts.filter fun p => !(p.stop == y && path.isPrefixOf p.path) }
  | .finish y => { V with parts := V.parts.filter fun p => p.stop != y }

def View.answer (V : View) : ItemOp → Option Bool
  | .list op => specAnswer V.rows op
  | _ => none

/-- The view and the answers of the calls. -/
def View.run (V : View) : List ItemOp → View × List (Option Bool)
  | [] => (V, [])
  | op :: ops => ((View.run (V.step op) ops).1, V.answer op :: (View.run (V.step op) ops).2)

/-- `ns` is what the item with this end marker displays, in source order. -/
def View.Displays (V : View) (stop : NodeId) (ns : List NodeId) : Prop :=
  ∃ L : List Part, L.Perm (V.parts.filter fun p => p.stop == stop) ∧
    L.Pairwise (fun p q => SourceBefore p.path q.path) ∧ ns = L.map Part.node

/-- Nodes of items that are not in the list any more. -/
def View.Left (V : View) (n : NodeId) : Prop := ∃ p ∈ V.parts, p.node = n ∧ ∀ x ∈ V.rows, x.stop ≠ p.stop

/-- The document shows the items in the order of the list; each shows, between its markers, exactly what
its components display, in source order; and nothing else is between the markers of the list but nodes
of items that have been removed. -/
def View.ShownIn (V : View) (d : Dom) (L : DynList) : Prop :=
  ∃ (content : Item → List NodeId) (left : List NodeId), (∀ x ∈ V.rows, V.Displays x.stop (content x)) ∧
    Shows d L (V.rows.map fun x => { x with content := content x }) left ∧ ∀ n, n ∈ left ↔ V.Left n

/-- What is asked of a step.
* Calls of the list and the rest of the page: as in `Allowed`. The marker that `insert` creates is not
  that of another future. Others do not touch nodes that items display.
* **A component displays something only while its item is in the list** and the list is rendered. The
  node is new and the place is free.
* Indices are below the largest `u32` (see `nextSibling_overflow`). -/
def ItemAllowed (s : ItemSys) (V : View) : ItemOp → Prop
  | .list (.insert k b x y) => Allowed s.sys V.rows (.insert k b x y) ∧ ∀ p ∈ V.parts, p.stop ≠ y
  | .list (.render _ _) | .list (.content _ _) => False
  | .list (.place c n r) => Allowed s.sys V.rows (.place c n r) ∧ ∀ p ∈ V.parts, p.node ≠ n
  | .list (.vanish c n) => Allowed s.sys V.rows (.vanish c n) ∧ ∀ p ∈ V.parts, p.node ≠ n
  | .list op => Allowed s.sys V.rows op
  | .render c a => Allowed s.sys V.rows (.render c.containingNode a)
  | .add y path n => s.ctx.isSome ∧ (∃ x ∈ V.rows, x.stop = y) ∧ Fresh s.st.dom n ∧
      ∀ p ∈ V.parts, ¬ (p.stop = y ∧ p.path = path)
  | .hide _ path => s.ctx.isSome ∧ ∀ i ∈ path, i + 1 < 2 ^ 32
  | .finish _ => s.ctx.isSome

def ItemAllowedRun (b : Build) (s : ItemSys) (V : View) : List ItemOp → Prop
  | [] => True
  | op :: ops => ItemAllowed s V op ∧
      ∀ s' a, itemStep b s op = some (s', a) → ItemAllowedRun b s' (V.step op) ops

end Verif.Lists
