import Verif.Dom.Tree
/-!
# DynamicList

Model of `async_ui_web/src/lists/dynamic_list.rs`. Nodes and the document are those of
`Verif.Dom.Tree`. `none` is a panic or a DOM exception.

Simplifications: keys are natural numbers. The task of an item is not modelled here; what it renders
is content between the item's markers (`SiblingNodeFuture`, see C01, C03), which the environment may
change at any time. Dropping a task only schedules its end, so its nodes stay for a while. `render`
takes the place that `add_child` chooses; `Verif.Lists.Render` connects it with the context.
-/
namespace Verif.Lists
open Verif.Dom

abbrev Key := Nat

/-- `Stored`, dynamic_list.rs 66-70, without the task. -/
structure Stored where
  start : NodeId
  stop : NodeId
deriving DecidableEq

/-- `DynamicList` and `DynamicListInner`, dynamic_list.rs 53-64. -/
structure DynList where
  items : List (Key × Stored)
  /-- `containing_node.get()`, 73-78 -/
  container : NodeId
  /-- the document fragment that contains the list while it is not rendered: `Fake(frag)` is
  `container = frag` -/
  frag : NodeId
  listStart : NodeId
  listEnd : NodeId

/-- `new`, dynamic_list.rs 88-104, with the nodes it creates. -/
def new (d : Dom) (frag listStart listEnd : NodeId) : Option (Dom × DynList) := do
  let d ← d.insertBefore frag listStart none
  let d ← d.insertBefore frag listEnd none
  return (d, ⟨[], frag, frag, listStart, listEnd⟩)

/-- `HashMap::get`. -/
def DynList.get (L : DynList) (k : Key) : Option Stored :=
  (L.items.find? fun e => e.1 == k).map (·.2)

/-- `node.next_sibling()` of a child in a list of children. -/
def nextIn (n : NodeId) : List NodeId → Option NodeId
  | [] => none
  | x :: xs => if x = n then xs.head? else nextIn n xs

/-- The loop of `move_nodes_before`, dynamic_list.rs 357-365. The nodes to move are children of `src`.
Running out of fuel is reported as `none`; see `moveNodes`. -/
def moveLoop (src dst stop : NodeId) (after : Option NodeId) : Nat → Dom → NodeId → Option Dom
  | 0, _, _ => none
  | fuel + 1, d, node => do
    let next := nextIn node (d.kids src)
    let d ← d.insertBefore dst node after
    if node = stop then return d
    match next with
    | none => none
    | some n => moveLoop src dst stop after fuel d n

/-- `move_nodes_before`, dynamic_list.rs 351-366. A block has at most as many nodes as its parent has
children, so a loop that takes longer is going round in circles. -/
def moveNodes (d : Dom) (src dst start stop : NodeId) (after : Option NodeId) : Option Dom :=
  moveLoop src dst stop after ((d.kids src).length + 1) d start

/-- `before.map(|k| &inner.items.get(k).unwrap().start_marker).unwrap_or(&self.list_end_marker)`,
dynamic_list.rs 127-129 and 217-219. -/
def DynList.after (L : DynList) : Option Key → Option NodeId
  | none => some L.listEnd
  | some k => (L.get k).map (·.start)

/-- Removing the two markers, dynamic_list.rs 153-154, 180-181 and 284-285. -/
def removeMarkers (d : Dom) (container : NodeId) (x : Stored) : Option Dom := do
  let d ← d.removeChild container x.start
  d.removeChild container x.stop

/-- `insert`, dynamic_list.rs 122-159, with the two markers it creates. -/
def insert (d : Dom) (L : DynList) (key : Key) (before : Option Key) (start stop : NodeId) :
    Option (Dom × DynList × Bool) := do
  let after ← L.after before
  let d ← d.insertBefore L.container stop (some after)
  let d ← d.insertBefore L.container start (some stop)
  match L.get key with
  | some old =>
    let d ← removeMarkers d L.container old
    return (d, { L with items := L.items.map fun e => if e.1 = key then (key, ⟨start, stop⟩) else e }, true)
  | none => return (d, { L with items := L.items ++ [(key, ⟨start, stop⟩)] }, false)

/-- `remove`, dynamic_list.rs 166-186. -/
def remove (d : Dom) (L : DynList) (key : Key) : Option (Dom × DynList × Bool) :=
  match L.get key with
  | some x => do
    let d ← removeMarkers d L.container x
    return (d, { L with items := L.items.filter fun e => e.1 != key }, true)
  | none => some (d, L, false)

/-- `contains_key`, dynamic_list.rs 192-198. -/
def DynList.containsKey (L : DynList) (key : Key) : Bool := (L.get key).isSome

/-- `move_before`, dynamic_list.rs 211-228. -/
def moveBefore (d : Dom) (L : DynList) (toMove : Key) (before : Option Key) : Option Dom := do
  let after ← L.after before
  let x ← L.get toMove
  moveNodes d L.container L.container x.start x.stop (some after)

/-- `swap`, dynamic_list.rs 237-262. Entries of the map are the same exactly if the keys are. -/
def swap (d : Dom) (L : DynList) (key1 key2 : Key) : Option Dom := do
  let x1 ← L.get key1
  let x2 ← L.get key2
  if key1 = key2 then return d
  let afterKey1 := nextIn x1.stop (d.kids L.container)
  let d ← moveNodes d L.container L.container x1.start x1.stop (some x2.start)
  moveNodes d L.container L.container x2.start x2.stop afterKey1

/-- `retain`, dynamic_list.rs 274-289: the removals, in the order of the map. -/
def retainLoop (container : NodeId) (keep : Key → Bool) : List (Key × Stored) → Dom → Option Dom
  | [], d => some d
  | e :: es, d => do
    if keep e.1 then retainLoop container keep es d
    else
      let d ← removeMarkers d container e.2
      retainLoop container keep es d

def retain (d : Dom) (L : DynList) (keep : Key → Bool) : Option (Dom × DynList) := do
  let d ← retainLoop L.container keep L.items d
  return (d, { L with items := L.items.filter fun e => keep e.1 })

/-- `insertBefore` of a document fragment: its children, in order. -/
def insertAll (container after : NodeId) : List NodeId → Dom → Option Dom
  | [], d => some d
  | n :: ns, d => do
    let d ← d.insertBefore container n (some after)
    insertAll container after ns d

/-- `render` up to its first suspension, dynamic_list.rs 294-329. `parent` and `after` are the place
where `add_child` puts the start marker (302-306). Dropping the `ContainerNodeFuture` (311) takes the
start marker out again. -/
def render (d : Dom) (L : DynList) (parent : NodeId) (after : Option NodeId) : Option (Dom × DynList) := do
  let d ← d.insertBefore parent L.listStart after
  let d ← d.insertBefore parent L.listEnd (some L.listStart)
  let d ← d.removeChild parent L.listStart
  let d ← d.insertBefore parent L.listStart (some L.listEnd)
  if L.container = L.frag then
    let d ← insertAll parent L.listEnd (d.kids L.frag) d
    return (d, { L with container := parent })
  else none

/-- The guard that runs when the future of `render` is dropped, dynamic_list.rs 330-339. -/
def unrender (d : Dom) (L : DynList) : Option (Dom × DynList) := do
  let d ← moveNodes d L.container L.frag L.listStart L.listEnd none
  return (d, { L with container := L.frag })

end Verif.Lists
