import Verif.Drop.Spec
import Verif.Tree.Spec
import Verif.Whole.Model
import Verif.Lists.Forest
/-!
# Specification vocabulary for C64

What the document of an app with dynamic lists is to look like. `Forest` and `Forest.flat`
(`Verif.Lists.Forest`) describe the children of a node, grouped into plain nodes, lists and items.
-/
namespace Verif.Whole
open Verif.Dom Verif.Drop Verif.Lists Verif.Tree

/-! ## the items of the lists -/

section Rows
variable {α : Type}

/-- `e` before the entry with key `b`, or at the end. -/
def rowPlace (e : Key × α) (b : Option Key) : List (Key × α) → List (Key × α)
  | [] => [e]
  | x :: xs => if b = some x.1 then e :: x :: xs else x :: rowPlace e b xs

def rowGet (k : Key) (rows : List (Key × α)) : Option (Key × α) := rows.find? fun e => e.1 == k

/-- What a call does to the entries of a list; `new` is the entry that `insert` makes. -/
def rowStep (new : α) (rows : List (Key × α)) : LCall → List (Key × α)
  | .insert k b _ _ =>
    if b = some k then rows.map fun e => if e.1 = k then (k, new) else e
    else rowPlace (k, new) b (rows.filter fun e => e.1 != k)
  | .remove k => rows.filter fun e => e.1 != k
  | .moveBefore k b =>
    match rowGet k rows with
    | some e => rowPlace e b (rows.filter fun e => e.1 != k)
    | none => rows
  | .swap a b =>
    match rowGet a rows, rowGet b rows with
    | some x, some y => rows.map fun e => if e.1 = a then y else if e.1 = b then x else e
    | _, _ => rows
  | .retain p => rows.filter fun e => p e.1

/-- What is asked of a call (see C33 for what happens otherwise). -/
def RowOk (rows : List (Key × α)) : LCall → Prop
  | .insert _ b _ _ => ∀ k, b = some k → k ∈ rows.map (·.1)
  | .remove _ => True
  | .moveBefore k b => k ∈ rows.map (·.1) ∧ ∀ k', b = some k' → k' ∈ rows.map (·.1) ∧ k' ≠ k
  | .swap a b => a ∈ rows.map (·.1) ∧ b ∈ rows.map (·.1) ∧ ¬ [a, b] <:+: rows.map (·.1)
  | .retain _ => True

end Rows

/-- The items of every list in order: the key and the markers. The end marker is also the name of the
item: every `insert` makes a new one. -/
abbrev Orders := Nat → List (Key × Stored)

/-- `n` is the first unused identifier. -/
def Orders.step (O : Orders) (n : Nat) : Event → Orders
  | .newList i => fun j => if j = i then [] else O j
  | .call i c => fun j => if j = i then rowStep ⟨n, n + 1⟩ (O i) c else O j
  | _ => O

/-- The orders along a run. -/
def Orders.run (b : Build) (O : Orders) (W : Whole) : List Event → Orders
  | [] => O
  | e :: es =>
    match W.step b e with
    | some W' => Orders.run b (O.step W.next e) W' es
    | none => O

/-! ## the document -/

/-- The plain nodes of a forest itself (not those inside its lists and items). -/
def plain : Forest → List NodeId
  | .nil => []
  | .node n r => n :: plain r
  | .item _ _ _ _ r => plain r
  | .list _ _ _ _ r => plain r

/-- The items of a forest itself: key, end marker, content. -/
def itemsOf : Forest → List (Key × NodeId × Forest)
  | .nil => []
  | .node _ r => itemsOf r
  | .item k _ y m r => (k, y, m) :: itemsOf r
  | .list _ _ _ _ r => itemsOf r

/-- No lists and no items. -/
def Flat : Forest → Prop
  | .nil => True
  | .node _ r => Flat r
  | _ => False

/-- Nodes and items whose content are nodes: what may be in a list. -/
def Row : Forest → Prop
  | .nil => True
  | .node _ r => Row r
  | .item _ _ _ f r => Flat f ∧ Row r
  | .list _ _ _ _ _ => False

/-- Nodes and lists: what may be in a node. -/
def Top : Forest → Prop
  | .nil => True
  | .node _ r => Top r
  | .item _ _ _ _ _ => False
  | .list _ _ _ m r => Row m ∧ Top r

/-- The elements of a component tree. -/
def elements : Fut → List NodeId
  | .block f => elements f
  | .both x y => elements x ++ elements y
  | .slot _ f => elements f
  | .comb _ f => elements f
  | .node id _ _ _ child => id :: elements child
  | _ => []

/-- The children of `c`, without lists and without nodes of other code. -/
def own (page : NodeId → Forest) (foreign : List (NodeId × NodeId)) (c : NodeId) : List NodeId :=
  (plain (page c)).filter fun n => !foreign.contains (c, n)

/-- Every element of the component tree contains what its content displays, in the order of the source
(besides lists and nodes of other code). -/
def Filled (page : NodeId → Forest) (foreign : List (NodeId × NodeId)) : Fut → Prop
  | .block f => Filled page foreign f
  | .both x y => Filled page foreign x ∧ Filled page foreign y
  | .slot _ f => Filled page foreign f
  | .comb _ f => Filled page foreign f
  | .node id _ _ _ child => own page foreign id = tops child ∧ Filled page foreign child
  | _ => True

/-- The future of an item with the end marker `y`, while there is one. -/
def Whole.itemFut (W : Whole) (y : NodeId) : Option Fut := (W.task y).map (·.fut)

/-- What the item with the end marker `y` displays: its future, if that has not completed. -/
def Whole.itemTops (W : Whole) (y : NodeId) : List NodeId :=
  match W.task y with
  | some t => tops t.fut
  | none => []

/-- The mount node and the elements of the component trees. -/
def Whole.Element (W : Whole) (c : NodeId) : Prop :=
  c = W.app.node ∨ c ∈ elements W.app.fut ∨ ∃ t ∈ W.tasks, c ∈ elements t.fut

/-- The document shows the app and the lists. `O` are the items of the lists, in order. -/
structure Whole.Rendered (W : Whole) (O : Orders) : Prop where
  shown : ∃ page : NodeId → Forest,
    -- the description is one of the document: nodes, and lists that there are; what is left of lists that
    -- have been dropped is in their fragments, which are nowhere in the document
    (∀ c, W.dom.kids c = (page c).flat ∧ Top (page c)) ∧
    (∀ c i x y m, (page c).Has i x y m → (∃ L, W.lists i = some L ∧ c = L.list.container) ∨
      ∃ L, W.gone i = some L ∧ c = L.list.frag) ∧
    (∀ i L, W.lists i = some L ∨ W.gone i = some L → ¬ W.Element L.list.frag) ∧
    -- other code finds its nodes where it has put them
    (∀ c n, (c, n) ∈ W.app.foreign → n ∈ plain (page c)) ∧
    -- the mount node and every element contain what they should
    own page W.app.foreign W.app.node = tops W.app.fut ∧
    Filled page W.app.foreign W.app.fut ∧
    (∀ t ∈ W.tasks, Filled page W.app.foreign t.fut) ∧
    -- every list is in the node in which it was rendered, or else in its fragment
    ∀ i L, W.lists i = some L →
      L.list.container = (match L.ctx with | some ctx => ctx.containingNode | none => L.list.frag) ∧
      ∃ m, (page L.list.container).Has i L.list.listStart L.list.listEnd m ∧
        -- it shows its items in order,
        m.entries = O i ∧
        -- each of them shows what its future displays,
        (∀ k y f, (k, y, f) ∈ itemsOf m → f.flat = W.itemTops y) ∧
        -- and besides there is what items display that have been removed and not yet dropped
        ∀ n, n ∈ plain m ↔ ∃ t ∈ W.tasks, t.list = i ∧ t.live = false ∧ n ∈ tops t.fut

/-! ## what is asked of the program and of other code -/

mutual
/-- The addresses of the blockers. -/
def shapeAddrs : Shape → List Addr
  | .block => []
  | .element a child => a :: shapeAddrs child
  | .comb a subs => a :: shapesAddrs subs

def shapesAddrs : Shapes → List Addr
  | .nil => []
  | .cons first rest => shapeAddrs first ++ shapesAddrs rest
end

def scriptAddrs : Script → List Addr
  | .pend => []
  | .ready => []
  | .await inner next => scriptAddrs inner ++ scriptAddrs next
  | .cancel next => scriptAddrs next
  | .create component next => shapeAddrs component ++ scriptAddrs next
  | .content inner => scriptAddrs inner
  | .sub _ inner next => scriptAddrs inner ++ scriptAddrs next

/-- `ctx` is the context of a component directly in the mount node or in an element. -/
def Whole.InElement (W : Whole) (ctx : Ctx) : Prop :=
  ctx.marker = none ∧ (ctx.group = W.app.group ∧ ctx.home = W.app.node ∨
    ctx.group = ctx.home ∧ (ctx.home ∈ elements W.app.fut ∨ ∃ t ∈ W.tasks, ctx.home ∈ elements t.fut))

/-- The node is a child of `c` between the markers of a list, or its end marker. -/
def Whole.InList (W : Whole) (c n : NodeId) : Prop :=
  ∃ i L A B C, W.lists i = some L ∧ W.dom.kids c = A ++ L.list.listStart :: (B ++ L.list.listEnd :: C) ∧
    (n ∈ B ∨ n = L.list.listEnd)

/-- What is asked of an event.
* Combinators are narrow, as in C46.
* Other code puts its nodes neither between the markers of a list nor into the fragment of one.
* Calls of lists are as in C33. The numbers of lists that have been dropped are not used again.
* A list is rendered once at a time, by a component in an element or in the mount node (not by an item
  itself), at whose place in the component tree nothing is displayed.
* A list that is dropped is not rendered: the future of `render` borrows it.
* The blocker of an item and the blockers of its parts have different addresses, and so do the
  blocker of a list and those in its items (see C06). -/
def Event.Allowed (W : Whole) (O : Orders) : Event → Prop
  | .app (.poll script) => script.Narrow
  | .app (.foreignInsert c ref) => c < W.next ∧
      (∀ i L, W.lists i = some L ∨ W.gone i = some L → c ≠ L.list.frag) ∧
      ∀ r, ref = some r → ¬ W.InList c r
  | .app (.foreignRemove _ _) => True
  | .newList i => W.lists i = none ∧ W.gone i = none
  | .call i c => (∃ L, W.lists i = some L) ∧ RowOk (O i) c ∧
      match c with
      | .insert _ _ a item => item.Narrow ∧ a ∉ shapeAddrs item
      | _ => True
  | .render i ctx => (∃ L, W.lists i = some L ∧ L.ctx = none) ∧ W.InElement ctx ∧
      (∀ j ∈ ctx.path, j + 1 < 2 ^ 32) ∧ ∀ e ∈ W.st.groups ctx.group, ¬ ctx.path <+: e.1.reverse
  | .unrender i => ∃ L, W.lists i = some L
  | .pollItem y script => script.Narrow ∧ ∀ t, W.task y = some t → t.addr ∉ scriptAddrs script
  | .dropItem _ => True
  | .dropList i a => (∃ L, W.lists i = some L ∧ L.ctx = none) ∧
      ∀ t ∈ W.tasks, t.list = i → a ≠ t.addr ∧ a ∉ t.fut.addrs

def Allowed (b : Build) (W : Whole) (O : Orders) : List Event → Prop
  | [] => True
  | e :: es => e.Allowed W O ∧ ∀ W', W.step b e = some W' → Allowed b W' (O.step W.next e) es

end Verif.Whole
