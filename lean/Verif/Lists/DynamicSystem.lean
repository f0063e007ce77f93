import Verif.Lists.DynamicSpec
/-!
# Histories of a DynamicList

Calls of its methods, and what the rest of the program does in between.
-/
namespace Verif.Lists
open Verif.Dom

structure Sys where
  dom : Dom
  list : DynList

inductive Op
  /-- with the two comments that `insert` creates -/
  | insert (key : Key) (before : Option Key) (start stop : NodeId)
  | remove (key : Key)
  | moveBefore (key : Key) (before : Option Key)
  | swap (a b : Key)
  | retain (keep : Key → Bool)
  /-- the list is rendered in `parent`, before `after` -/
  | render (parent : NodeId) (after : Option NodeId)
  /-- the future returned by `render` is dropped -/
  | unrender
  /-- the item changes what it renders -/
  | content (key : Key) (nodes : List NodeId)
  /-- some other part of the program inserts a node -/
  | place (container n : NodeId) (ref : Option NodeId)
  /-- some other part of the program removes a node, or the task of a removed item ends -/
  | vanish (container n : NodeId)

/-- Replace what is between two children. -/
def setBetween (start stop : NodeId) (ns l : List NodeId) : List NodeId :=
  l.takeWhile (· != start) ++ start :: (ns ++ l.dropWhile (· != stop))

/-- One step. The answer is that of `insert` and `remove`; the others return nothing. -/
def step (s : Sys) : Op → Option (Sys × Option Bool)
  | .insert k b x y => (insert s.dom s.list k b x y).map fun r => (⟨r.1, r.2.1⟩, some r.2.2)
  | .remove k => (remove s.dom s.list k).map fun r => (⟨r.1, r.2.1⟩, some r.2.2)
  | .moveBefore k b => (moveBefore s.dom s.list k b).map fun d => (⟨d, s.list⟩, none)
  | .swap a b => (swap s.dom s.list a b).map fun d => (⟨d, s.list⟩, none)
  | .retain p => (retain s.dom s.list p).map fun r => (⟨r.1, r.2⟩, none)
  | .render p a => (render s.dom s.list p a).map fun r => (⟨r.1, r.2⟩, none)
  | .unrender => (unrender s.dom s.list).map fun r => (⟨r.1, r.2⟩, none)
  | .content k ns => (s.list.get k).map fun x =>
      (⟨⟨fun c => if c = s.list.container then setBetween x.start x.stop ns (s.dom.kids c)
        else s.dom.kids c⟩, s.list⟩, none)
  | .place c n r => (s.dom.insertBefore c n r).map fun d => (⟨d, s.list⟩, none)
  | .vanish c n => (s.dom.removeChild c n).map fun d => (⟨d, s.list⟩, none)

def run (s : Sys) : List Op → Option (Sys × List (Option Bool))
  | [] => some (s, [])
  | op :: ops => do
    let (s, a) ← step s op
    let (s, as) ← run s ops
    return (s, a :: as)

/-- What a plain list of items does. -/
def specStep (l : List Item) : Op → List Item
  | .insert k b x y => specInsert ⟨k, x, y, []⟩ b l
  | .remove k => without k l
  | .moveBefore k b => specMove k b l
  | .swap a b => specSwap a b l
  | .retain p => l.filter fun x => p x.key
  | .content k ns => specContent k ns l
  | .render _ _ | .unrender | .place _ _ _ | .vanish _ _ => l

/-- What a plain list of items answers. -/
def specAnswer (l : List Item) : Op → Option Bool
  | .insert k _ _ _ | .remove k => some (find k l).isSome
  | _ => none

/-- The content that removed and replaced items leave behind until their tasks end. -/
def specLeft (l : List Item) (left : List NodeId) : Op → List NodeId
  | .insert k _ _ _ | .remove k =>
    match find k l with
    | some x => x.content ++ left
    | none => left
  | .retain p => (l.filter fun x => !p x.key).flatMap Item.content ++ left
  | .place _ n _ | .vanish _ n => left.filter (· != n)
  | _ => left

/-- The items, what was left behind, and the answers. -/
def specRun (l : List Item) (left : List NodeId) :
    List Op → List Item × List NodeId × List (Option Bool)
  | [] => (l, left, [])
  | op :: ops =>
    let r := specRun (specStep l op) (specLeft l left op) ops
    (r.1, r.2.1, specAnswer l op :: r.2.2)

/-- A node that is nowhere in the document. -/
def Fresh (d : Dom) (n : NodeId) : Prop := ∀ c, n ∉ d.kids c

/-- A node that belongs to the list: its markers and the nodes of its items. -/
def Owned (L : DynList) (l : List Item) (n : NodeId) : Prop :=
  n = L.listStart ∨ n = L.listEnd ∨ ∃ x ∈ l, n ∈ x.nodes

/-- The key is in the list. -/
def Has (l : List Item) (k : Key) : Prop := ∃ x ∈ l, x.key = k

/-- The node is outside the list, or its first node. -/
def Outside (s : Sys) (r : NodeId) : Prop :=
  ∃ pre mid post, s.dom.kids s.list.container = pre ++ s.list.listStart :: (mid ++ s.list.listEnd :: post) ∧
    (r ∈ pre ∨ r = s.list.listStart ∨ r ∈ post)

/-- What is asked of a step.
* The keys given for places, moves and swaps are in the list, except that `insert` may be given a new
  key and `remove` any key.
* An item is not moved before itself.
* In `swap(a, b)`, `a` is not directly before `b`.
* Created nodes are new; content is new or was content of the same item.
* The list is rendered in one place at a time, not inside its own fragment.
* Others insert nodes outside the list and remove nodes that do not belong to it. -/
def Allowed (s : Sys) (l : List Item) : Op → Prop
  | .insert _ b x y => (∀ k, b = some k → Has l k) ∧ Fresh s.dom x ∧ Fresh s.dom y ∧ x ≠ y
  | .remove _ => True
  | .moveBefore k b => Has l k ∧ ∀ k', b = some k' → Has l k' ∧ k' ≠ k
  | .swap a b => Has l a ∧ Has l b ∧ ¬ directlyBefore a b l
  | .retain _ => True
  | .content k ns => ∃ x ∈ l, x.key = k ∧ ns.Nodup ∧ ∀ n ∈ ns, n ∈ x.content ∨ Fresh s.dom n
  | .render p a => s.list.container = s.list.frag ∧ p ≠ s.list.frag ∧ ∀ r, a = some r → r ∈ s.dom.kids p
  | .unrender => s.list.container ≠ s.list.frag
  | .place c n r => c ≠ s.list.frag ∧ ¬ Owned s.list l n ∧
      (∀ q, r = some q → q ∈ s.dom.kids c) ∧
      (c = s.list.container → ∀ q, r = some q → Outside s q)
  | .vanish c n => n ∈ s.dom.kids c ∧ ¬ Owned s.list l n

def AllowedRun (s : Sys) (l : List Item) : List Op → Prop
  | [] => True
  | op :: ops => Allowed s l op ∧
      ∀ s' a, step s op = some (s', a) → AllowedRun s' (specStep l op) ops

/-- Every node has one place in the document. -/
def Proper (d : Dom) : Prop :=
  (∀ c, (d.kids c).Nodup) ∧ ∀ c c' n, n ∈ d.kids c → n ∈ d.kids c' → c = c'

end Verif.Lists
