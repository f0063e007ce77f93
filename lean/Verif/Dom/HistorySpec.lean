import Verif.Dom.Context
import Verif.Dom.Spec
/-!
# Render histories and what the user expects of them (C01, C02, C04)

The specification knows nothing of groups as ordered maps or of reference nodes being
searched for: it records which node is displayed at which path, and which other ("foreign")
nodes are in the document.
-/
namespace Verif.Dom

/-- The group a context renders into. -/
def Ctx.group : Ctx → GroupId
  | .container g _ => g
  | .sibling _ g _ => g
  | .child parent _ => parent.group

/-- The node a context displays into: the element of the innermost enclosing container. -/
def Ctx.home : Ctx → NodeId
  | .container _ node => node
  | .sibling parent _ _ => parent.home
  | .child parent _ => parent.home

/-- The root-first path of a context below its group. -/
def Ctx.path : Ctx → List Nat
  | .container _ _ => []
  | .sibling _ _ _ => []
  | .child parent i => parent.path ++ [i]

/-- The marker node in front of which a context renders (`none`: plain container). -/
def Ctx.marker : Ctx → Option NodeId
  | .container _ _ => none
  | .sibling _ _ r => some r
  | .child parent _ => parent.marker

/-- One observable event.  `render`/`unrender` are what the first poll and the drop of
`ContainerNodeFuture` do (`node_container.rs:63-68`, `82-87`); the foreign events are changes
of the document made by other code (markers of lists, other scripts). -/
inductive Op
  | render (ctx : Ctx) (n : NodeId)
  | unrender (ctx : Ctx)
  | foreignInsert (c n : NodeId) (ref : Option NodeId)
  | foreignRemove (c n : NodeId)

/-- Execute one event with the model of the code. `none` = panic. -/
def Op.exec (b : Build) (s : State) : Op → Option State
  | .render ctx n => ctx.addChild b s [] n
  | .unrender ctx => ctx.removeChild b s []
  | .foreignInsert c n ref => do
    let d ← s.dom.insertBefore c n ref
    return { s with dom := d }
  | .foreignRemove c n => do
    let d ← s.dom.removeChild c n
    return { s with dom := d }

def runOps (b : Build) (s : State) : List Op → Option State
  | [] => some s
  | op :: ops => do
    let s ← op.exec b s
    runOps b s ops

/-- A displayed node: group, root-first path in the group, node. -/
structure Shown where
  group : GroupId
  path : List Nat
  node : NodeId
deriving DecidableEq, Repr

/-- The specification state. -/
structure Display where
  shown : List Shown
  /-- foreign nodes, as (container, node) -/
  foreign : List (NodeId × NodeId)

/-- What each event does, in the user's terms. -/
def Display.step (D : Display) : Op → Display
  | .render ctx n => { D with shown := ⟨ctx.group, ctx.path, n⟩ :: D.shown }
  | .unrender ctx =>
    { D with shown := D.shown.filter fun x => !(x.group == ctx.group && ctx.path.isPrefixOf x.path) }
  | .foreignInsert c n _ => { D with foreign := (c, n) :: D.foreign }
  | .foreignRemove c n => { D with foreign := D.foreign.filter (· != (c, n)) }

def Display.run (D : Display) (ops : List Op) : Display := ops.foldl Display.step D

/-- Where each group lives: its containing node, and the marker it renders in front of. -/
abbrev Places := GroupId → NodeId × Option NodeId

/-- `n` is a child of `c` as far as the specification is concerned. -/
def Display.In (P : Places) (D : Display) (c n : NodeId) : Prop :=
  (∃ x ∈ D.shown, x.node = n ∧ (P x.group).1 = c) ∨ (c, n) ∈ D.foreign

/-- Which events a program can cause in a given situation. -/
def Op.Ok (P : Places) (D : Display) : Op → Prop
  | .render ctx n =>
    -- the context belongs to the group's place, the node is not in the document yet, the place
    -- in the component tree is free, and the marker (if any) is in the containing node
    (ctx.home, ctx.marker) = P ctx.group ∧
    (∀ c, ¬ D.In P c n) ∧
    (∀ x ∈ D.shown, ¬ (x.group = ctx.group ∧ x.path = ctx.path)) ∧
    (∀ r, ctx.marker = some r → (ctx.home, r) ∈ D.foreign)
  | .unrender ctx =>
    (ctx.home, ctx.marker) = P ctx.group ∧
    -- indices are below the largest `u32` (see `nextSibling_overflow`)
    (∀ i ∈ ctx.path, i + 1 < 2 ^ 32)
  | .foreignInsert c n ref =>
    (∀ c, ¬ D.In P c n) ∧ (∀ r, ref = some r → D.In P c r)
  | .foreignRemove c n =>
    (c, n) ∈ D.foreign ∧ (∀ g, (P g).2 ≠ some n)

def HistoryOk (P : Places) : Display → List Op → Prop
  | _, [] => True
  | D, op :: ops => op.Ok P D ∧ HistoryOk P (D.step op) ops

/-- The nodes of group `g` with their paths, in source order. -/
def SourceSorted (D : Display) (g : GroupId) (L : List Shown) : Prop :=
  L.Perm (D.shown.filter (·.group == g)) ∧ L.Pairwise fun x y => SourceBefore x.path y.path

/-- The document agrees with the specification: every node has exactly the expected children,
each once, and the nodes of every group occur in source order (in front of their marker). -/
structure Agrees (P : Places) (D : Display) (s : State) : Prop where
  nodup : ∀ c, (s.dom.kids c).Nodup
  mem : ∀ c n, n ∈ s.dom.kids c ↔ D.In P c n
  order : ∀ g, ∃ L, SourceSorted D g L ∧
    List.Sublist (L.map (·.node)) (s.dom.kids (P g).1) ∧
    ∀ r, (P g).2 = some r → ((P g).1, r) ∈ D.foreign →
      List.Sublist (L.map (·.node) ++ [r]) (s.dom.kids (P g).1)

/-- Starting situation: only foreign nodes, each in one place. -/
def Starts (D : Display) (s : State) : Prop :=
  D.shown = [] ∧ (∀ g, s.groups g = []) ∧ (∀ c, (s.dom.kids c).Nodup) ∧
  (∀ c n, n ∈ s.dom.kids c ↔ (c, n) ∈ D.foreign) ∧
  (∀ c c' n, (c, n) ∈ D.foreign → (c', n) ∈ D.foreign → c = c')

end Verif.Dom

namespace Verif.Dom

/-- For C04: other code does not insert nodes into the middle of a list item (in front of the
item's content or of its end marker). -/
def Op.Separate (P : Places) (D : Display) : Op → Prop
  | .foreignInsert _ _ (some r) =>
    (∀ x ∈ D.shown, x.node = r → (P x.group).2 = none) ∧ (∀ g, (P g).2 ≠ some r)
  | _ => True

def HistorySeparate (P : Places) : Display → List Op → Prop
  | _, [] => True
  | D, op :: ops => op.Separate P D ∧ HistorySeparate P (D.step op) ops

/-- Different list items have different end markers. -/
def DistinctMarkers (P : Places) : Prop :=
  ∀ g h r, (P g).2 = some r → (P h).2 = some r → g = h

end Verif.Dom
