import Verif.Tree.Model
/-!
# Specification vocabulary for C46

The document a component tree stands for. Nothing here mentions contexts, positions or the order
in which things happened.
-/
namespace Verif.Tree
open Verif.Dom Verif.Drop

/-- The elements that a component displays directly in the node around it, in the order of the
source. An element that has not been polled yet is not displayed. -/
def tops : Fut → List NodeId
  | .block f => tops f
  | .both x y => tops x ++ tops y
  | .slot _ f => tops f
  | .comb _ f => tops f
  | .node id _ .added _ _ => [id]
  | _ => []

/-- The children of `c` that do not belong to other code. -/
def ours (dom : Dom) (foreign : List (NodeId × NodeId)) (c : NodeId) : List NodeId :=
  (dom.kids c).filter fun n => !foreign.contains (c, n)

/-- Every element of the component tree contains what its content displays, in the order of the
source, and nothing else. -/
def Contents (dom : Dom) (foreign : List (NodeId × NodeId)) : Fut → Prop
  | .block f => Contents dom foreign f
  | .both x y => Contents dom foreign x ∧ Contents dom foreign y
  | .slot _ f => Contents dom foreign f
  | .comb _ f => Contents dom foreign f
  | .node id _ _ _ child => ours dom foreign id = tops child ∧ Contents dom foreign child
  | _ => True

/-- The document shows exactly the component tree of the app: the mount node contains what the app
displays and every element contains what its content displays. -/
def App.Rendered (A : App) : Prop :=
  ours A.t.d.st.dom A.foreign A.node = tops A.fut ∧ Contents A.t.d.st.dom A.foreign A.fut

mutual
/-- Combinators have fewer than `2^32 - 1` subfutures (see C05 on what happens otherwise). -/
def Shape.Narrow : Shape → Prop
  | .block => True
  | .element _ child => child.Narrow
  | .comb _ subs => subs.NarrowFrom 0

/-- `i` is the number of the first of these subfutures. -/
def Shapes.NarrowFrom : Shapes → Nat → Prop
  | .nil, _ => True
  | .cons first rest, i => i + 1 < 2 ^ 32 ∧ first.Narrow ∧ rest.NarrowFrom (i + 1)
end

/-- All components that are created are narrow. -/
def Script.Narrow : Script → Prop
  | .pend => True
  | .ready => True
  | .await inner next => inner.Narrow ∧ next.Narrow
  | .cancel next => next.Narrow
  | .create component next => component.Narrow ∧ next.Narrow
  | .content inner => inner.Narrow
  | .sub _ inner next => inner.Narrow ∧ next.Narrow

def Event.Narrow : Event → Prop
  | .poll script => script.Narrow
  | _ => True

/-- A document: every node has its children once and every node has one parent; `foreign` lists
all of them; identifiers from `next` on are unused. -/
structure Document (dom : Dom) (foreign : List (NodeId × NodeId)) (next : Nat) : Prop where
  once : ∀ c, (dom.kids c).Nodup
  all : ∀ c n, n ∈ dom.kids c ↔ (c, n) ∈ foreign
  parent : ∀ c c' n, (c, n) ∈ foreign → (c', n) ∈ foreign → c = c'
  used : ∀ c n, (c, n) ∈ foreign → n < next

end Verif.Tree
