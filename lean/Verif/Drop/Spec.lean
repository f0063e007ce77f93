import Verif.Drop.Fut
/-!
# Specification vocabulary for C05, C07 and C08
-/
namespace Verif.Drop
open Verif.Dom

/-- The nodes that a future polled in context `ctx` has put directly into the containing node
of `ctx`, with their places. (What is inside those nodes, and the content of list items, is not
listed.) -/
def Fut.shownHere : Ctx → Fut → List Shown
  | _, .done => []
  | ctx, .both x y => x.shownHere ctx ++ y.shownHere ctx
  | ctx, .block f => f.shownHere ctx
  | ctx, .slot i f => f.shownHere (.child ctx i)
  | ctx, .node id _ .added _ _ => [⟨ctx.group, ctx.path, id⟩]
  | _, .node _ _ .shouldNotAdd _ _ => []
  | _, .node _ _ .shouldAdd _ _ => []
  | _, .item _ _ _ _ => []
  | ctx, .comb _ f => f.shownHere ctx
  | _, .list _ _ => []

/-- The future is what is running at the place `ctx`: its nodes are on display, and nobody
else's node is displayed at or below that place. -/
def Fut.RunsAt (f : Fut) (ctx : Ctx) (D : Display) : Prop :=
  ∀ x, x ∈ f.shownHere ctx ↔ x ∈ D.shown ∧ x.group = ctx.group ∧ ctx.path <+: x.path

/-- The groups of the elements that have not been polled yet. -/
def Fut.unpolledGroups : Fut → List GroupId
  | .done => []
  | .both x y => x.unpolledGroups ++ y.unpolledGroups
  | .block f => f.unpolledGroups
  | .slot _ f => f.unpolledGroups
  | .node _ _ .added _ child => child.unpolledGroups
  | .node _ g _ _ child => g :: child.unpolledGroups
  | .item _ _ _ child => child.unpolledGroups
  | .comb _ f => f.unpolledGroups
  | .list _ f => f.unpolledGroups

def Fut.addrs : Fut → List Addr
  | .done => []
  | .both x y => x.addrs ++ y.addrs
  | .block f => f.addrs
  | .slot _ f => f.addrs
  | .node _ _ _ a child => a :: child.addrs
  | .item _ _ a child => a :: child.addrs
  | .comb a f => a :: f.addrs
  | .list a f => a :: f.addrs

/-- A value and its parts have blockers at different addresses. -/
def Fut.Distinct : Fut → Prop
  | .done => True
  | .both x y => x.Distinct ∧ y.Distinct
  | .block f => f.Distinct
  | .slot _ f => f.Distinct
  | .node _ _ _ a child => a ∉ child.addrs ∧ child.Distinct
  | .item _ _ a child => a ∉ child.addrs ∧ child.Distinct
  | .comb a f => a ∉ f.addrs ∧ f.Distinct
  | .list a f => a ∉ f.addrs ∧ f.Distinct

/-- List items occur only inside a list, an element or a combinator (a `SiblingNodeFuture` is
created only by `DynamicList::insert`, `dynamic_list.rs:137-139`). -/
def Fut.ItemsInside : Fut → Prop
  | .done => True
  | .both x y => x.ItemsInside ∧ y.ItemsInside
  | .block f => f.ItemsInside
  | .slot _ f => f.ItemsInside
  | .node _ _ .added _ _ => True
  | .node _ _ _ _ child => child.ItemsInside
  | .item _ _ _ _ => False
  | .comb _ _ => True
  | .list _ _ => True

/-- No list items at all (lists are empty). -/
def Fut.NoItems : Fut → Prop
  | .done => True
  | .both x y => x.NoItems ∧ y.NoItems
  | .block f => f.NoItems
  | .slot _ f => f.NoItems
  | .node _ _ _ _ child => child.NoItems
  | .item _ _ _ _ => False
  | .comb _ f => f.NoItems
  | .list _ f => f = .done

/-- No part has been polled. -/
def Fut.Unpolled : Fut → Prop
  | .done => True
  | .both x y => x.Unpolled ∧ y.Unpolled
  | .block f => f.Unpolled
  | .slot _ f => f.Unpolled
  | .node _ _ mode _ child => mode = .shouldAdd ∧ child.Unpolled
  | .item _ _ _ child => child.Unpolled
  | .comb _ f => f.Unpolled
  | .list _ f => f.Unpolled

/-- No combinator outside of elements that are on display and of lists. -/
def Fut.NoComb : Fut → Prop
  | .done => True
  | .both x y => x.NoComb ∧ y.NoComb
  | .block f => f.NoComb
  | .slot _ f => f.NoComb
  | .node _ _ _ _ child => child.NoComb
  | .item _ _ _ child => child.NoComb
  | .comb _ _ => False
  | .list _ _ => True

end Verif.Drop
