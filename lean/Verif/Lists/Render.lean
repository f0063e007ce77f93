import Verif.Lists.Dynamic
import Verif.Dom.HistorySpec
/-!
# Rendering a DynamicList in a context

`DynamicList::render` with the context of `Verif.Dom.Context`.
-/
namespace Verif.Lists
open Verif.Dom

/-- `render` up to its first suspension, dynamic_list.rs 294-329, in a context. The first poll of
`ContainerNodeFuture` is `add_child` at the context's own position (303-305), dropping it is
`remove_child` there (311). `parent_node()` (306) is the containing node, since `add_child` has just
put the marker there. -/
def renderCtx (b : Build) (s : State) (ctx : Ctx) (L : DynList) : Option (State × DynList) := do
  let parent := ctx.containingNode
  let s ← ctx.addChild b s [] L.listStart
  let d ← s.dom.insertBefore parent L.listEnd (some L.listStart)
  let s ← ctx.removeChild b { s with dom := d } []
  let d ← s.dom.insertBefore parent L.listStart (some L.listEnd)
  if L.container = L.frag then
    let d ← insertAll parent L.listEnd (d.kids L.frag) d
    return ({ s with dom := d }, { L with container := parent })
  else none

/-! ## what the user expects -/

/-- A list with the given markers has its own place among the displayed nodes of a group: those that
come before it in source order are before it in the document, those that come after it are after it
(and so is the marker of the group, if there is one). -/
def InPlace (P : Places) (D : Display) (d : Dom) (g : GroupId) (path : List Nat) (ls le : NodeId) : Prop :=
  (∀ x ∈ D.shown, x.group = g →
    (SourceBefore x.path path → List.Sublist [x.node, ls] (d.kids (P g).1)) ∧
    (SourceBefore path x.path → List.Sublist [le, x.node] (d.kids (P g).1))) ∧
  (∀ r, (P g).2 = some r → List.Sublist [le, r] (d.kids (P g).1)) ∧
  List.Sublist [ls, le] (d.kids (P g).1)

/-- Nothing is displayed at or below the place of the list. -/
def PlaceFree (D : Display) (g : GroupId) (path : List Nat) : Prop :=
  ∀ x ∈ D.shown, x.group = g → ¬ path <+: x.path

/-- Some node is displayed between two places. -/
def SomethingBetween (D : Display) (g : GroupId) (a b : List Nat) : Prop :=
  ∃ x ∈ D.shown, x.group = g ∧ SourceBefore a x.path ∧ SourceBefore x.path b

/-- Which events leave the list alone: nobody takes its markers away or renders at its place, and
**a component that comes before the list is rendered only while another one between it and the list
is displayed**. -/
def Quiet (g : GroupId) (path : List Nat) (ls le : NodeId) (D : Display) : Verif.Dom.Op → Prop
  | .render ctx _ => ctx.group = g → ¬ path <+: ctx.path ∧
      (SourceBefore ctx.path path → SomethingBetween D g ctx.path path)
  | .foreignRemove _ n => n ≠ ls ∧ n ≠ le
  | _ => True

def QuietHistory (g : GroupId) (path : List Nat) (ls le : NodeId) : Display → List Verif.Dom.Op → Prop
  | _, [] => True
  | D, op :: ops => Quiet g path ls le D op ∧ QuietHistory g path ls le (D.step op) ops

end Verif.Lists
