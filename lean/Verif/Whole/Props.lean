import Verif.Whole.Ends
/-!
# Property theorem for C64
-/
namespace Verif.Whole
open Verif.Dom Verif.Drop Verif.Lists Verif.Lists.Forest Verif.Tree

/-- **C64.** Mount any app; let it, and the items of any number of dynamic lists, be polled in any order
with user code doing anything; create lists, render them in elements, stop rendering them, call them
with anything that C33 allows, and drop them; let other code insert and remove its own nodes outside the lists: there is
never a panic, and after every event the document shows the component trees of the app and of the items,
every list in its place with its items in order.

Missing: lists that an item renders directly (not in an element of the item), and the place of a list
among its siblings (C34). -/
theorem whole_app_partial (b : Build) (app : Shape) (node : NodeId) (dom : Dom)
    (foreign : List (NodeId × NodeId)) (next : Nat) (events : List Event)
    (hdoc : Document dom foreign next) (hlow : ∀ c x, (c, x) ∈ foreign → c < next) (hnode : node < next)
    (happ : app.Narrow) (hev : Allowed b (Whole.mount app node dom foreign next) (fun _ => []) events) :
    ∃ W, (Whole.mount app node dom foreign next).run b events = some W ∧
      W.Rendered (Orders.run b (fun _ => []) (Whole.mount app node dom foreign next) events) := by
  obtain ⟨W, V, l, D, F, hr, hs, h⟩ := Sim.run b events ⟨rfl, fun _ => rfl, fun i L h => (by cases h), rfl, fun _ => rfl⟩
    (WInv.mount app node dom foreign next hdoc hlow hnode happ) hev
  exact ⟨W, hr, hs.rendered h⟩

end Verif.Whole
