import Verif.Lists.Virtual
import Verif.Lists.Calls
/-! # What a VirtualizedList should show (C37) -/
namespace Verif.Lists
open Verif.Dom

/-- The window computed last, and the number of items. -/
structure Window where
  start : Nat
  stop : Nat
  num : Nat
deriving DecidableEq

/-- The window stays if the measurements say that nothing has to be done. -/
def Window.next (w : Window) (g : Measured) : Window :=
  if (g.farFront = true ∨ w.start = 0) ∧ (g.farBack = true ∨ w.stop = w.num) then w
  else { w with start := g.newStart, stop := min g.newEnd w.num }

def vSpec (w : Window) : VOp → Window
  | .visible g _ => w.next g
  | .setNum n g _ => { w with num := n }.next g
  | .env _ => w

/-- The window before is empty and starts inside the next one. -/
def Window.restarts (w : Window) (g : Measured) : Prop :=
  w.stop ≤ w.start ∧ (w.next g).start < w.start ∧ w.start < (w.next g).stop

/-- The items that are shown, after the calls that the operation makes. -/
def vItems (V : Virtual) (l : List Item) : VOp → List Item
  | .visible g nodes =>
    if V.quiet g then l
    else (virtualCalls nodes V.start V.stop g.newStart (min g.newEnd V.num)).foldl specStep l
  | .setNum n g nodes =>
    if { V with num := n }.quiet g then l
    else (virtualCalls nodes V.start V.stop g.newStart (min g.newEnd n)).foldl specStep l
  | .env op => specStep l op

/-- The comments created by the calls are new. -/
def NewNodes (d : Dom) (calls : List Op) : Prop :=
  (calls.flatMap madeBy).Nodup ∧ ∀ n ∈ calls.flatMap madeBy, Fresh d n

/-- The comments created are new, the rest of the program behaves as in C33, and an empty window does
not start inside the window that follows it. -/
def VAllowed (V : Virtual) (w : Window) (l : List Item) : VOp → Prop
  | .visible g nodes => NewNodes V.sys.dom (virtualCalls nodes V.start V.stop g.newStart (min g.newEnd V.num)) ∧
      ¬ w.restarts g
  | .setNum n g nodes => NewNodes V.sys.dom (virtualCalls nodes V.start V.stop g.newStart (min g.newEnd n)) ∧
      ¬ { w with num := n }.restarts g
  | .env op => op.isCall = false ∧ Allowed V.sys l op

def VAllowedRun (V : Virtual) (w : Window) (l : List Item) : List VOp → Prop
  | [] => True
  | op :: ops => VAllowed V w l op ∧
      ∀ V', V.step op = some V' → VAllowedRun V' (vSpec w op) (vItems V l op) ops

/-- The content that the items were given. -/
def vGiven : List VOp → List NodeId
  | [] => []
  | .env (.content _ ns) :: ops => ns ++ vGiven ops
  | _ :: ops => vGiven ops

/-- The indices of the window, increasing. -/
def Window.indices (w : Window) : List Key := (List.range w.stop).filter fun k => w.start ≤ k

end Verif.Lists
