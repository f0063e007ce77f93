import Verif.Tree.Model
import Verif.Lists.NestSystem
import Verif.Lists.Items
import Verif.Lists.Render
/-!
# An app with dynamic lists

A mounted component tree (`Verif.Tree.Model`) together with any number of `DynamicList`s
(`lists/dynamic_list.rs`) whose items are component trees themselves: one document, one set of groups.

Simplifications.
* What happens during one poll is cut into events. An event is a poll of the app or of one item in which
  no list is touched, or one call of a list, or the beginning or the end of a future of `render`. A poll
  that does several of these things is the sequence of them. In particular a component that awaits
  `list.render()` is an `async` block that is pending, and the future of `render` starts and ends with its
  own events; its place in the component tree is the context of the event.
* The executors of all the lists keep their tasks in one collection (`tasks`); a task knows its list.
  Which task runs when is left open.
* The drop of a list is an event of its own. Where it happens does not matter: it is not looked up.
* As in `Verif.Lists.Dynamic`, keys are natural numbers.
-/
namespace Verif.Whole
open Verif.Dom Verif.Drop Verif.Lists Verif.Tree

/-- The task of an item, `dynamic_list.rs` 136-145: a `SiblingNodeFuture` (`node_sibling.rs` 20-26) in
the executor of the list. The number of the end marker is used as the number of its group as well. -/
structure Task where
  list : Nat
  stop : NodeId
  /-- the address of its `DropBlocker` -/
  addr : Addr
  fut : Fut
  /-- `Stored` (`dynamic_list.rs` 66-70), which owns the handle of the task, is still in the list. The
  executor drops the future of a task without a handle instead of polling it. -/
  live : Bool

/-- A list and, while it is rendered, the context in which its future of `render` is polled. -/
structure ListSt where
  list : DynList
  ctx : Option Ctx

structure Whole where
  app : App
  lists : Nat → Option ListSt
  tasks : List Task
  /-- the lists that have been dropped, as they were; only used to say what there has been -/
  gone : Nat → Option ListSt

/-- A call of a list. `insert` is given a future that user code has just created. -/
inductive LCall
  | insert (key : Key) (before : Option Key) (addr : Addr) (item : Shape)
  | remove (key : Key)
  | moveBefore (key : Key) (before : Option Key)
  | swap (a b : Key)
  | retain (keep : Key → Bool)

/-- The call with the comments that `insert` creates. -/
def LCall.call (n : Nat) : LCall → Call
  | .insert k b _ _ => .insert k b n (n + 1)
  | .remove k => .remove k
  | .moveBefore k b => .moveBefore k b
  | .swap a b => .swap a b
  | .retain p => .retain p

inductive Event
  | app (e : Tree.Event)
  /-- `DynamicList::new` -/
  | newList (i : Nat)
  | call (i : Nat) (c : LCall)
  /-- the future of `list.render()` is polled for the first time, in the context `ctx` -/
  | render (i : Nat) (ctx : Ctx)
  /-- that future is dropped -/
  | unrender (i : Nat)
  /-- the executor of a rendered list polls an item -/
  | pollItem (stop : NodeId) (script : Script)
  /-- the executor of a rendered list drops the future of an item whose handle has been dropped -/
  | dropItem (stop : NodeId)
  /-- the list is dropped; `addr` is the address of its blocker -/
  | dropList (i : Nat) (addr : Addr)

namespace Whole

def st (W : Whole) : State := W.app.t.d.st

def next (W : Whole) : Nat := W.app.t.next

def dom (W : Whole) : Dom := W.st.dom

def withState (W : Whole) (t : TState) : Whole := { W with app := { W.app with t := t } }

def setList (W : Whole) (i : Nat) (L : ListSt) : Whole :=
  { W with lists := fun j => if j = i then some L else W.lists j }

def task (W : Whole) (stop : NodeId) : Option Task := W.tasks.find? fun t => t.stop = stop

def setTask (W : Whole) (stop : NodeId) (f : Fut) : Whole :=
  { W with tasks := W.tasks.map fun t => if t.stop = stop then { t with fut := f } else t }

def dropTask (W : Whole) (stop : NodeId) : Whole :=
  { W with tasks := W.tasks.filter fun t => t.stop ≠ stop }

end Whole

/-- Dropping `Stored` drops the handle of the task (`dynamic_list.rs` 153-157, 180-184, 281-287). -/
def cancel (i : Nat) (L : DynList) (tasks : List Task) : List Task :=
  tasks.map fun t => if t.list = i ∧ t.stop ∉ L.items.map (·.2.stop) then { t with live := false } else t

/-- The future that `insert` is given, and its task, `dynamic_list.rs` 136-145. -/
def LCall.newTasks (i n : Nat) : LCall → List Task × Nat
  | .insert _ _ a item =>
    let (f, m) := item.make (n + 2)
    ([⟨i, n + 1, a, f, true⟩], m)
  | _ => ([], n)

/-- The futures of the items of a list, as fields of its executor. -/
def itemFuts (i : Nat) : List Task → Fut
  | [] => .done
  | t :: ts => if t.list = i then .both (.item t.stop t.stop t.addr t.fut) (itemFuts i ts) else itemFuts i ts

/-- One event; `none` = panic. Events of tasks and futures that there are not have no effect. -/
def Whole.step (b : Build) (W : Whole) : Event → Option Whole
  | .app e => (W.app.step b e).map fun A => { W with app := A }
  -- `dynamic_list.rs` 88-104
  | .newList i => do
    let n := W.next
    let (d, L) ← Lists.new W.dom n (n + 1) (n + 2)
    return (W.withState ⟨⟨⟨W.st.groups, d⟩, W.app.t.d.flag⟩, n + 3⟩).setList i ⟨L, none⟩
  -- `dynamic_list.rs` 122-289
  | .call i c => do
    let L ← W.lists i
    let (d, L', _) ← (c.call W.next).run W.dom L.list
    let (new, n) := c.newTasks i W.next
    let W' := (W.withState ⟨⟨⟨W.st.groups, d⟩, W.app.t.d.flag⟩, n⟩).setList i ⟨L', L.ctx⟩
    return { W' with tasks := new ++ cancel i L' W.tasks }
  -- `dynamic_list.rs` 294-329
  | .render i ctx => do
    let L ← W.lists i
    let (s, L') ← renderCtx b W.st ctx L.list
    return (W.withState ⟨⟨s, W.app.t.d.flag⟩, W.next⟩).setList i ⟨L', some ctx⟩
  -- `dynamic_list.rs` 330-339
  | .unrender i => do
    let L ← W.lists i
    match L.ctx with
    | none => return W
    | some _ => do
      let (d, L') ← Lists.unrender W.dom L.list
      return (W.withState ⟨⟨⟨W.st.groups, d⟩, W.app.t.d.flag⟩, W.next⟩).setList i ⟨L', none⟩
  -- `dynamic_list.rs` 340, `node_sibling.rs` 38-51; a future that is ready is dropped by the executor
  | .pollItem y script =>
    match W.task y, (W.task y).bind fun t => (W.lists t.list).bind (·.ctx) with
    | some t, some ctx =>
      if t.live then do
        let (f, s, ready) ← poll b script (itemCtx ctx y) t.fut W.app.t
        if ready then
          let d ← (Fut.item y y t.addr f).drop b (some ctx) s.d
          return (W.withState ⟨d, s.next⟩).dropTask y
        else return (W.withState s).setTask y f
      else some W
    | _, _ => some W
  | .dropItem y =>
    match W.task y, (W.task y).bind fun t => (W.lists t.list).bind (·.ctx) with
    | some t, some ctx =>
      if t.live then some W
      else do
        let d ← (Fut.item y y t.addr t.fut).drop b (some ctx) W.app.t.d
        return (W.withState ⟨d, W.next⟩).dropTask y
    | _, _ => some W
  -- `dynamic_list.rs` 344-348 and 53-59. No context is set: blocked drops do not look it up.
  | .dropList i a => do
    let L ← W.lists i
    let d ← (Fut.list a (itemFuts i W.tasks)).drop b none W.app.t.d
    return { W.withState ⟨d, W.next⟩ with
      lists := fun j => if j = i then none else W.lists j
      tasks := W.tasks.filter fun t => t.list ≠ i
      gone := fun j => if j = i then some L else W.gone j }

def Whole.run (b : Build) (W : Whole) : List Event → Option Whole
  | [] => some W
  | e :: es => do
    let W ← W.step b e
    W.run b es

/-- `mount_at(app, node)`, with no lists yet. -/
def Whole.mount (app : Shape) (node : NodeId) (dom : Dom) (foreign : List (NodeId × NodeId)) (next : Nat) : Whole :=
  ⟨App.mount app node dom foreign next, fun _ => none, [], fun _ => none⟩

end Verif.Whole
