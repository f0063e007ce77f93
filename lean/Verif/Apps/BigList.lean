import Verif.Lists.VirtualLemmas
/-!
# C79: the big list and its pool of elements

Model of `examples/big-list/src/app.rs:10-24` on top of `VirtualizedList`: the items take an element out of a pool when they are
polled first and put it back when they are dropped.
-/
namespace Verif.Apps.BigList
open Verif.Lists

/-- The list and the pool.
* The items of the list are tasks of its executor (`dynamic_list.rs:137-139`), with a number each. The order of the items is that
  of C33 and the calls are those of C37.
* `div` is the element that the future of a task holds, `app.rs:16-21`: none before the first poll and after the drop.
* A task that has been removed from the list is cancelled; its future is dropped when the executor gets to it (`drop(task)` in
  `dynamic_list.rs:151,178` puts it into the queue of the executor). -/
structure Big where
  start : Nat
  stop : Nat
  num : Nat
  /-- the tasks of the items of the list, in order -/
  rows : List Nat
  /-- the tasks waiting for the executor -/
  queue : List Nat
  /-- the number of tasks -/
  next : Nat
  /-- the argument of the renderer -/
  index : Nat → Key
  div : Nat → Option Nat
  live : Nat → Bool
  /-- `divs`, the last one first -/
  free : List Nat
  /-- the number of elements created -/
  made : Nat
  /-- the text content of the elements -/
  text : Nat → String

def Big.init : Big :=
  { start := 0, stop := 0, num := 0, rows := [], queue := [], next := 0, index := fun _ => 0, div := fun _ => none,
    live := fun _ => false, free := [], made := 0, text := fun _ => "" }

/-- Where the new row goes: before the row of a key, or to the end. `none` is a panic, `dynamic_list.rs:128`. -/
def place (index : Nat → Key) (new : Nat) : Option Key → List Nat → Option (List Nat)
  | none, l => some (l ++ [new])
  | some _, [] => none
  | some b, x :: l => if index x = b then some (new :: x :: l) else (place index new (some b) l).map (x :: ·)

/-- `drop(task)`: cancelled, and scheduled if it is not already. -/
def Big.cancel (s : Big) (t : Nat) : Big :=
  { s with live := fun x => if x = t then false else s.live x
           queue := if t ∈ s.queue then s.queue else s.queue ++ [t] }

/-- The task of a key. -/
def Big.find (s : Big) (k : Key) : Option Nat := s.rows.find? fun x => s.index x == k

/-- `remove`, `dynamic_list.rs:166-186` -/
def Big.remove (s : Big) (k : Key) : Big :=
  match s.find k with
  | none => s
  | some t => { s.cancel t with rows := s.rows.filter (· != t) }

/-- A task for the key `k`, in the queue but not yet among the rows: `spawn`, `dynamic_list.rs:137-139`. -/
def Big.spawn (s : Big) (k : Key) : Big :=
  { s with
    next := s.next + 1
    index := fun x => if x = s.next then k else s.index x
    div := fun x => if x = s.next then none else s.div x
    live := fun x => if x = s.next then true else s.live x
    queue := s.queue ++ [s.next] }

/-- `insert`, `dynamic_list.rs:122-159`; a task with the same key is replaced. -/
def Big.insert (s : Big) (k : Key) (before : Option Key) : Option Big :=
  match s.find k with
  | none => (place s.index s.next before s.rows).map fun l => { s.spawn k with rows := l }
  | some t =>
    if before = some k then some { (s.spawn k).cancel t with rows := s.rows.map fun x => if x = t then s.next else x }
    else (place s.index s.next before (s.rows.filter (· != t))).map fun l => { (s.spawn k).cancel t with rows := l }

/-- A call of the list; `update_visible` makes no others. -/
def Big.call (s : Big) : Op → Option Big
  | .insert k before _ _ => s.insert k before
  | .remove k => some (s.remove k)
  | _ => none

def Big.calls (s : Big) : List Op → Option Big
  | [] => some s
  | op :: ops => do (← s.call op).calls ops

/-- `update_visible`, `virtualized_list.rs:171-229` -/
def Big.update (s : Big) (g : Measured) : Option Big :=
  if (g.farFront || s.start == 0) && (g.farBack || s.stop == s.num) then some s
  else do
    let s' ← s.calls (virtualCalls (fun _ => (0, 0)) s.start s.stop g.newStart (min g.newEnd s.num))
    return { s' with start := g.newStart, stop := min g.newEnd s.num }

/-- The executor runs the `i`-th task in its queue.
* The first poll, `app.rs:16-18`: an element from the pool or a new one gets the index as its text, and is displayed.
* The drop: first the future inside, with which the element disappears from the page, then the guard in `app.rs:19-21` puts it
  back. A future that has never been polled has no guard. -/
def Big.exec (s : Big) (i : Nat) : Big :=
  match s.queue[i]? with
  | none => s
  | some t =>
    let s := { s with queue := s.queue.eraseIdx i }
    if s.live t then
      match s.div t with
      | some _ => s
      | none =>
        match s.free with
        | d :: free => { s with
            free := free
            div := fun x => if x = t then some d else s.div x
            text := fun x => if x = d then toString (s.index t) else s.text x }
        | [] => { s with
            made := s.made + 1
            div := fun x => if x = t then some s.made else s.div x
            text := fun x => if x = s.made then toString (s.index t) else s.text x }
    else
      match s.div t with
      | some d => { s with free := d :: s.free, div := fun x => if x = t then none else s.div x }
      | none => s

inductive BOp
  /-- scrolling and the like -/
  | visible (g : Measured)
  /-- `set_num_items` -/
  | setNum (n : Nat) (g : Measured)
  | exec (i : Nat)

def Big.step (s : Big) : BOp → Option Big
  | .visible g => s.update g
  | .setNum n g => { s with num := n }.update g
  | .exec i => some (s.exec i)

def Big.run (s : Big) : List BOp → Option Big
  | [] => some s
  | op :: ops => do (← s.step op).run ops

/-- The texts of the elements that the rows display, in the order of the list. -/
def Big.page (s : Big) : List String := s.rows.filterMap fun t => (s.div t).map s.text

/-- The elements that are in use: by rows, and by tasks that wait to be dropped. -/
def Big.held (s : Big) : List Nat := (s.rows ++ s.queue).filterMap s.div

end Verif.Apps.BigList
