import Verif.Lists.Modeled
import Verif.Lists.Diffed
/-!
# How much work the lists do

The functions of `Verif.Lists.Dynamic`, `Diffed` and `Modeled` once more, line by line, with a counter of
elementary operations: calls of the DOM, accesses to one entry of a hash map or hash set, spawned and
dropped tasks, calls of the renderer, steps of loops. Straight-line code in between is not counted.
`Verif.Lists.WorkLemmas` shows that without the counter these are the functions of the model.

Simplification: growing a vector or a hash map is not counted (it is amortised in Rust's collections).
-/
namespace Verif.Lists
open Verif.Dom

/-- A computation that counts its elementary operations; `none` is a panic. -/
def W (α : Type) := Nat → Option (α × Nat)

instance : Monad W where
  pure a := fun n => some (a, n)
  bind x f := fun n => (x n).bind fun r => f r.1 r.2

/-- `k` elementary operations. -/
def tick (k : Nat) : W Unit := fun n => some ((), n + k)

/-- Nothing is counted. -/
def free {α : Type} (o : Option α) : W α := fun n => o.map fun a => (a, n)

/-- One call of the DOM. -/
def domCall (o : Option Dom) : W Dom := do
  tick 1
  free o

/-! ## DynamicList -/

/-- The loop of `move_nodes_before`, dynamic_list.rs 357-365. -/
def moveLoopW (src dst stop : NodeId) (after : Option NodeId) : Nat → Dom → NodeId → W Dom
  | 0, _, _ => free none
  | fuel + 1, d, node => do
    tick 1 -- `next_sibling`, 359
    let next := nextIn node (d.kids src)
    let d ← domCall (d.insertBefore dst node after) -- 360
    tick 1 -- `is_same_node`, 361
    if node = stop then return d
    match next with
    | none => free none
    | some n => moveLoopW src dst stop after fuel d n

/-- `move_nodes_before`, dynamic_list.rs 351-366. -/
def moveNodesW (d : Dom) (src dst start stop : NodeId) (after : Option NodeId) : W Dom :=
  moveLoopW src dst stop after ((d.kids src).length + 1) d start

/-- Removing the two markers, dynamic_list.rs 153-154, 180-181 and 284-285. -/
def removeMarkersW (d : Dom) (container : NodeId) (x : Stored) : W Dom := do
  let d ← domCall (d.removeChild container x.start)
  domCall (d.removeChild container x.stop)

/-- `insert`, dynamic_list.rs 122-159. -/
def insertW (d : Dom) (L : DynList) (key : Key) (before : Option Key) (start stop : NodeId) :
    W (Dom × DynList × Bool) := do
  tick 2 -- two comments, 125-126
  tick 1 -- `get`, 128
  let after ← free (L.after before)
  let d ← domCall (d.insertBefore L.container stop (some after))
  let d ← domCall (d.insertBefore L.container start (some stop))
  tick 1 -- `spawn`, 137-139
  tick 1 -- `items.insert`, 149
  match L.get key with
  | some old =>
    tick 1 -- `drop(task)`, 151
    let d ← removeMarkersW d L.container old
    return (d, { L with items := L.items.map fun e => if e.1 = key then (key, ⟨start, stop⟩) else e }, true)
  | none => return (d, { L with items := L.items ++ [(key, ⟨start, stop⟩)] }, false)

/-- `remove`, dynamic_list.rs 166-186. -/
def removeW (d : Dom) (L : DynList) (key : Key) : W (Dom × DynList × Bool) := do
  tick 1 -- `items.remove`, 176
  match L.get key with
  | some x =>
    tick 1 -- `drop(task)`, 178
    let d ← removeMarkersW d L.container x
    return (d, { L with items := L.items.filter fun e => e.1 != key }, true)
  | none => return (d, L, false)

/-- `contains_key`, dynamic_list.rs 192-198. -/
def DynList.containsKeyW (L : DynList) (key : Key) : W Bool := do
  tick 1
  return L.containsKey key

/-- `move_before`, dynamic_list.rs 211-228. -/
def moveBeforeW (d : Dom) (L : DynList) (toMove : Key) (before : Option Key) : W Dom := do
  tick 1 -- `get`, 218
  let after ← free (L.after before)
  tick 1 -- `get`, 220
  let x ← free (L.get toMove)
  moveNodesW d L.container L.container x.start x.stop (some after)

/-- `swap`, dynamic_list.rs 237-262. -/
def swapW (d : Dom) (L : DynList) (key1 key2 : Key) : W Dom := do
  tick 1 -- `get`, 243
  let x1 ← free (L.get key1)
  tick 1 -- `get`, 244
  let x2 ← free (L.get key2)
  if key1 = key2 then return d
  tick 1 -- `next_sibling`, 248
  let afterKey1 := nextIn x1.stop (d.kids L.container)
  let d ← moveNodesW d L.container L.container x1.start x1.stop (some x2.start)
  moveNodesW d L.container L.container x2.start x2.stop afterKey1

/-- `retain`, dynamic_list.rs 274-289: one step and one call of the closure for every entry of the map. -/
def retainLoopW (container : NodeId) (keep : Key → Bool) : List (Key × Stored) → Dom → W Dom
  | [], d => return d
  | e :: es, d => do
    tick 2
    if keep e.1 then retainLoopW container keep es d
    else
      let d ← removeMarkersW d container e.2
      retainLoopW container keep es d

def retainW (d : Dom) (L : DynList) (keep : Key → Bool) : W (Dom × DynList) := do
  let d ← retainLoopW L.container keep L.items d
  return (d, { L with items := L.items.filter fun e => keep e.1 })

/-- A call of the list. What the rest of the program does is not counted. -/
def stepW (s : Sys) : Op → W (Sys × Option Bool)
  | .insert k b x y => do
    let r ← insertW s.dom s.list k b x y
    return (⟨r.1, r.2.1⟩, some r.2.2)
  | .remove k => do
    let r ← removeW s.dom s.list k
    return (⟨r.1, r.2.1⟩, some r.2.2)
  | .moveBefore k b => do
    let d ← moveBeforeW s.dom s.list k b
    return (⟨d, s.list⟩, none)
  | .swap a b => do
    let d ← swapW s.dom s.list a b
    return (⟨d, s.list⟩, none)
  | .retain p => do
    let r ← retainW s.dom s.list p
    return (⟨r.1, r.2⟩, none)
  | op => free (step s op)

/-- Calls in a row. Before each of them the renderer may be called (diffed_list.rs 101, modeled_list.rs
285 and 316). -/
def runW (s : Sys) : List Op → W (Sys × List (Option Bool))
  | [] => return (s, [])
  | op :: ops => do
    tick 1
    let (s, a) ← stepW s op
    let (s, as) ← runW s ops
    return (s, a :: as)

/-! ## DiffedList -/

/-- `update`, diffed_list.rs 85-110: collecting the old keys (91), one step for every new key with an
access to the set, a look at the iterator and a step of it (93-105), one step for every key that is left
(106), and the calls. -/
def Diffed.updateW (drain : List Key → List Key) (D : Diffed) (keys : List Key) (mk : Key → NodeId × NodeId) :
    W Diffed := do
  let r := diffLoop mk D.prev D.prev keys
  tick D.prev.length
  tick (4 * keys.length)
  tick r.2.length
  let (sys, _) ← runW D.sys (r.1 ++ (drain r.2).map .remove)
  return ⟨sys, keys⟩

/-! ## ModeledList -/

/-- The loops of `update` without the calls of the list: with the log, one step for every change
(275-297); otherwise one step for every key of the model (301), two accesses to sets for every item of the
list (306-307), and a step and an access for every key of the model, twice (314-318, 320-325). -/
def Modeled.visits (M : Modeled) (i : Nat) (m : Model) : Nat :=
  if M.useLog i m then (m.changes.drop (M.version - m.logStart)).length
  else m.vec.length + 2 * M.sys.list.items.length + 2 * m.vec.length + 2 * m.vec.length

/-- `update`, modeled_list.rs 255-328. -/
def Modeled.updateW (M : Modeled) (i : Nat) (m : Model) (mk : Nat → NodeId × NodeId) : W Modeled := do
  tick (M.visits i m)
  let (sys, as) ← runW M.sys (M.calls i m mk)
  if M.useLog i m && !assertions (M.calls i m mk) as then free none
  else return ⟨sys, m.version, some i⟩

end Verif.Lists
