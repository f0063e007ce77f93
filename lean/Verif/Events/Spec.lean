import Verif.Events.Model

/-!
# What event streams should do

The history of an event stream, kept apart from how the code stores it.
-/

namespace Verif.Events

/-- What has happened to one stream.
`capture`/`passive`: the options as they were at the first poll, or are now if there was none yet.
`waker`: the waker of the last poll, if there was one.
`unread`: the last event since the last poll, if there was one. -/
structure View where
  capture : Bool := false
  passive : Bool := false
  waker : Option Waker := none
  dropped : Bool := false
  unread : Option Ev := none
deriving DecidableEq, Repr

/-- The history of all streams: target and type of each, the streams in the order of their first
polls, and what happened to each. -/
structure History where
  made : List (Nat × Nat) := []
  order : List Nat := []
  view : Nat → View := fun _ => {}

/-- Changes what is known of stream `i`. -/
def History.upd (H : History) (i : Nat) (f : View → View) : History :=
  { H with view := fun j => if j = i then f (H.view j) else H.view j }

/-- One more thing happens.  The JavaScript function number `c` is the listener of the stream that
was the `c`-th to be polled for the first time. -/
def History.next (H : History) : Op → History
  | .new t y => { H with made := H.made ++ [(t, y)] }
  | .setCapture i b => H.upd i fun v => if v.waker = none then { v with capture := b } else v
  | .setPassive i b => H.upd i fun v => if v.waker = none then { v with passive := b } else v
  | .poll i w =>
      { H with order := if (H.view i).waker = none then H.order ++ [i] else H.order }.upd i
        fun v => { v with waker := some w, unread := none }
  | .drop i => H.upd i fun v => { v with dropped := true }
  | .deliver l e =>
      match H.order[l.callback]? with
      | some i => H.upd i fun v => { v with unread := some e }
      | none => H

/-- The history after the `Op`s. -/
def history (ops : List Op) : History := ops.foldl History.next {}

/-- The listener that stream `i`, the `c`-th to be polled, should have while it lives. -/
def History.wanted (H : History) (c i : Nat) : Listener :=
  ⟨(H.made[i]?.getD (0, 0)).1, (H.made[i]?.getD (0, 0)).2, c, (H.view i).capture, (H.view i).passive⟩

/-- The listeners that should be in the DOM: one for each stream polled and not dropped. -/
def History.listeners (H : History) : List Listener :=
  H.order.zipIdx.filterMap fun (i, c) => if (H.view i).dropped then none else some (H.wanted c i)

/-- The listeners of dropped streams that had the capture option. -/
def History.leaked (H : History) (i : Nat) : Bool := (H.view i).dropped && (H.view i).capture

/-- The events the browser delivered to stream `i`, in order. -/
def delivered (i : Nat) : History → List Op → List Ev
  | _, [] => []
  | H, op :: ops =>
      (match op with
        | .deliver l e => if H.order[l.callback]? = some i then [e] else []
        | _ => []) ++ delivered i (H.next op) ops

/-- The events that polls of stream `i` returned, in order. -/
def yielded (i : Nat) : List Op → List Obs → List Ev
  | .poll j _ :: ops, o :: os =>
      (if j = i then (o.polled.join).toList else []) ++ yielded i ops os
  | _ :: ops, _ :: os => yielded i ops os
  | _, _ => []

end Verif.Events
