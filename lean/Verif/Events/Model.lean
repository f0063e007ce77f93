/-!
# Event streams

`EventFutureStream` (`async_ui_web_html/src/event_handling.rs`) turns the events of one type at one
DOM event target into a future/stream.

The model is a world of DOM event listeners and event streams.  What happens in it is a list of
`Op`s: calls on the streams and calls of the listeners by the browser, in any order.  One DOM event
reaching several streams is several `deliver`s; what the executor does in between (`run_now` at the
end of every callback, event_handling.rs 112) is whatever `Op`s come in between.

Not modelled: `JsCast` (the event is handed over unchanged), the event object itself, and the
errors `addEventListener`/`removeEventListener` can throw (there are none for valid arguments).
-/

namespace Verif.Events

/-- An event object. -/
abbrev Ev := Nat

/-- A waker, up to `will_wake`. -/
abbrev Waker := Nat

/-- An entry of an event target's listener list in the DOM standard.  `callback` identifies the
JavaScript function. -/
structure Listener where
  target : Nat
  type : Nat
  callback : Nat
  capture : Bool
  passive : Bool
deriving DecidableEq, Repr

/-- The DOM standard identifies a listener by target, type, callback and capture flag. -/
def Listener.same (a b : Listener) : Bool :=
  a.target == b.target && a.type == b.type && a.callback == b.callback && a.capture == b.capture

/-- `EventTarget.addEventListener`: nothing happens if the same listener is already there. -/
def addListener (ls : List Listener) (l : Listener) : List Listener :=
  if ls.any l.same then ls else ls ++ [l]

/-- `EventTarget.removeEventListener`. -/
def removeListener (ls : List Listener) (l : Listener) : List Listener :=
  ls.filter fun x => !l.same x

/-- `web_sys::AddEventListenerOptions`: the keys that have been set. -/
structure Options where
  capture : Option Bool := none
  passive : Option Bool := none
deriving DecidableEq, Repr

/-- `EventFutureStream` (event_handling.rs 27-33).  `closure` is the number of the JavaScript
function made for it; `event` and `waker` are the two parts of `shared`. -/
structure Stream where
  target : Nat
  type : Nat
  closure : Option Nat
  event : Option Ev
  waker : Waker
  options : Option Options
deriving DecidableEq, Repr

/-- The waker of `dummy_waker()`. -/
def dummy : Waker := 0

/-- `EventFutureStream::new` (event_handling.rs 38-46). -/
def Stream.new (target type : Nat) : Stream := ⟨target, type, none, none, dummy, none⟩

/-- `set_capture` (event_handling.rs 55-59). -/
def Stream.setCapture (s : Stream) (b : Bool) : Stream :=
  { s with options := some { s.options.getD {} with capture := some b } }

/-- `set_passive` (event_handling.rs 70-74). -/
def Stream.setPassive (s : Stream) (b : Bool) : Stream :=
  { s with options := some { s.options.getD {} with passive := some b } }

/-- The listener that `poll_next` adds (event_handling.rs 114-127); keys that are not set default
to `false`, and so does everything when no options are given. -/
def Stream.listener (s : Stream) (c : Nat) : Listener :=
  match s.options with
  | some o => ⟨s.target, s.type, c, o.capture.getD false, o.passive.getD false⟩
  | none => ⟨s.target, s.type, c, false, false⟩

/-- The listener that `drop` asks the browser to remove (event_handling.rs 161-168): called without
options, so with the capture flag off. -/
def Stream.unlistener (s : Stream) (c : Nat) : Listener := ⟨s.target, s.type, c, false, false⟩

/-- All streams ever made, by number (`none` once dropped), the listeners in the DOM, and for each
JavaScript function made so far the stream whose `shared` it refers to. -/
structure World where
  streams : List (Option Stream)
  listeners : List Listener
  closures : List Nat
deriving DecidableEq, Repr

/-- Nothing has happened. -/
def init : World := ⟨[], [], []⟩

/-- What can be observed of one `Op`: what a poll returned (`some none` is `Poll::Pending`), which
waker was woken, and whether the callback threw because its Rust closure is gone. -/
structure Obs where
  polled : Option (Option Ev) := none
  woke : Option Waker := none
  threw : Bool := false
deriving DecidableEq, Repr

/-- `poll_next` (event_handling.rs 90-135; `poll`, 80-85, returns the same event). -/
def Stream.poll (s : Stream) (c : Nat) (w : Waker) : Stream × Option Listener × Option Ev :=
  -- 96-102
  let s := if s.waker = w then s else { s with waker := w }
  match s.closure with
  -- 104-129
  | none => ({ s with closure := some c }, some (s.listener c), none)
  -- 130-134
  | some _ => ({ s with event := none }, none, s.event)

/-- The callback (event_handling.rs 106-113) while the stream lives. -/
def Stream.callback (s : Stream) (e : Ev) : Stream × Waker := ({ s with event := some e }, s.waker)

/-- Calls on event streams and calls of listeners by the browser.  Streams are numbered in the order
of their creation. -/
inductive Op where
  | new (target type : Nat)
  | setCapture (i : Nat) (b : Bool)
  | setPassive (i : Nat) (b : Bool)
  | poll (i : Nat) (w : Waker)
  | drop (i : Nat)
  | deliver (l : Listener) (e : Ev)
deriving DecidableEq, Repr

/-- Does the `Op`.  `none`: it cannot happen, because the stream does not exist (any more) or the
browser has no such listener. -/
def step (W : World) : Op → Option (World × Obs)
  | .new t y => some ({ W with streams := W.streams ++ [some (.new t y)] }, {})
  | .setCapture i b => do
      let s ← W.streams[i]?.join
      some ({ W with streams := W.streams.set i (some (s.setCapture b)) }, {})
  | .setPassive i b => do
      let s ← W.streams[i]?.join
      some ({ W with streams := W.streams.set i (some (s.setPassive b)) }, {})
  | .poll i w => do
      let s ← W.streams[i]?.join
      match s.poll W.closures.length w with
      | (s', some l, r) =>
          some (⟨W.streams.set i (some s'), addListener W.listeners l, W.closures ++ [i]⟩,
            { polled := some r })
      | (s', none, r) =>
          some ({ W with streams := W.streams.set i (some s') }, { polled := some r })
  -- `Drop for EventFutureStream` (event_handling.rs 159-170)
  | .drop i => do
      let s ← W.streams[i]?.join
      let ls := match s.closure with
        | some c => removeListener W.listeners (s.unlistener c)
        | none => W.listeners
      some ({ W with streams := W.streams.set i none, listeners := ls }, {})
  | .deliver l e =>
      if l ∈ W.listeners then do
        let i ← W.closures[l.callback]?
        match W.streams[i]?.join with
        | some s =>
            some ({ W with streams := W.streams.set i (some (s.callback e).1) },
              { woke := some (s.callback e).2 })
        -- the stream owned the closure: calling it now is an error in wasm-bindgen
        | none => some (W, { threw := true })
      else none

/-- Does the `Op`s, with the observation of each. -/
def run (W : World) : List Op → Option (World × List Obs)
  | [] => some (W, [])
  | op :: ops => do
      let (W1, o) ← step W op
      let (W2, os) ← run W1 ops
      some (W2, o :: os)

end Verif.Events
