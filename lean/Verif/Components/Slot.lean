/-!
# DynamicSlot

`DynamicSlot` (`async_ui_web/src/components/dynamic_slot.rs`): a place to render a future that can
be exchanged.

A call of `set_future` or `clear_future` made by the future in the slot while it is being polled
does the same as the call made right after that poll (the channel is not borrowed then, lines
73-84, and the poll changes nothing afterwards), so it is not a case of its own.  Calls made by the
*destructor* of a future are: `Fut.touchy`.  Not modelled: two `render` futures of one slot at the
same time (the documentation rules it out), and what the futures put into the DOM (C34's and C08's
models say where).
-/

namespace Verif.Slot

/-- A future that is put into the slot.  `touchy`: its destructor calls `set_future` or
`clear_future` on this slot. -/
structure Fut where
  id : Nat
  touchy : Bool := false
deriving DecidableEq, Repr

/-- A waker, up to `will_wake`. -/
abbrev Waker := Nat

/-- `Message` (dynamic_slot.rs 39-46). -/
inductive Message where
  | set (f : Fut)
  | clear
  | noChange
deriving DecidableEq, Repr

/-- The slot: `channel` (dynamic_slot.rs 36) is `waker` and `message`, `held` is `fut_slot` of the
`render` future (line 73). -/
structure State where
  waker : Waker
  message : Message
  held : Option Fut
deriving DecidableEq, Repr

/-- What can be observed: wakers woken, futures polled (and whether they were ready), futures
dropped. -/
inductive Event where
  | woke (w : Waker)
  | polled (f : Fut) (ready : Bool)
  | dropped (f : Fut)
deriving DecidableEq, Repr

/-- The waker of `dummy_waker()`. -/
def dummy : Waker := 0

/-- `DynamicSlot::new` (dynamic_slot.rs 56-60); line 73. -/
def new : State := ⟨dummy, .noChange, none⟩

/-- Things that happen to a slot.  `poll w r`: its `render` future is polled with waker `w`, and if
that polls the future in the slot, `r` is whether it returns `Ready`.  `stop`: the `render` future
is dropped (after this, `poll` is the poll of a new one). -/
inductive Op where
  | set (f : Fut)
  | clear
  | poll (w : Waker) (r : Bool)
  | stop
deriving DecidableEq, Repr

/-- Drops a value while `channel` is borrowed mutably; if its destructor uses the slot that is a
panic, `none`. -/
def dropBorrowed : Option Fut → Option (List Event)
  | none => some []
  | some f => if f.touchy then none else some [.dropped f]

/-- The future in a message. -/
def Message.fut : Message → Option Fut
  | .set f => some f
  | _ => none

/-- `set_future` (dynamic_slot.rs 97-101) and `clear_future` (104-108). -/
def send (S : State) (m : Message) : Option (State × List Event) := do
  let d ← dropBorrowed S.message.fut
  some ({ S with message := m }, d ++ [.woke S.waker])

/-- Lines 77-81: does what the message says. -/
def apply (S : State) : Option (Option Fut × List Event) :=
  match S.message with
  | .set f => (dropBorrowed S.held).map (some f, ·)
  | .clear => (dropBorrowed S.held).map (none, ·)
  | .noChange => some (S.held, [])

/-- Lines 75-86: takes the message and keeps the waker. -/
def receive (S : State) (w : Waker) : Option (State × List Event) := do
  let (held, d) ← apply S
  some (⟨if S.waker = w then S.waker else w, .noChange, held⟩, d)

/-- Does the `Op`; `none`: it panics. -/
def step (S : State) : Op → Option (State × List Event)
  | .set f => send S (.set f)
  | .clear => send S .clear
  -- dynamic_slot.rs 74-93
  | .poll w r => do
      let (S, d) ← receive S w
      match S.held with
      | some f => some (S, d ++ [.polled f r])
      | none => some (S, d)
  | .stop => some ({ S with held := none }, (S.held.map Event.dropped).toList)

/-- Does the `Op`s, with what was observed of each. -/
def run (S : State) : List Op → Option (State × List (List Event))
  | [] => some (S, [])
  | op :: ops => do
      let (S1, o) ← step S op
      let (S2, os) ← run S1 ops
      some (S2, o :: os)

end Verif.Slot
