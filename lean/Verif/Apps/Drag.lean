/-!
# Drag and drop

Model of `examples/async_ui_web_draggable/src/lib.rs`: a `Dragger` shared by draggable items. Every item wraps
its content with `wrap_item`; the program reads finished drags from the stream `until_move`.

* An item is identified by its id; two items with equal ids are not modelled.
* Of the events of the browser only what the code reads of them is kept. An event waits in its stream until the
  item is polled, and a later event of the same kind replaces it (C40).
* Lengths are integers.
* `dragenter` (lines 81-87) only calls `prevent_default` and is left out, as are the calls of `prevent_default`,
  `stop_propagation` and `set_data`.
-/

namespace Verif.Drag

variable {Id : Type} [DecidableEq Id]

/-- `enum Inner`, lib.rs lines 191-195. -/
inductive Inner (Id : Type) where
  | notDragging
  | dragStarted (frm : Id) (size : Int)
  | dropped (frm to : Id) (after : Bool)
deriving DecidableEq

/-- `enum SpacerType`, lib.rs lines 19-24. -/
inductive Spacer where
  | before
  | none
  | after
deriving DecidableEq

/-- `struct MoveEvent`, lib.rs lines 185-189. -/
structure Move (Id : Type) where
  frm : Id
  to : Id
  after : Bool
deriving DecidableEq

/-- What one call of `wrap_item` (lib.rs lines 40-153) holds. -/
structure Item where
  /-- The future of `wrap_item` is being polled. -/
  mounted : Bool
  /-- The loop of lines 63-79 waits at line 74 (and otherwise at line 64). -/
  waitingEnd : Bool
  /-- A `dragstart` event not taken yet, and the size of the element (lines 68-72). -/
  start : Option Int
  /-- A `dragend` event not taken yet. -/
  stop : Bool
  /-- A `dragover` event not taken yet: where the pointer is and where the element begins (lines 96-106). -/
  over : Option (Int × Int)
  /-- A `dragleave` event not taken yet: is its target the element itself (line 127)? -/
  leave : Option Bool
  /-- A `drop` event not taken yet. -/
  drop : Bool
  /-- `spacer`, line 54. -/
  spacer : Spacer
  /-- The two paddings of the element's style, before and after. -/
  padding : Int × Int

/-- Lines 46-62 with the first poll of the streams: nothing has arrived and there are no paddings. -/
def Item.fresh : Item :=
  { mounted := true, waitingEnd := false, start := none, stop := false, over := none, leave := none,
    drop := false, spacer := .none, padding := (0, 0) }

/-- The `Dragger` (lib.rs lines 9-13), its items and the reader of `until_move`. -/
structure State (Id : Type) where
  inner : Inner Id
  after : Bool
  items : Id → Item
  /-- `until_move`: the item whose drag it follows (second loop, lines 164-180) or none (first loop, 158-163). -/
  phase : Option Id
  /-- What `until_move` has returned so far. -/
  moves : List (Move Id)

/-- `new`, lib.rs lines 33-39, no item yet. -/
def init : State Id :=
  { inner := .notDragging, after := false, items := fun _ => { Item.fresh with mounted := false }, phase := none,
    moves := [] }

/-- Replace one item. -/
def State.setItem (s : State Id) (i : Id) (t : Item) : State Id :=
  { s with items := fun j => if j = i then t else s.items j }

/-- Line 64 with lines 65-73: take a `dragstart` event. -/
def takeStart (i : Id) (s : State Id) : State Id :=
  let t := s.items i
  match t.waitingEnd, t.start with
  | false, some size =>
    { s.setItem i { t with start := none, waitingEnd := true } with inner := .dragStarted i size }
  | _, _ => s

/-- Line 74 with lines 75-78: take a `dragend` event. -/
def takeEnd (i : Id) (s : State Id) : State Id :=
  let t := s.items i
  match t.waitingEnd, t.stop with
  | true, true =>
    { s.setItem i { t with stop := false, waitingEnd := false } with
      inner := match s.inner with
        | .dragStarted _ _ => .notDragging
        | x => x }
  | _, _ => s

/-- Lines 60-80: the loop goes on until the stream it waits for is empty. Each stream holds one event at most, so
three turns are enough whichever line it starts from. -/
def pollStartEnd (i : Id) (s : State Id) : State Id := takeStart i (takeEnd i (takeStart i s))

/-- Lines 88-125. -/
def pollOver (i : Id) (s : State Id) : State Id :=
  let t := s.items i
  match t.over with
  | none => s
  | some (pointer, begins) =>
    let t := { t with over := none }
    match s.inner with
    | .dragStarted frm size =>
      if frm = i then s.setItem i t
      else
        let after := decide (2 * pointer > 2 * begins + size)
        let t' := { t with spacer := if after then Spacer.after else Spacer.before }
        let t'' :=
          match after, t.spacer with
          | true, .after => t'
          | false, .before => t'
          | true, _ => { t' with padding := (0, size) }
          | false, _ => { t' with padding := (size, 0) }
        { s.setItem i t'' with after := after }
    | _ => s.setItem i t

/-- Lines 126-133. -/
def pollLeave (i : Id) (s : State Id) : State Id :=
  let t := s.items i
  match t.leave with
  | none => s
  | some true => s.setItem i { t with leave := none, spacer := .none, padding := (0, 0) }
  | some false => s.setItem i { t with leave := none }

/-- Lines 134-150. -/
def pollDrop (i : Id) (s : State Id) : State Id :=
  let t := s.items i
  if t.drop then
    { s.setItem i { t with drop := false, spacer := .none, padding := (0, 0) } with
      inner := match s.inner with
        | .dragStarted frm _ => .dropped frm i s.after
        | x => x }
  else s

/-- One poll of the future of `wrap_item` (lines 56-152): `race` polls its parts in order. -/
def pollItem (i : Id) (s : State Id) : State Id :=
  if (s.items i).mounted then pollDrop i (pollLeave i (pollOver i (pollStartEnd i s))) else s

/-- One poll of the stream `until_move` (lines 154-183). The stream looks at the state when it is polled first and
whenever the state has changed; looking again at an unchanged state has no effect (`pollMove_again` in
`DragProps`), so it looks at every poll here. -/
def pollMove (s : State Id) : State Id :=
  match s.phase, s.inner with
  | none, .dragStarted frm _ => { s with phase := some frm }
  | none, _ => s
  | some d, .dragStarted frm _ => if frm = d then s else { s with phase := some frm }
  | some _, .dropped frm to after => { s with phase := none, moves := s.moves ++ [⟨frm, to, after⟩] }
  | some _, .notDragging => { s with phase := none }

/-- What the browser tells an item. -/
inductive Event where
  | start (size : Int)
  | stop
  | over (pointer begins : Int)
  | leave (self : Bool)
  | drop
deriving DecidableEq

/-- The listener of an event puts it in its stream (C40). -/
def fire (i : Id) (e : Event) (s : State Id) : State Id :=
  let t := s.items i
  if t.mounted then
    match e with
    | .start size => s.setItem i { t with start := some size }
    | .stop => s.setItem i { t with stop := true }
    | .over p b => s.setItem i { t with over := some (p, b) }
    | .leave self => s.setItem i { t with leave := some self }
    | .drop => s.setItem i { t with drop := true }
  else s

/-- What can happen. -/
inductive Action (Id : Type) where
  /-- An item is rendered. -/
  | mount (i : Id)
  /-- The future of `wrap_item` is dropped. -/
  | unmount (i : Id)
  | fire (i : Id) (e : Event)
  | pollItem (i : Id)
  | pollMove

/-- One action. -/
def step (s : State Id) : Action Id → State Id
  | .mount i => s.setItem i .fresh
  | .unmount i => s.setItem i { Item.fresh with mounted := false }
  | .fire i e => fire i e s
  | .pollItem i => pollItem i s
  | .pollMove => pollMove s

/-- Several actions. -/
def run (s : State Id) (as : List (Action Id)) : State Id := as.foldl step s

end Verif.Drag
