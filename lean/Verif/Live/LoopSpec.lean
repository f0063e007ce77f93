import Verif.Live.Full
/-!
# C71: loops that read, act and wait

A component of the form `loop { act(values of some cells and inputs); race((until they change)).await }`, as in
`examples/web-simple-examples/src/flight.rs` (39-67) and `timer.rs` (38-51, 69-75). `Loop.Runs` says what such a loop does;
everything else that happens in the app is arbitrary.
-/
namespace Verif.Live
open XBow.Data (Data Layer)

/-- Something with a value: the cell `n`, or the form element `t` of page `pg` (also any other property of an element
that is set and read as a whole, such as the value of a `<meter>` or the data of a text node). -/
inductive Item
  | cell (n : Nat)
  | input (pg t : Nat)
deriving DecidableEq

section
variable {D : Nat → Type} {V S O : Type} {hash : XBow.Path → BitVec 64} {enc : Layer → XBow.Seg}

def Item.Val (D : Nat → Type) : Item → Type
  | .cell n => D n
  | .input _ _ => List Char

/-- The values of all things. -/
abbrev Vals (D : Nat → Type) := ∀ x : Item, x.Val D

abbrev FOp (D : Nat → Type) (hash : XBow.Path → BitVec 64) (enc : Layer → XBow.Seg) := (fullSource D hash enc).Op
abbrev Entry (D : Nat → Type) (hash : XBow.Path → BitVec 64) (enc : Layer → XBow.Seg) :=
  (fullSource D hash enc).Op × (fullSource D hash enc).Out

/-- The value that an operation gives to `x`, if it does. -/
def wrote (x : Item) (o : FOp D hash enc) : Option (x.Val D) :=
  match x, o with
  | .cell n, ⟨.cell m, .write v⟩ => if h : m = n then some (h ▸ v) else none
  | .input pg t, ⟨.page pg', .edit t' _ v _⟩ => if pg' = pg ∧ t' = t then some v else none
  | .input pg t, ⟨.page pg', .set t' v⟩ => if pg' = pg ∧ t' = t then some v else none
  | _, _ => none

/-- The value that operations give to `x`: the last one. -/
def lastWrite (x : Item) (ops : List (FOp D hash enc)) : Option (x.Val D) := (ops.filterMap (wrote x)).getLast?

/-- The values of all things after a history; `v0` are the values at the beginning. -/
def valuesAt (v0 : Vals D) (h : List (Entry D hash enc)) : Vals D :=
  fun x => (lastWrite x (h.map (·.1))).getD (v0 x)

/-- Form elements are empty at the beginning; the cells have the values `v`. -/
def initially (v : ∀ n, D n) : Vals D
  | .cell n => v n
  | .input _ _ => []

/-- `cell.borrow()` (and the end of the borrow), `input.value()` -/
def readOps : Item → List (FOp D hash enc)
  | .cell n => [⟨.cell n, .borrow⟩, ⟨.cell n, .dropRef⟩]
  | .input pg t => [⟨.page pg, .read t⟩]

/-- `cell.until_change()`, and `input.until_input()` for events of type `y` -/
def listenOp : Item × Nat → FOp D hash enc
  | (.cell n, _) => ⟨.cell n, .listen⟩
  | (.input pg t, y) => ⟨.page pg, .ev (.new t y)⟩

/-- The future number `k` that waits for `x` is polled with some waker. -/
inductive Polls : Item → Nat → FOp D hash enc → Prop
  | cell (n k wk) : Polls (.cell n) k ⟨.cell n, .poll k wk⟩
  | input (pg t k wk) : Polls (.input pg t) k ⟨.page pg, .ev (.poll k wk)⟩

/-- It is dropped. -/
inductive Drops : Item → Nat → FOp D hash enc → Prop
  | cell (n k) : Drops (.cell n) k ⟨.cell n, .dropListener k⟩
  | input (pg t k) : Drops (.input pg t) k ⟨.page pg, .ev (.drop k)⟩

/-- A poll that returns `Pending`. -/
inductive Pends : (fullSource D hash enc).Out → Prop
  | cell {n op} : Pends ⟨.cell n, op, .polled false⟩
  | input {pg op o ob} : ob.polled = some none → Pends ⟨.page pg, op, { ev := some (o, ob) }⟩

/-- The future number `k` that waits for `x`. -/
def keyOf : Item → Nat → (fullSource D hash enc).Key
  | .cell n, k => ⟨.cell n, some k⟩
  | .input pg _, k => ⟨.page pg, k⟩

/-- The future number `k` was made for `x` (and the type `y` of events). -/
def MadeFor (h : List (Entry D hash enc)) : Item × Nat → Nat → Prop
  | (.cell _, _), _ => True
  | (.input pg t, y), k => (streams (part (things D hash enc) (.page pg) h)).made[k]? = some (t, y)

/-- A loop: what it reads and waits for (form elements with the type of the events that tell of changes), what it does
up to where it waits if the values are `v`, and what nobody else changes while it runs. -/
structure Loop (D : Nat → Type) (hash : XBow.Path → BitVec 64) (enc : Layer → XBow.Seg) where
  watches : List (Item × Nat)
  body : Vals D → List (FOp D hash enc)
  outs : List Item

/-- The loop reads what it waits for, and does not change it. -/
def Loop.Keeps (L : Loop D hash enc) : Prop :=
  ∀ v, ∀ x ∈ L.watches, (∀ o ∈ L.body v, wrote x.1 o = none) ∧ ∀ o ∈ readOps x.1, o ∈ L.body v

/-- One round of the loop, until it waits: it reads and acts, makes a future for each thing it waits for, and polls
them all for the first time; they are the futures `keys`. -/
def Loop.Round (L : Loop D hash enc) (v0 : Vals D) (h : List (Entry D hash enc)) (keys : List Nat)
    (seg : List (Entry D hash enc)) : Prop :=
  ∃ a b, seg = a ++ b ∧
    a.map (·.1) = L.body (valuesAt v0 h) ++ L.watches.map listenOp ∧
    keys.length = L.watches.length ∧ b.length = L.watches.length ∧
    (∀ (j : Nat) (x : (Item × Nat) × Nat) (e : Entry D hash enc), (L.watches.zip keys)[j]? = some x →
      b[j]? = some e → Polls x.1.1 x.2 e.1 ∧ Pends e.2) ∧
    ∀ x ∈ L.watches.zip keys, MadeFor (h ++ a) x.1 x.2

/-- What others do while the loop waits for the futures `keys`: they do not poll these; they do not change what only the
loop changes; if a form element that the loop waits for is changed, it is by the user, and the event is of the right
type. -/
def Loop.Other (L : Loop D hash enc) (keys : List Nat) (e : Entry D hash enc) : Prop :=
  (∀ x ∈ L.watches.zip keys, ¬ Polls x.1.1 x.2 e.1) ∧ (∀ z ∈ L.outs, wrote z e.1 = none) ∧
  ∀ pg t y, (.input pg t, y) ∈ L.watches →
    (∀ v, e.1 ≠ ⟨.page pg, .set t v⟩) ∧ ∀ y' v n, e.1 = ⟨.page pg, .edit t y' v n⟩ → y' = y

/-- The history can be read as one of an app with this loop in it. The loop is waiting for the futures `keys` since a
round that began after the history `since`; or it has not begun. -/
inductive Loop.Runs (L : Loop D hash enc) (v0 : Vals D) :
    List (Entry D hash enc) → Option (List (Entry D hash enc) × List Nat) → Prop
  | start : L.Runs v0 [] none
  /-- before the loop begins -/
  | before {h e} : L.Runs v0 h none → L.Runs v0 (h ++ [e]) none
  | first {h seg keys} : L.Runs v0 h none → L.Round v0 h keys seg → L.Runs v0 (h ++ seg) (some (h, keys))
  | other {h since keys e} : L.Runs v0 h (some (since, keys)) → L.Other keys e →
      L.Runs v0 (h ++ [e]) (some (since, keys))
  /-- the loop is polled, and goes on waiting -/
  | waits {h since keys e x} : L.Runs v0 h (some (since, keys)) → x ∈ L.watches.zip keys → Polls x.1.1 x.2 e.1 →
      Pends e.2 → L.Runs v0 (h ++ [e]) (some (since, keys))
  /-- the loop is polled, stops waiting, and begins the next round -/
  | again {h since keys pre keys' seg} : L.Runs v0 h (some (since, keys)) →
      (∀ e ∈ pre, ∃ x ∈ L.watches.zip keys, Polls x.1.1 x.2 e.1 ∨ Drops x.1.1 x.2 e.1) →
      L.Round v0 (h ++ pre) keys' seg → L.Runs v0 (h ++ pre ++ seg) (some (h ++ pre, keys'))

end
end Verif.Live
