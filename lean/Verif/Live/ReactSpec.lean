import Verif.Live.Page
/-!
# C73: components that wait for an input and then set another

A component of the form `loop { a.until_input().await; if let Some(x) = f(a.value()) { b.set_value(x) } }`, as the two in
`examples/web-simple-examples/src/temp_converter.rs` (11-24). `Reaction.Runs` says what such a component does;
everything else that happens to the page is arbitrary.
-/
namespace Verif.Live
open Verif

/-- It waits for events of the type `type` at the element `input`, and sets the element `out`. -/
structure Reaction where
  input : Nat
  type : Nat
  out : Nat
  f : List Char → Option (List Char)

/-- The value that an operation gives to the element `t`, if it does. -/
def written (t : Nat) : PageOp → Option (List Char)
  | .edit t' _ v _ => if t' = t then some v else none
  | .set t' v => if t' = t then some v else none
  | _ => none

/-- The value of the element `t` after a history: the last that it was given; it is empty at the beginning. -/
def valueOf (t : Nat) (h : List (PageOp × PageOut)) : List Char := ((h.filterMap fun e => written t e.1).getLast?).getD []

/-- Where the component is. -/
inductive ReactState
  /-- it has not begun -/
  | absent
  /-- the stream `k` has been made; it is polled next -/
  | fresh (k : Nat)
  /-- it waits for the stream `k` -/
  | waiting (k : Nat)
  /-- it has received an event; what is left to do before the next round -/
  | busy (rest : List PageOp)

/-- What it does if the value is `v`; the stream `k` is dropped at the end of the statement (13-15, 20-22). -/
def Reaction.body (R : Reaction) (k : Nat) (v : List Char) : List PageOp :=
  [.ev (.drop k), .read R.input] ++ match R.f v with
    | some x => [.set R.out x]
    | none => []

/-- The stream `k` is polled and yields `r`. -/
inductive Yields (k : Nat) (r : Option Events.Ev) : PageOp × PageOut → Prop
  | poll {wk ob v} : ob.polled = some r → Yields k r (.ev (.poll k wk), ⟨v, some (.poll k wk, ob)⟩)

/-- What others do while the component waits for the stream `k`: they leave the stream alone, the output is set by nobody
else, and a change of the input by the user fires an event of the right type. -/
def Reaction.Other (R : Reaction) (k : Nat) (o : PageOp) : Prop :=
  (∀ wk, o ≠ .ev (.poll k wk)) ∧ o ≠ .ev (.drop k) ∧ (∀ v, o ≠ .set R.out v) ∧
    ∀ y v n, o = .edit R.input y v n → y = R.type

/-- What happens next. The component is not interrupted except where it waits. -/
inductive Reaction.Step (R : Reaction) (h : List (PageOp × PageOut)) : ReactState → PageOp × PageOut → ReactState → Prop
  | before {e} : R.Step h .absent e .absent
  | begins {e} : e.1 = .ev (.new R.input R.type) → R.Step h .absent e (.fresh (streams h).made.length)
  | first {k e} : Yields k none e → R.Step h (.fresh k) e (.waiting k)
  | other {k e} : R.Other k e.1 → R.Step h (.waiting k) e (.waiting k)
  | waits {k e} : Yields k none e → R.Step h (.waiting k) e (.waiting k)
  | ready {k n e} : Yields k (some n) e → R.Step h (.waiting k) e (.busy (R.body k (valueOf R.input h)))
  | acts {o rest e} : e.1 = o → R.Step h (.busy (o :: rest)) e (.busy rest)
  | again {e} : e.1 = .ev (.new R.input R.type) → R.Step h (.busy []) e (.fresh (streams h).made.length)

/-- What happens after the history `h`, if the component is at `st` then. -/
inductive Reaction.Steps (R : Reaction) (h : List (PageOp × PageOut)) (st : ReactState) :
    List (PageOp × PageOut) → ReactState → Prop
  | nil : R.Steps h st [] st
  | snoc {l st1 e st2} : R.Steps h st l st1 → R.Step (h ++ l) st1 e st2 → R.Steps h st (l ++ [e]) st2

/-- The history can be read as one of a page with this component. -/
def Reaction.Runs (R : Reaction) (h : List (PageOp × PageOut)) (st : ReactState) : Prop := R.Steps [] .absent h st

end Verif.Live
