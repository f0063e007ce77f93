import Mathlib.Data.Nat.Fib.Basic
import Mathlib.Data.Nat.Pairing
import Mathlib.Tactic.NormNum.NatFib
import Verif.Lists.ModeledProps
/-!
# C81: the list of Fibonacci numbers

`examples/guide-project/src/dynamicity/lists.rs`, the example for lists of the guide: a `ListModel` of pairs (n, fib n) that gets
one more every second, and a `ModeledList` that is updated each time. Model and list are those of C36. A pair is a key of the list;
here it is a number (`Nat.pair`), from which the pair can be read off. The rendering of the rows is part of the
rest of the program (`Ev.env`), as in C36. `n` is a natural number, not a `usize`; `fib_n` is a `u64`.
-/
namespace Verif.Apps.Fibonacci
open Verif.Lists Verif.Dom

/-- The size of `u64`. -/
def size : Nat := 2 ^ 64

/-- `+` of `u64`: an overflow is a panic if the program was built with debug assertions, otherwise the sum is cut. -/
def add (debug : Bool) (a b : Nat) : Option Nat :=
  if a + b < size then some (a + b) else if debug then none else some ((a + b) % size)

/-- The pair that is pushed, lists.rs 42-51. -/
def next (debug : Bool) (fibo : List Key) : Option Key :=
  (((fibo.reverse.map fun k => k.unpair.2).take 2).foldlM (add debug) 0).map fun s => Nat.pair (fibo.length + 1) s

/-- What happens. -/
inductive Ev
  /-- A second has passed. `mk` gives the comments that `update` creates. -/
  | tick (mk : Nat → NodeId × NodeId)
  /-- The rest of the program, including the rows and the rendering of the list. -/
  | env (op : Lists.Op)

/-- lists.rs 20-27: the model and the first update. -/
def start (sys : Sys) (mk : Nat → NodeId × NodeId) : Option MSys :=
  MSys.run ⟨[], ⟨sys, 0, none⟩⟩ [.create [Nat.pair 1 1, Nat.pair 2 1], .update 0 mk]

/-- An event; a tick is lists.rs 42-53. -/
def step (debug : Bool) (S : MSys) : Ev → Option MSys
  | .tick mk => do
    let m ← S.models[0]?
    let k ← next debug m.vec
    let S ← S.step (.edit 0 (.push k))
    S.step (.update 0 mk)
  | .env op => S.step (.env op)

def run (debug : Bool) : MSys → List Ev → Option MSys
  | S, [] => some S
  | S, e :: es => (step debug S e).bind fun S' => run debug S' es

/-! ## The specification -/

/-- The rows: the first `n` Fibonacci numbers, cut to the size of `u64`. -/
def rows (n : Nat) : List Key := (List.range n).map fun i => Nat.pair (i + 1) (Nat.fib (i + 1) % size)

/-- How many seconds have passed. -/
def ticks (es : List Ev) : Nat := es.countP fun | .tick _ => true | _ => false

/-- The two comments are new. -/
def NewPair (d : Dom) (p : NodeId × NodeId) : Prop := Fresh d p.1 ∧ Fresh d p.2 ∧ p.1 ≠ p.2

/-- The comments that are created are new, and the rest of the program behaves as in C33; `l` are the items of the list. -/
def Allowed (S : MSys) (l : List Item) : Ev → Prop
  | .tick mk => NewPair S.view.sys.dom (mk 0)
  | .env op => op.isCall = false ∧ Verif.Lists.Allowed S.view.sys l op

/-- The items after an event: a tick adds one at the end. -/
def items (n : Nat) (l : List Item) : Ev → List Item
  | .tick mk => l ++ [⟨Nat.pair (n + 1) (Nat.fib (n + 1) % size), (mk 0).1, (mk 0).2, []⟩]
  | .env op => specStep l op

def after (n : Nat) : Ev → Nat
  | .tick _ => n + 1
  | .env _ => n

def itemsRun : Nat → List Item → List Ev → List Item
  | _, l, [] => l
  | n, l, e :: es => itemsRun (after n e) (items n l e) es

def AllowedRun (debug : Bool) (S : MSys) (n : Nat) (l : List Item) : List Ev → Prop
  | [] => True
  | e :: es => Allowed S l e ∧ ∀ S', step debug S e = some S' → AllowedRun debug S' (after n e) (items n l e) es

/-- The content that the rows were given. -/
def given : List Ev → List NodeId
  | [] => []
  | .env (.content _ ns) :: es => ns ++ given es
  | _ :: es => given es

end Verif.Apps.Fibonacci
