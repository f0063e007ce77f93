import Verif.Apps.Flight
/-!
# C72: the x-bow playground

`examples/x-bow-playground/src/lib.rs`: a box for every path of a store. `Box.Runs` says what the code of one box does
(`one_wrapper`, 164-198); everything else that happens in the app is arbitrary, except that it keeps to what the rest of
the code does: nobody else polls the listeners of the box or changes its classes, and the version only goes up by one.
The version (line 32) is the cell 0 and the data is the store 0. That an element of the page has a class is an element of
its own here. Left out: the classes that do not change, the text, the boxes inside.
-/
namespace Verif.Apps
open Verif.Live
open XBow.Data (Data Layer)

/-- All cells hold numbers. -/
abbrev Nums : Nat → Type := fun _ => Nat

/-- One box: its path, its classes `changed_regular` (shown in red) and `changed_bubbling` (green), and its
listeners: of `until_change` and `until_bubbling_change` of the path (176-179), and of `until_change` of the version (180). -/
structure Box where
  path : XBow.Path
  red : Nat
  green : Nat
  regular : Nat
  bubbling : Nat
  version : Nat

/-- Which of the three: `1`, `2` and `3` in the code (178-180). -/
inductive Change
  | regular
  | bubbling
  | version
deriving DecidableEq

section
variable {hash : XBow.Path → BitVec 64} {enc : Layer → XBow.Seg}

/-- The version is 1 at the beginning (151). -/
def versionAt (h : List (Entry Nums hash enc)) : Nat := valuesAt (initially fun _ => 1) h (.cell 0)

/-- The closure (181-190), called with `ch` when the version is `ver`; `prev` is `prev_ver`. -/
def Box.closure (B : Box) (ch : Change) (prev ver : Nat) : List (FOp Nums hash enc) :=
  [⟨.cell 0, .borrow⟩, ⟨.cell 0, .dropRef⟩] ++
  (if prev ≠ ver then [⟨.page 0, .set B.red (flag false)⟩, ⟨.page 0, .set B.green (flag false)⟩] else []) ++
  match ch with
  | .regular => [⟨.page 0, .set B.red (flag true)⟩]
  | .bubbling => [⟨.page 0, .set B.green (flag true)⟩]
  | .version => []

/-- One of the listeners of the box is polled, and is ready or not. -/
inductive Box.Polled (B : Box) : Change → Bool → Entry Nums hash enc → Prop
  | regular {wk r ev} : ev.trace = [(.poll B.regular wk, .polled r)] → B.Polled .regular r
      (⟨.store 0, .sub (.poll B.regular wk)⟩, ⟨.store 0, .sub (.poll B.regular wk), ev⟩)
  | bubbling {wk r ev} : ev.trace = [(.poll B.bubbling wk, .polled r)] → B.Polled .bubbling r
      (⟨.store 0, .sub (.poll B.bubbling wk)⟩, ⟨.store 0, .sub (.poll B.bubbling wk), ev⟩)
  | version {wk r} : B.Polled .version r (⟨.cell 0, .poll B.version wk⟩, ⟨.cell 0, .poll B.version wk, .polled r⟩)

/-- What others do: they do not poll or drop the listeners of the box and do not change its classes; if they change the
version they add one (157-159, 193). -/
def Box.Other (B : Box) (h : List (Entry Nums hash enc)) (e : Entry Nums hash enc) : Prop :=
  (∀ (op : XBow.WOp) (ev : XBow.Event), e.2 = ⟨.store 0, op, ev⟩ → XBow.Leaves B.regular ev ∧ XBow.Leaves B.bubbling ev) ∧
  (∀ (op : Cell.Op Nat) (o : Cell.Out), e.2 = ⟨.cell 0, op, o⟩ → op.touches B.version = false) ∧
  wrote (.input 0 B.red) e.1 = none ∧ wrote (.input 0 B.green) e.1 = none ∧
  ∀ v : Nat, e.1 = ⟨.cell 0, .write v⟩ → v = versionAt h + 1

/-- The listeners that the store has had. -/
def listeners (h : List (Entry Nums hash enc)) : Nat :=
  ((part (things Nums hash enc) (.store 0) h).filter fun e => makes e.2).length

/-- Where the code of the box is. -/
inductive BoxState (hash : XBow.Path → BitVec 64) (enc : Layer → XBow.Seg)
  /-- it has not begun -/
  | absent
  /-- one, two listeners have been made -/
  | one
  | two
  /-- `for_each` (181): what is left to do of the closure, and `prev_ver` -/
  | running (rest : List (FOp Nums hash enc)) (prev : Nat)

/-- What happens next. A box whose closure is running is not interrupted. `race` polls the streams in any order. -/
inductive Box.Step (B : Box) (h : List (Entry Nums hash enc)) :
    BoxState hash enc → Entry Nums hash enc → BoxState hash enc → Prop
  | before {e} : B.Other h e → B.Step h .absent e .absent
  /-- 176-177 -/
  | regular {e} : e.1 = ⟨.store 0, .sub (.listen B.path)⟩ → B.regular = listeners h → B.Step h .absent e .one
  /-- 179 -/
  | bubbling {e} : e.1 = ⟨.store 0, .sub (.listenBubbling B.path)⟩ → B.bubbling = listeners h → B.Step h .one e .two
  /-- 180; `prev_ver` is 0 (171) -/
  | version {e} : e.1 = ⟨.cell 0, .listen⟩ → B.Step h .two e (.running [] 0)
  | other {prev e} : B.Other h e → B.Step h (.running [] prev) e (.running [] prev)
  | pending {prev ch e} : B.Polled ch false e → B.Step h (.running [] prev) e (.running [] prev)
  | ready {prev ch e} : B.Polled ch true e →
      B.Step h (.running [] prev) e (.running (B.closure ch prev (versionAt h)) (versionAt h))
  | acts {o rest prev e} : e.1 = o → B.Step h (.running (o :: rest) prev) e (.running rest prev)

/-- The history can be read as one of an app with this box in it. -/
inductive Box.Runs (B : Box) : List (Entry Nums hash enc) → BoxState hash enc → Prop
  | start : B.Runs [] .absent
  | step {h st e st'} : B.Runs h st → B.Step h st e st' → B.Runs (h ++ [e]) st'

/-- `p.notify_changed()`, and the end of a mutable borrow of the data at `p`, in a part of the history. -/
def Notified (h : List (Entry Nums hash enc)) (p : XBow.Path) : Prop :=
  ∃ e ∈ part (things Nums hash enc) (.store 0) h, ∃ o, (.change p, o) ∈ e.2.trace

/-- The keys of the listeners. -/
def Box.keys (B : Box) : List (fullSource Nums hash enc).Key :=
  [⟨.store 0, B.regular⟩, ⟨.store 0, B.bubbling⟩, ⟨.cell 0, some B.version⟩]

end
end Verif.Apps
