import Verif.Live.ReactSpec
/-!
# C75: components that count events

A component of the form `loop { show(state); select! { e = a.until_…() => state = …, e = b.until_…() => state = …, … } }`, as
that in `examples/web-simple-examples/src/counter.rs` (16-28) or the one in the documentation of
`async_ui_web_html/src/lib.rs` (17-30). `Fold.Runs` says what such a component does; everything else that happens to the page is
arbitrary. An event that the user causes at an element is a `PageOp.edit`; what it does to the value of the element is
arbitrary.
-/
namespace Verif.Live
open Verif

/-- `watches`: the elements and the types of the events that it waits for, in the order of the branches; `f s i n`: the new
state after the branch number `i` got the event `n`; `shows`: what it sets and to what. -/
structure Fold (σ : Type) where
  watches : List (Nat × Nat)
  init : σ
  f : σ → Nat → Events.Ev → σ
  shows : σ → List (Nat × List Char)

/-- Where the component is: its state, the operations that it does next, the streams that it makes then, the streams of this
round, and those of them that have not been polled yet. If there is nothing left to do it waits. -/
structure FoldState (σ : Type) where
  state : σ
  ops : List PageOp
  make : List (Nat × Nat)
  keys : List Nat
  fresh : List Nat

section
variable {σ : Type}

/-- It waits for the streams. -/
abbrev FoldState.waiting (s : σ) (keys : List Nat) : FoldState σ := ⟨s, [], [], keys, []⟩

/-- A round begins (16-19). The streams of the previous one are dropped first (`select!`). -/
def Fold.round (R : Fold σ) (s : σ) (keys : List Nat) : FoldState σ :=
  ⟨s, keys.map (fun k => .ev (.drop k)) ++ (R.shows s).map (fun x => .set x.1 x.2), R.watches, [], []⟩

/-- What others do while the component waits: they leave its streams alone, and nobody else changes what it shows. -/
def Fold.Other (R : Fold σ) (keys : List Nat) (o : PageOp) : Prop :=
  (∀ k ∈ keys, (∀ wk, o ≠ .ev (.poll k wk)) ∧ o ≠ .ev (.drop k)) ∧
    ∀ s, ∀ x ∈ R.shows s, written x.1 o = none

/-- What happens next. The component is not interrupted except where it waits. -/
inductive Fold.Step (R : Fold σ) (h : List (PageOp × PageOut)) : FoldState σ → PageOp × PageOut → FoldState σ → Prop
  | acts {s o ops make keys fresh e} : e.1 = o → R.Step h ⟨s, o :: ops, make, keys, fresh⟩ e ⟨s, ops, make, keys, fresh⟩
  | makes {s t y make keys fresh e} : e.1 = .ev (.new t y) → R.Step h ⟨s, [], (t, y) :: make, keys, fresh⟩ e
      ⟨s, [], make, keys ++ [(streams h).made.length], fresh ++ [(streams h).made.length]⟩
  | first {s k keys fresh e} : Yields k none e → R.Step h ⟨s, [], [], keys, k :: fresh⟩ e ⟨s, [], [], keys, fresh⟩
  | other {s keys e} : R.Other keys e.1 → R.Step h (.waiting s keys) e (.waiting s keys)
  | waits {s k keys e} : k ∈ keys → Yields k none e → R.Step h (.waiting s keys) e (.waiting s keys)
  | ready {s i k n keys e} : keys[i]? = some k → Yields k (some n) e →
      R.Step h (.waiting s keys) e (R.round (R.f s i n) keys)

/-- What happens after the history `h`, if the component is at `st` then. -/
inductive Fold.Steps (R : Fold σ) (h : List (PageOp × PageOut)) (st : FoldState σ) :
    List (PageOp × PageOut) → FoldState σ → Prop
  | nil : R.Steps h st [] st
  | snoc {l st1 e st2} : R.Steps h st l st1 → R.Step (h ++ l) st1 e st2 → R.Steps h st (l ++ [e]) st2

/-- The history can be read as one of a page with this component, which began at some time. -/
def Fold.Runs (R : Fold σ) (h : List (PageOp × PageOut)) (st : FoldState σ) : Prop :=
  ∃ h0 l, h = h0 ++ l ∧ R.Steps h0 (R.round R.init []) l st

/-- No event that the component waits for is caused or fired. -/
def Fold.Untouched (R : Fold σ) (l : List (PageOp × PageOut)) : Prop :=
  ∀ e ∈ l, (∀ t y v n, e.1 = .edit t y v n → (t, y) ∉ R.watches) ∧
    ∀ q n, e.1 = .ev (.deliver q n) → (q.target, q.type) ∉ R.watches

/-- The only such event is `n`, for the branch number `i`. -/
def Fold.One (R : Fold σ) (l : List (PageOp × PageOut)) (i : Nat) (n : Events.Ev) : Prop :=
  ∃ a x b t y v, l = a ++ x :: b ∧ x.1 = .edit t y v n ∧ R.watches[i]? = some (t, y) ∧ R.Untouched a ∧ R.Untouched b

end
end Verif.Live
