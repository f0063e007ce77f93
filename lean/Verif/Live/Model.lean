import Verif.App.Model
/-!
# Apps that wait for data and events

The whole app (`Verif.App`) together with something that its blocks wait for: a `ReactiveCell`, an x-bow
store, or event streams (a *source*). A source has futures, each with a key; an operation of the source may
poll one of them with a waker, and may wake wakers it was given. A block that polls a future of the source
passes the waker it is polled with itself; every waker handed out this way has a number, and belongs to the
place of the block.

What is new here is only how the two work together:

* only a block that is being polled polls futures of the source, with a waker of its own;
* before an `async` block returns `Pending` it has polled, in the same poll, all futures that it is awaiting;
* a waker that the source wakes is woken in the app (`Verif.App`, event `wake`).

Other operations of the source (changing data, dropping futures, the browser delivering an event) happen
whenever they like. The wakers of one operation are called one after the other; other things may happen
in between, which in the code they do not: that is more behaviour and not less.

There is no code of its own in the repository for this file: it puts `Verif.App`
(`async_ui_web_core/src/executor.rs`, `combinators/common/*`) together with `Verif.Cell`
(`async_ui_internal_utils/src/reactive_cell/*`), `Verif.Events` (`async_ui_web_html/src/event_handling.rs`) and
`Verif.XBow` (`x-bow/src/{until_change,wakers}.rs`, `x-bow/src/path_ext/*`), which cite it. The second point
above is how rustc compiles `.await`; `release` is an `async` block that drops or leaves alone a future it has
been awaiting.
-/
namespace Verif.Live
open Verif

/-- Something that futures wait for. -/
structure Source where
  /-- its state -/
  σ : Type
  Op : Type
  /-- what can be observed of an operation -/
  Out : Type
  step : σ → Op → Option (σ × Out)
  /-- the wakers woken -/
  wakes : Out → List Nat
  /-- its futures -/
  Key : Type
  dec : DecidableEq Key
  /-- the operation polled this future, with this waker -/
  polls : Op → Out → Option (Key × Nat)
  /-- the operation drops this future -/
  drops : Op → Option Key

/-- A waker that was handed to a future of the source. -/
structure Given where
  /-- the block it belongs to -/
  place : Nested.Place
  /-- length of the log of the app at that time -/
  log : Nat
  /-- the poll it was handed to is this entry of the history of the source -/
  hist : Nat

structure World (Z : Source) (V S O : Type) where
  app : App.App V S O
  src : Z.σ
  /-- everything that was done with the source, the oldest first -/
  hist : List (Z.Op × Z.Out)
  /-- the wakers handed out, by number -/
  given : List Given
  /-- the futures that blocks are awaiting, with the waker of the latest poll -/
  awaits : List (Z.Key × Nat)
  /-- wakers that the source is about to wake -/
  todo : List Nat

inductive Event (Z : Source) (V S O : Type)
  | app (e : App.Event V S O)
  | op (o : Z.Op)
  /-- a block awaits a future of the source no longer -/
  | release (k : Z.Key)
  /-- the source wakes the next waker -/
  | wake

section
variable {Z : Source} {V S O : Type}

/-- No poll of the block has begun since this waker was handed out. -/
def current (w : World Z V S O) (g : Given) : Bool :=
  decide (Nested.Note.polled g.place ∉ w.app.sys.log.take (w.app.sys.log.length - g.log))

/-- In its current poll, the block has polled every future of the source that it is awaiting. -/
def hasPolled (w : World Z V S O) (p : Nested.Place) : Bool :=
  w.awaits.all fun x =>
    match w.given[x.2]? with
    | some g => g.place != p || current w g
    | none => true

/-- The event is possible as far as the futures of the source are concerned. -/
def mayHappen (w : World Z V S O) (e : App.Event V S O) : Bool :=
  match e, w.app.sys.stack with
  | .block (.ret none), f :: _ => hasPolled w f.place
  | _, _ => true

/-- The future is not awaited any more. -/
def drop (k : Z.Key) (awaits : List (Z.Key × Nat)) : List (Z.Key × Nat) :=
  awaits.filter fun x => !(Z.dec x.1 k).decide

def step (w : World Z V S O) : Event Z V S O → Option (World Z V S O)
  | .app e =>
    if mayHappen w e then
      match App.step w.app e with
      | some a => some { w with app := a }
      | none => none
    else none
  | .op o =>
    match Z.step w.src o with
    | none => none
    | some (s, out) =>
      match Z.polls o out with
      | none => some { w with
          src := s
          hist := w.hist ++ [(o, out)]
          awaits := match Z.drops o with
            | some k => drop k w.awaits
            | none => w.awaits
          todo := w.todo ++ Z.wakes out }
      | some (k, n) =>
        match w.app.sys.stack with
        | f :: _ =>
          if n = w.given.length then
            some { w with
              src := s
              hist := w.hist ++ [(o, out)]
              given := w.given ++ [⟨f.place, w.app.sys.log.length, w.hist.length⟩]
              awaits := (k, n) :: drop k w.awaits
              todo := w.todo ++ Z.wakes out }
          else none
        | [] => none
  | .release k => some { w with awaits := drop k w.awaits }
  | .wake =>
    match w.todo with
    | n :: todo =>
      match w.given[n]? with
      | some g =>
        match App.step w.app (.block (.wake g.place)) with
        | some a => some { w with app := a, todo := todo }
        | none => none
      -- not a waker of a block
      | none => some { w with todo := todo }
    | [] => none

def init (s : Z.σ) : World Z V S O := ⟨App.init, s, [], [], [], []⟩

def run (w : World Z V S O) : List (Event Z V S O) → Option (World Z V S O)
  | [] => some w
  | e :: es =>
    match step w e with
    | some w => run w es
    | none => none

end
end Verif.Live
