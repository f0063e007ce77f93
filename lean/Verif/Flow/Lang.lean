/-!
# A language for `async` UI code

Programs as they are written with the library: `async` blocks that create elements, read and set their properties, await clicks
and timers, and show components meanwhile. A program is a value of `Fut α`; `poll` is what the compiler's state machines and the
`poll` functions of the library make of it.

Simplifications. Everything else on the page, styles and the focus are left out. A tuple or vector of futures is nested pairs;
the subfutures are polled in the order of the source and all of them: in the library only those that were woken are polled, in
the order in which they were woken (C12-C17); `poll_idle` (`Flow/Idle`) says that polling the others makes no difference, and the
order matters only if two subfutures of a `race` become ready together. What is dropped is not displayed any more (C46).
-/
namespace Verif.Flow

/-- The elements that occur. -/
inductive Tag
  | text | div | span | button | input
deriving DecidableEq

/-- The properties that programs read and set. -/
inductive Key
  | data | value | placeholder
deriving DecidableEq

/-- What futures share: the nodes with their properties, the registered listeners, the timers. -/
structure World where
  /-- nodes, listeners and timers below this number have been created -/
  next : Nat
  prop : Nat → Key → String
  /-- the node for whose clicks a listener has been registered -/
  listens : Nat → Option Nat
  /-- when a timer fires -/
  due : Nat → Option Nat
  /-- the listeners that have been called and the timers that have fired -/
  fired : Nat → Bool
  /-- milliseconds -/
  now : Nat

/-- A future in the middle of its execution. What `async` blocks consist of (`bind` for `.await`, actions) and what the library
has in store. A block ends with `pure`: `f.await` at the end of a block is `bind f pure`. -/
inductive Fut : Type → Type 1
  /-- the end of an `async` block -/
  | pure {α : Type} (a : α) : Fut α
  /-- `let a = f.await; …` -/
  | bind {α β : Type} (f : Fut α) (rest : α → Fut β) : Fut β
  /-- `Button::new()` and the like (`common_components.rs:26-30`), `Text::new()` (`text_node.rs:13-18`) -/
  | create {α : Type} (rest : Nat → Fut α) : Fut α
  /-- `set_placeholder` and the like -/
  | put {α : Type} (node : Nat) (key : Key) (s : String) (rest : Fut α) : Fut α
  /-- `value()` -/
  | get {α : Type} (node : Nat) (key : Key) (rest : String → Fut α) : Fut α
  /-- `TimeoutFuture::new(ms)` -/
  | timeout {α : Type} (ms : Nat) (rest : Nat → Fut α) : Fut α
  /-- `while let …`/`loop { … break … }`: repeats `body` until it gives a value; `now` is the current round -/
  | loop {α : Type} (body now : Fut (Option α)) : Fut α
  /-- `NoChild` (`no_child.rs:16-26`), `std::future::pending()` -/
  | pending {α : Type} : Fut α
  /-- the future made by `TimeoutFuture::new` -/
  | elapsed (timer : Nat) : Fut Unit
  /-- `until_click()`: `EventFutureStream`, with the listener if there is one -/
  | click (node : Nat) (listener : Option Nat) : Fut Unit
  /-- `"…".render()` (`shortcuts.rs:19-25`); `added`: has been polled -/
  | text {α : Type} (s : String) (added : Bool) : Fut α
  /-- `element.render(child)` -/
  | node {α : Type} (tag : Tag) (id : Nat) (added : Bool) (child : Fut α) : Fut α
  /-- `race` -/
  | race {α : Type} (l r : Fut α) : Fut α
  /-- `join`, with the results so far -/
  | join {α β : Type} (l : Fut α) (a : Option α) (r : Fut β) (b : Option β) : Fut (α × β)
  /-- `pend_after` -/
  | pendAfter {α β : Type} (f : Fut α) : Fut β

/-- What a poll returns. `hang`: a loop that does not wait for anything. -/
inductive Out (α : Type)
  | ready (a : α)
  | pend
  | hang

/-- One `poll`: the future afterwards (when it is ready: what is left of it until it is dropped), the world, and the result. -/
def poll {α : Type} : Fut α → World → Fut α × World × Out α
  -- the compiler's state machine for `async` blocks: what has been awaited is dropped
  | .pure a, w => (.pure a, w, .ready a)
  | .bind f rest, w =>
    match poll f w with
    | (_, w, .ready a) =>
      match poll (rest a) w with
      | (_, w, .ready b) => (.pure b, w, .ready b)
      | (g, w, o) => (g, w, o)
    | (f, w, .pend) => (.bind f rest, w, .pend)
    | (f, w, .hang) => (.bind f rest, w, .hang)
  -- a new element has no value, no placeholder and no text
  | .create rest, w =>
    poll (rest w.next) { w with next := w.next + 1, prop := fun n => if n = w.next then fun _ => "" else w.prop n }
  | .put n k s rest, w =>
    poll rest { w with prop := fun m l => if m = n ∧ l = k then s else w.prop m l }
  | .get n k rest, w => poll (rest (w.prop n k)) w
  -- `setTimeout(callback, ms)`
  | .timeout ms rest, w =>
    poll (rest w.next) { w with
      next := w.next + 1, due := fun h => if h = w.next then some (w.now + ms) else w.due h }
  | .loop body now, w =>
    match poll now w with
    | (_, w, .ready (some a)) => (.pure a, w, .ready a)
    | (_, w, .ready none) =>
      match poll body w with
      | (_, w, .ready (some a)) => (.pure a, w, .ready a)
      | (now, w, .ready none) => (.loop body now, w, .hang)
      | (now, w, .pend) => (.loop body now, w, .pend)
      | (now, w, .hang) => (.loop body now, w, .hang)
    | (now, w, .pend) => (.loop body now, w, .pend)
    | (now, w, .hang) => (.loop body now, w, .hang)
  | .pending, w => (.pending, w, .pend)
  | .elapsed h, w => (.elapsed h, w, if w.fired h then .ready () else .pend)
  -- `event_handling.rs:90-131`: the first poll registers the listener
  | .click n none, w =>
    (.click n (some w.next), { w with
      next := w.next + 1, listens := fun h => if h = w.next then some n else w.listens h }, .pend)
  | .click n (some h), w => (.click n (some h), w, if w.fired h then .ready () else .pend)
  -- `node_container.rs:61-74` with `pending()` inside (`text_node.rs:19-21`)
  | .text s _, w => (.text s true, w, .pend)
  -- `node_container.rs:61-74`
  | .node t n _ child, w =>
    let (child, w, o) := poll child w
    (.node t n true child, w, o)
  -- `combinators/race/tuple.rs:9-17`, `race/vec.rs:16-38`, `common/vec.rs:112-136`: the first that is ready
  | .race l r, w =>
    match poll l w with
    | (l, w, .ready a) => (.race l r, w, .ready a)
    | (l, w, .hang) => (.race l r, w, .hang)
    | (l, w, .pend) =>
      let (r, w, o) := poll r w
      (.race l r, w, o)
  -- `combinators/join/tuple.rs`, `common/vec.rs:112-163`: the results are kept, and the futures too
  | .join l (some a) r (some b), w => (.join l (some a) r (some b), w, .ready (a, b))
  | .join l (some a) r none, w =>
    match poll r w with
    | (r, w, .ready b) => (.join l (some a) r (some b), w, .ready (a, b))
    | (r, w, .pend) => (.join l (some a) r none, w, .pend)
    | (r, w, .hang) => (.join l (some a) r none, w, .hang)
  | .join l none r (some b), w =>
    match poll l w with
    | (l, w, .ready a) => (.join l (some a) r (some b), w, .ready (a, b))
    | (l, w, .pend) => (.join l none r (some b), w, .pend)
    | (l, w, .hang) => (.join l none r (some b), w, .hang)
  | .join l none r none, w =>
    match poll l w with
    | (l, w, .ready a) =>
      match poll r w with
      | (r, w, .ready b) => (.join l (some a) r (some b), w, .ready (a, b))
      | (r, w, .pend) => (.join l (some a) r none, w, .pend)
      | (r, w, .hang) => (.join l (some a) r none, w, .hang)
    | (l, w, .hang) => (.join l none r none, w, .hang)
    | (l, w, .pend) =>
      match poll r w with
      | (r, w, .ready b) => (.join l none r (some b), w, .pend)
      | (r, w, .pend) => (.join l none r none, w, .pend)
      | (r, w, .hang) => (.join l none r none, w, .hang)
  -- `combinators/extras/mod.rs:71-87`
  | .pendAfter f, w =>
    match poll f w with
    | (_, w, .ready _) => (.pending, w, .pend)
    | (f, w, .pend) => (.pendAfter f, w, .pend)
    | (f, w, .hang) => (.pendAfter f, w, .hang)

/-- `f.meanwhile(effect)`, `combinators/extras/mod.rs:53-59`. -/
def Fut.meanwhile {α β : Type} (f : Fut α) (effect : Fut β) : Fut α := .race f (.pendAfter effect)

/-- `join((l, r))` -/
def Fut.both {α β : Type} (l : Fut α) (r : Fut β) : Fut (α × β) := .join l none r none

/-- `join(vec![…])` of components -/
def Fut.joinAll {α : Type} : List (Fut α) → Fut (List α)
  | [] => .pure []
  | f :: fs => .bind (.both f (Fut.joinAll fs)) fun p => .pure (p.1 :: p.2)

/-- `race(vec![…])`, `race/vec.rs:20`: `PEND_IF_EMPTY` -/
def Fut.raceAll {α : Type} : List (Fut α) → Fut α
  | [] => .pending
  | f :: fs => .race f (Fut.raceAll fs)

/-- `f.await` at the end of an `async` block -/
def Fut.await {α : Type} (f : Fut α) : Fut α := .bind f .pure

/-! ## What is displayed -/

/-- A piece of the document. -/
inductive View
  | text (s : String)
  | elem (tag : Tag) (placeholder value : String) (kids : List View)

/-- What a future displays in the node around it (as `tops` and `Contents` of `Tree/Spec`). A future that has not been polled
yet, or has been dropped, displays nothing. -/
def Fut.shown (w : World) {α : Type} : Fut α → List View
  | .bind f _ => f.shown w
  | .loop _ now => now.shown w
  | .text s true => [.text s]
  | .node .text n true _ => [.text (w.prop n .data)]
  | .node t n true child => [.elem t (w.prop n .placeholder) (w.prop n .value) (child.shown w)]
  | .race l r => l.shown w ++ r.shown w
  | .join l _ r _ => l.shown w ++ r.shown w
  | .pendAfter f => f.shown w
  | _ => []

/-- The elements with a tag that are displayed, in the order of the document. -/
def Fut.targets (t : Tag) {α : Type} : Fut α → List Nat
  | .bind f _ => f.targets t
  | .loop _ now => now.targets t
  | .node t' n true child => if t' = t then n :: child.targets t else child.targets t
  | .race l r => l.targets t ++ r.targets t
  | .join l _ r _ => l.targets t ++ r.targets t
  | .pendAfter f => f.targets t
  | _ => []

/-! ## An app on a page -/

/-- A mounted app (`mount.rs:25-30`): its future, the world, and what the last poll returned. -/
structure App (α : Type) where
  fut : Fut α
  world : World
  out : Out α

def World.init : World := ⟨0, fun _ _ => "", fun _ => none, fun _ => none, fun _ => false, 0⟩

/-- `mount(app)`: not polled yet, `schedule()` only. -/
def App.mount {α : Type} (f : Fut α) : App α := ⟨f, .init, .pend⟩

inductive Event
  /-- the user types into an input field: the `i`-th one on the page -/
  | type (i : Nat) (s : String)
  /-- the user clicks on a button: the `i`-th one on the page -/
  | click (i : Nat)
  /-- time passes -/
  | advance (ms : Nat)
  /-- the executor runs -/
  | poll

/-- The executor polls the app, unless it has finished (or hangs). When it is ready it is dropped. -/
def App.poll {α : Type} (A : App α) : App α :=
  match A.out with
  | .pend =>
    match Flow.poll A.fut A.world with
    | (_, w, .ready a) => ⟨.pure a, w, .ready a⟩
    | (f, w, o) => ⟨f, w, o⟩
  | _ => A

def App.step {α : Type} (A : App α) : Event → App α
  | .type i s =>
    match (A.fut.targets .input)[i]? with
    | some n => { A with world := { A.world with
        prop := fun m k => if m = n ∧ k = .value then s else A.world.prop m k } }
    | none => A
  -- `event_handling.rs:102-109`: the listener stores the event, wakes, and calls `run_now`. (A click that no listener waits for
  -- does nothing; here it makes the executor run, which it may do at any time.)
  | .click i =>
    match (A.fut.targets .button)[i]? with
    | some n => App.poll { A with world := { A.world with
        fired := fun h => A.world.fired h || A.world.listens h == some n } }
    | none => A
  -- timers that are due fire; the executor runs later
  | .advance ms => { A with world := { A.world with
      now := A.world.now + ms
      fired := fun h => A.world.fired h || (A.world.due h).any (· ≤ A.world.now + ms) } }
  | .poll => A.poll

def App.run {α : Type} (A : App α) (es : List Event) : App α := es.foldl App.step A

/-- What the page shows. -/
def App.page {α : Type} (A : App α) : List View := A.fut.shown A.world

end Verif.Flow
