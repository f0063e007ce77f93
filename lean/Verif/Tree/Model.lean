import Verif.Drop.Fut
/-!
# Running a whole component tree

The rendering contexts (`context.rs`), the `poll` and `Drop` implementations of elements
(`node_container.rs`) and the context handling in the `poll` of the combinators
(`combinators/common/{array,vec,tuple}.rs`), put together: an app made of `async` blocks, elements
and combinators is mounted and polled.

User code and the environment are arbitrary: what they decide during one poll is a `Script`. Which
subfutures a combinator polls and when it completes is also left to the script, so that the
theorems hold for all combinators (`join`, `race`, `try_join`, `race_ok`, arrays, vectors, tuples;
which of them do what is C12–C17).

Simplifications: an `async` block has at most one component at a time and creates it when it starts
to await it (a future that was created earlier is C08). A script that does not fit the future that
is polled has no effect. List items are not part of this file.
-/
namespace Verif.Tree
open Verif.Dom Verif.Drop

mutual
/-- A component that user code creates: not polled yet. The addresses are those that its blockers
will have; they are arbitrary. -/
inductive Shape
  /-- an `async` block that has not run yet -/
  | block
  /-- `Div::new().render(child)` and the like -/
  | element (blocker : Addr) (child : Shape)
  /-- `join`, `race`, `try_join`, `race_ok` of some futures -/
  | comb (blocker : Addr) (subs : Shapes)

inductive Shapes
  | nil
  | cons (first : Shape) (rest : Shapes)
end

mutual
/-- Creates the component; elements and groups get new identifiers, from `n` on.
`ContainerNodeFuture::new`, `node_container.rs:38-46`; `new` of the combinators,
`common/array.rs:88-100`, `common/vec.rs:57-70`, `common/tuple.rs:106-117`;
`document.createElement`, `common_components.rs:26-30`. -/
def Shape.make : Shape → Nat → Fut × Nat
  | .block, n => (.block .done, n)
  | .element a child, n =>
    let (f, m) := child.make (n + 1)
    (.node n n .shouldAdd a f, m)
  | .comb a subs, n =>
    let (f, m) := subs.make 0 n
    (.comb a f, m)

/-- The subfutures from number `i` on. -/
def Shapes.make : Shapes → Nat → Nat → Fut × Nat
  | .nil, _, n => (.done, n)
  | .cons first rest, i, n =>
    let (f, m) := first.make n
    let (g, k) := rest.make (i + 1) m
    (.both (.slot i f) g, k)
end

/-- What user code and the environment decide during one poll. -/
inductive Script
  /-- the poll returns `Pending` -/
  | pend
  /-- the poll returns `Ready` -/
  | ready
  /-- an `async` block polls what it is awaiting; if that is ready it goes on with `next` -/
  | await (inner next : Script)
  /-- an `async` block drops what it was awaiting (for instance by leaving a scope) and goes on -/
  | cancel (next : Script)
  /-- an `async` block creates a component, to await it -/
  | create (component : Shape) (next : Script)
  /-- an element polls its content -/
  | content (inner : Script)
  /-- a combinator polls subfuture `i` and goes on -/
  | sub (i : Nat) (inner next : Script)

structure TState where
  d : DState
  /-- identifiers below this one have been used -/
  next : Nat

/-- Subfuture `i` of a combinator. -/
def subAt (i : Nat) : Fut → Option Fut
  | .both (.slot j f) rest => if j = i then some f else subAt i rest
  | _ => none

def setSub (i : Nat) (f' : Fut) : Fut → Fut
  | .both (.slot j f) rest =>
    if j = i then .both (.slot j f') rest else .both (.slot j f) (setSub i f' rest)
  | f => f

/-- `poll` in the context `ctx` (`DOM_CONTEXT`): the future afterwards and whether it returned
`Ready`. `none` = panic. -/
def poll (b : Build) : Script → Ctx → Fut → TState → Option (Fut × TState × Bool)
  -- `async` blocks: the compiler's state machine
  | .ready, _, .block .done, t => some (.block .done, t, true)
  | .await inner next, ctx, .block f, t => do
    let (f, t, ready) ← poll b inner ctx f t
    if ready then
      let d ← f.drop b (some ctx) t.d
      poll b next ctx (.block .done) ⟨d, t.next⟩
    else return (.block f, t, false)
  | .cancel next, ctx, .block f, t => do
    let d ← f.drop b (some ctx) t.d
    poll b next ctx (.block .done) ⟨d, t.next⟩
  | .create component next, ctx, .block .done, t =>
    let (f, n) := component.make t.next
    poll b next ctx (.block f) ⟨t.d, n⟩
  -- `node_container.rs:61-74`
  | .content inner, ctx, .node id g mode a child, t => do
    let (mode, st) ← match mode with
      | .shouldAdd => do
        let st ← ctx.addChild b t.d.st [] id
        some (AddSelf.added, st)
      | mode => some (mode, t.d.st)
    let (child, t, ready) ← poll b inner (.container g id) child ⟨⟨st, t.d.flag⟩, t.next⟩
    return (.node id g mode a child, t, ready)
  -- `common/array.rs:152-171`, `common/vec.rs:112-124`, `common/tuple.rs:160-176`
  | .sub i inner next, ctx, .comb a subs, t =>
    match subAt i subs with
    | some f => do
      let (f, t, _) ← poll b inner (.child ctx i) f t
      poll b next ctx (.comb a (setSub i f subs)) t
    | none => some (.comb a subs, t, false)
  | .ready, _, .comb a subs, t => some (.comb a subs, t, true)
  | _, _, f, t => some (f, t, false)

/-- An app mounted at a node (`mount.rs:25-30`; `ContainerNodeFuture::new_root`,
`node_container.rs:48-56`), with the document. -/
structure App where
  node : NodeId
  group : GroupId
  fut : Fut
  t : TState
  /-- the nodes of other code, with their parents -/
  foreign : List (NodeId × NodeId)

inductive Event
  /-- the executor polls the app -/
  | poll (script : Script)
  /-- other code creates a node and inserts it somewhere -/
  | foreignInsert (parent : NodeId) (ref : Option NodeId)
  /-- other code removes one of its own nodes -/
  | foreignRemove (parent n : NodeId)

/-- One event; `none` = the app panics. What other code does wrong has no effect. -/
def App.step (b : Build) (A : App) : Event → Option App
  -- `node_container.rs:61-74` with `AddSelfMode::ShouldNotAdd`
  | .poll script => do
    let (f, t, _) ← Tree.poll b script (.container A.group A.node) A.fut A.t
    return { A with fut := f, t := t }
  | .foreignInsert c ref =>
    match A.t.d.st.dom.insertBefore c A.t.next ref with
    | some dom => some { A with
        t := ⟨⟨⟨A.t.d.st.groups, dom⟩, A.t.d.flag⟩, A.t.next + 1⟩
        foreign := (c, A.t.next) :: A.foreign }
    | none => some A
  | .foreignRemove c n =>
    if (c, n) ∈ A.foreign then
      match A.t.d.st.dom.removeChild c n with
      | some dom => some { A with
          t := ⟨⟨⟨A.t.d.st.groups, dom⟩, A.t.d.flag⟩, A.t.next⟩
          foreign := A.foreign.filter (· != (c, n)) }
      | none => some A
    else some A

def App.run (b : Build) (A : App) : List Event → Option App
  | [] => some A
  | e :: es => do
    let A ← A.step b e
    A.run b es

/-- `mount_at(app, node)`: the mount node may have foreign children already. -/
def App.mount (app : Shape) (node : NodeId) (dom : Dom) (foreign : List (NodeId × NodeId)) (next : Nat) : App :=
  let (f, n) := app.make (next + 1)
  ⟨node, next, f, ⟨⟨⟨fun _ => [], dom⟩, none⟩, n⟩, foreign⟩

end Verif.Tree
