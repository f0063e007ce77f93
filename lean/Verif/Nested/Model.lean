import Verif.Comb.Progress
/-!
# Combinators inside combinators, and lists

The combinators of `Verif.Comb` and the executors of `DynamicList`s put together to the futures of whole
tasks: a task is an `async` block; an `async` block awaits one combinator or one rendered list at a time; the
subfutures of a combinator and the items of a list are `async` blocks. (A subfuture that is itself a
combinator is an `async` block that does nothing but await it; a leaf, such as a timer or an event, is an
`async` block that awaits nothing of this kind.) What the blocks do, and when wakers are woken, is up to
the environment.

A waker stands for the place it was made for: the task, subfuture `i` of a combinator
(`combinators/utils/wakers/{array,vec}`), or item `i` of a list. `async` blocks, elements and items pass on the
waker they are polled with (`async_ui_web_core/src/node_container.rs:73`, `node_sibling.rs:49`).

The tasks of a list are in a `LocalExecutor` of the crate `async_executor` (`async_ui_web/src/lists/dynamic_list.rs`
55, 137-139), which `render` runs with `self.executor.run(pending()).await` (340). Of that crate only the
dependency declaration is in the repository (`async_ui_web/Cargo.toml:22`). The following is assumed. The `run`
future, when polled, runs queued tasks one after the other; when it has run a certain number of them
(200; here any number, `limit`) it wakes its own waker and returns `Pending`; it also returns `Pending` when the
queue is empty, after it has put down its waker. The first task that is queued after that wakes the waker.
A task is queued, at the end, when it is spawned, when it is woken and when it is cancelled, unless it is already
queued or has finished; a cancelled task is dropped instead of being run, and counts. A task that is woken while it
runs is queued when it has returned `Pending`; one that is cancelled while it runs is dropped then.

Simplifications: blocks and combinators do not panic (a step that panics is not a step); dropping a
combinator only means that nobody polls it any more (its wakers survive, see C19; for what else happens
see C05 and C18); all combinators have the same output types (which can be sums of types), and the outputs
of items are ignored. When a `run` future is dropped the order of the queue stays as it is; the dropped
future may still wake its waker, until the list is rendered again; this means
a wake-up that need not be. A list may be rendered by another block without that the first one drops it (in the code
that panics, see C34).
-/
namespace Verif.Nested
open Verif.Comb

/-- The place of an `async` block. -/
inductive Place
  | task (t : Nat)
  /-- subfuture `i` of combinator number `c`, or item `i` of list number `c` -/
  | sub (c i : Nat)
deriving DecidableEq

/-- A combinator that has been created, of whatever kind. -/
structure CObj (V S O : Type) where
  g : Cfg V S O
  n : Nat
  c : Comb g.kind.impl.σ S Place

/-- The executor of a list, and its `run` future. -/
structure LObj where
  /-- how many tasks the `run` future runs before it lets others do something -/
  limit : Nat
  /-- how many of these are left -/
  left : Nat
  /-- items that have been inserted so far -/
  n : Nat
  /-- queued tasks, the oldest first -/
  queue : List Nat
  /-- items that have been removed: their `Task` was dropped -/
  gone : List Nat
  /-- items that have returned `Ready` -/
  done : List Nat
  /-- the item that is being polled -/
  running : Option Nat
  /-- it has been woken since it is being polled -/
  again : Bool
  /-- the waker that the `run` future has put down, if nothing has been queued since -/
  waker : Option Place

/-- What a block can await. -/
inductive Obj (V S O : Type)
  | comb (o : CObj V S O)
  | list (l : LObj)

/-- What can be observed. -/
inductive Note
  /-- the poll of this block begins -/
  | polled (p : Place)
  /-- a waker of this block is woken -/
  | woken (p : Place)
  /-- the block returns `Ready` -/
  | returned (p : Place)
  /-- the `run` future of list `c` has run `limit` tasks: it wakes its waker and returns `Pending` -/
  | yielded (c : Nat)
  /-- item `i` is inserted into list `c` -/
  | inserted (c i : Nat)
deriving DecidableEq

/-- A block that is being polled. -/
structure Frame where
  place : Place
  /-- it has polled the combinator or list that it is awaiting, in this poll -/
  awaited : Bool
deriving DecidableEq

structure Sys (V S O : Type) where
  objs : List (Obj V S O)
  /-- the combinator or list that a block is awaiting -/
  child : Place → Option Nat
  /-- the blocks that are being polled, the innermost first -/
  stack : List Frame
  /-- a waker on which `wake` has been called, but which has not acted yet -/
  waking : Option Place
  /-- newest first -/
  log : List Note

inductive Event (V S O : Type)
  /-- the executor polls a task -/
  | pollTask (t : Nat)
  /-- the innermost block creates a combinator of `n` blocks, to await it instead of what it has been
  awaiting -/
  | create (g : Cfg V S O) (n : Nat)
  /-- the innermost block drops what it has been awaiting -/
  | cancel
  /-- the innermost block polls what it is awaiting -/
  | await
  /-- the poll of the innermost block returns; `none` is `Pending` -/
  | ret (r : Option V)
  /-- `DynamicList::new` -/
  | newList (limit : Nat)
  /-- `insert` on list `c` -/
  | insert (c : Nat)
  /-- item `i` is taken out of list `c` (`remove`, `retain`, `insert` with the same key) -/
  | remove (c i : Nat)
  /-- the innermost block calls `render` of list `c`, to await it instead of what it has been awaiting -/
  | render (c : Nat)
  /-- somebody wakes a waker -/
  | wake (p : Place)
  /-- a waker acts -/
  | propagate

section
variable {V S O : Type}

def update (child : Place → Option Nat) (p : Place) (x : Option Nat) : Place → Option Nat :=
  fun q => if q = p then x else child q

def Effect.isPanic : Effect S O Place → Bool
  | .panicked => true
  | _ => false

def Effect.isReady : Effect S O Place → Bool
  | .retReady _ _ => true
  | _ => false

/-- The waker woken in the effects of `Comb.step`, unless it is the dummy. -/
def wokenIn : List (Effect S O Place) → Option Place
  | .taskWoken w :: _ => w
  | _ => none

/-- What a combinator or a list does when it is polled, when a block of it returns, or when one is woken. -/
structure Reply where
  /-- it polls this block -/
  polls : Option Nat
  /-- otherwise: it returns `Ready` (else `Pending`) -/
  ready : Bool
  /-- it wakes this waker -/
  wakes : Option Place

/-- What a combinator or a list is asked. -/
inductive Ask (V : Type)
  /-- it is polled by the block `w` -/
  | poll (w : Place)
  /-- its block `i` returns; `w` is the block that is polling it -/
  | back (i : Nat) (r : Option V) (w : Place)
  /-- its block `i` is woken -/
  | wake (i : Nat)

/-- The result of a block, as its combinator sees it. -/
def outcome : Option V → Outcome V
  | none => .pending
  | some v => .ready v

def Ask.event : Ask V → Comb.Event V Place
  | .poll w => .poll w
  | .back i r _ => .sub i (outcome r)
  | .wake i => .wake i

/-- `Verif.Comb.step` -/
def CObj.step (o : CObj V S O) (e : Comb.Event V Place) : Option (CObj V S O × List (Effect S O Place)) :=
  match Comb.step o.g o.c e with
  | none => none
  | some (c, out) => if out.any Effect.isPanic then none else some (⟨o.g, o.n, c⟩, out)

/-- A task is queued; the waker is woken. -/
def LObj.push (l : LObj) (i : Nat) : LObj × Option Place :=
  ({ l with queue := l.queue ++ [i], waker := none }, l.waker)

/-- What the `run` future does next, when it may run `left` more tasks. -/
inductive Next
  | yield (queue : List Nat)
  | sleep (left : Nat)
  | run (i left : Nat) (queue : List Nat)

def next (gone : List Nat) : Nat → List Nat → Next
  | 0, q => .yield q
  | left + 1, [] => .sleep (left + 1)
  | left + 1, i :: q => if i ∈ gone then next gone left q else .run i left q

/-- The `run` future goes on; it is polled by `w`. -/
def LObj.go (l : LObj) (w : Place) : LObj × Reply :=
  match next l.gone l.left l.queue with
  | .yield q => ({ l with queue := q, left := l.limit, running := none, waker := none }, ⟨none, false, some w⟩)
  | .sleep left => ({ l with queue := [], left := left, running := none, waker := some w }, ⟨none, false, none⟩)
  | .run i left q =>
    ({ l with queue := q, left := left, running := some i, again := false, waker := none }, ⟨some i, false, none⟩)

/-- Item `i` has returned. -/
def LObj.back (l : LObj) (i : Nat) (ready : Bool) : LObj :=
  if ready then { l with running := none, done := i :: l.done }
  else if l.again ∧ i ∉ l.gone then { l with running := none, queue := l.queue ++ [i] }
  else { l with running := none }

def LObj.step (l : LObj) : Ask V → Option (LObj × Reply)
  | .poll w => if l.running = none then some (l.go w) else none
  | .back i r w =>
    if l.running = some i then some ((l.back i r.isSome).go w) else none
  | .wake i =>
    if i < l.n then
      if i ∈ l.queue ∨ i ∈ l.done ∨ i ∈ l.gone then some (l, ⟨none, false, none⟩)
      else if l.running = some i then some ({ l with again := true }, ⟨none, false, none⟩)
      else some ((l.push i).1, ⟨none, false, (l.push i).2⟩)
    else none

def Obj.step : Obj V S O → Ask V → Option (Obj V S O × Reply)
  | .comb o, e =>
    match o.step e.event with
    | some (o, out) => some (.comb o, ⟨polledIn out, out.any Effect.isReady, wokenIn out⟩)
    | none => none
  | .list l, e =>
    match l.step e with
    | some (l, r) => some (.list l, r)
    | none => none

def Sys.setObj (s : Sys V S O) (id : Nat) (o : Obj V S O) : Sys V S O := { s with objs := s.objs.set id o }

/-- What the innermost block awaits has answered: it polls a block, is pending, or is ready and dropped. -/
def answer (s : Sys V S O) (id : Nat) (r : Reply) : Sys V S O :=
  match r.polls with
  | some i => { s with stack := ⟨.sub id i, false⟩ :: s.stack, log := .polled (.sub id i) :: s.log }
  | none =>
    match s.stack with
    | f :: _ =>
      if r.ready then { s with child := update s.child f.place none }
      else
        match r.wakes with
        | some w => { s with waking := some w, log := .yielded id :: s.log }
        | none => s
    | [] => s

/-- Number `id` is asked. -/
def stepObj (s : Sys V S O) (id : Nat) (e : Ask V) : Option (Sys V S O × Reply) :=
  match s.objs[id]? with
  | none => none
  | some o =>
    match o.step e with
    | none => none
    | some (o, r) => some (s.setObj id o, r)

/-- One event; `none`: it cannot happen now. While a waker acts nothing else happens. An `async` block
polls what it is awaiting before it returns `Pending`, and has dropped it when it returns `Ready`. -/
def step (s : Sys V S O) : Event V S O → Option (Sys V S O)
  | .pollTask t =>
    if s.stack = [] ∧ s.waking = none then
      some { s with stack := [⟨.task t, false⟩], log := .polled (.task t) :: s.log }
    else none
  | .create g n =>
    match s.stack, s.waking with
    | f :: fs, none => some { s with
        objs := s.objs ++ [.comb ⟨g, n, Comb.new g.kind.impl S Place n⟩]
        child := update s.child f.place (some s.objs.length)
        stack := ⟨f.place, false⟩ :: fs }
    | _, _ => none
  | .cancel =>
    match s.stack, s.waking with
    | f :: _, none => some { s with child := update s.child f.place none }
    | _, _ => none
  | .await =>
    match s.stack, s.waking with
    | f :: fs, none =>
      match s.child f.place with
      | some id =>
        match stepObj { s with stack := ⟨f.place, true⟩ :: fs } id (.poll f.place) with
        | some (s, r) => some (answer s id r)
        | none => none
      | none => none
    | _, _ => none
  | .ret r =>
    match s.stack, s.waking with
    | f :: fs, none =>
      if r.isSome ∨ s.child f.place = none ∨ f.awaited = true then
        let s := if r.isSome then
          { s with child := update s.child f.place none, log := .returned f.place :: s.log } else s
        match f.place, fs with
        | .sub id i, f' :: _ =>
          match stepObj { s with stack := fs } id (.back i r f'.place) with
          | some (s, r) => some (answer s id r)
          | none => none
        | .sub _ _, [] => none
        | .task _, _ => some { s with stack := fs }
      else none
    | _, _ => none
  | .newList limit =>
    if s.waking = none then some { s with objs := s.objs ++ [.list ⟨limit, limit, 0, [], [], [], none, false, none⟩] } else none
  -- `dynamic_list.rs` 122-159
  | .insert c =>
    match s.objs[c]?, s.waking with
    | some (.list l), none =>
      let (l', w) := LObj.push { l with n := l.n + 1 } l.n
      some { s.setObj c (.list l') with waking := w, log := .inserted c l.n :: s.log }
    | _, _ => none
  -- `dynamic_list.rs` 145-158, 166-184, 274-289
  | .remove c i =>
    match s.objs[c]?, s.waking with
    | some (.list l), none =>
      if i < l.n ∧ i ∉ l.gone then
        let l := { l with gone := i :: l.gone }
        if i ∈ l.queue ∨ i ∈ l.done ∨ l.running = some i then some (s.setObj c (.list l))
        else some { s.setObj c (.list (l.push i).1) with waking := (l.push i).2 }
      else none
    | _, _ => none
  -- `dynamic_list.rs` 294-341
  | .render c =>
    match s.stack, s.waking, s.objs[c]? with
    | f :: fs, none, some (.list l) =>
      if l.running = none then
        some { s.setObj c (.list { l with left := l.limit, waker := none }) with
          child := fun p => if p = f.place then some c else if s.child p = some c then none else s.child p
          stack := ⟨f.place, false⟩ :: fs }
      else none
    | _, _, _ => none
  | .wake p => if s.waking = none then some { s with waking := some p } else none
  | .propagate =>
    match s.waking with
    | none => none
    | some (.task t) => some { s with waking := none, log := .woken (.task t) :: s.log }
    | some (.sub id i) =>
      match stepObj { s with log := .woken (.sub id i) :: s.log } id (.wake i) with
      | some (s, r) => some { s with waking := r.wakes }
      | none => none

def init : Sys V S O := ⟨[], fun _ => none, [], none, []⟩

/-- Several events. -/
def run (s : Sys V S O) : List (Event V S O) → Option (Sys V S O)
  | [] => some s
  | e :: es =>
    match step s e with
    | some s => run s es
    | none => none

end
end Verif.Nested
