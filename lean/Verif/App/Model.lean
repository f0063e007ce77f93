import Verif.Exec.Model
import Verif.Nested.Model
/-!
# The whole app

The root executor (`Verif.Exec`), the task queue and the tasks with their nested combinators
(`Verif.Nested`) put together.

The task queue is `LocalExecutor` of the crate `async_executor`, of which only the dependency declaration is
in the repository (`async_ui_web/Cargo.toml:22`). The following is assumed of it. Its `run` future, when
polled, runs queued tasks one after the other; it returns `Pending` when the queue is empty, after it has
put down the waker to wake when a task is queued, or else earlier, after it has woken its own waker. It
never returns `Ready` here, since it runs `pending()` (`async_ui_web/src/executor.rs:30`). A task is queued
when it is spawned and when it is woken, unless it is already queued, has finished or was cancelled.
Simplification: a task that is woken while it runs is queued at once (and not when it stops running).
-/
namespace Verif.App
open Verif

structure App (V S O : Type) where
  /-- the root executor, `async_ui_web_core/src/executor.rs` -/
  ex : Exec.St
  /-- the `run` future has never been polled -/
  fresh : Bool
  /-- the `run` future has put down its waker, and nothing has been queued since -/
  asleep : Bool
  /-- queued tasks, the oldest first -/
  queue : List Nat
  /-- tasks that have been spawned -/
  tasks : List Nat
  /-- tasks that have been cancelled: their `Task` was dropped -/
  gone : List Nat
  sys : Nested.Sys V S O

inductive Event (V S O : Type)
  /-- `mount_at` -/
  | mount (t : Nat)
  /-- `get_executor().spawn(..)` -/
  | spawn (t : Nat)
  /-- the `Task` is dropped -/
  | cancel (t : Nat)
  /-- `run_now` is called by an event callback -/
  | runNow
  /-- the browser fires a timer -/
  | timer
  /-- the `run` future runs the next task -/
  | next
  /-- the `run` future wakes its waker and returns `Pending` -/
  | yield
  /-- the `run` future finds the queue empty, puts down its waker and returns `Pending` -/
  | sleep
  /-- a task does something, or a waker is woken, or acts -/
  | block (e : Nested.Event V S O)

section
variable {V S O : Type}

/-- After a step of the root executor. -/
def afterExec (a : App V S O) : Exec.Res → Option (App V S O)
  | .ok ex out =>
    if .pollStarts ∈ out then some { a with ex := ex, fresh := false, asleep := false }
    else some { a with ex := ex }
  | _ => none

/-- `schedule`, `async_ui_web_core/src/executor.rs:68-78`. -/
def schedule (a : App V S O) : App V S O := { a with ex := (Exec.schedule a.ex).1 }

/-- A task is queued; the waker of the `run` future is woken. -/
def push (a : App V S O) (t : Nat) : App V S O :=
  let a := { a with queue := a.queue ++ [t] }
  if a.asleep then { schedule a with asleep := false } else a

/-- A waker of the task has been woken. -/
def wakeTask (a : App V S O) (t : Nat) : App V S O :=
  if t ∈ a.queue ∨ t ∉ a.tasks ∨ t ∈ a.gone ∨ .returned (.task t) ∈ a.sys.log then a else push a t

/-- `get_executor().spawn(..)`, `async_ui_web/src/executor.rs:26-34`: the first time the `run` future is
installed. -/
def spawn (a : App V S O) (t : Nat) : Option (App V S O) :=
  if t ∈ a.tasks then none
  else if a.ex.installed then some (push { a with tasks := t :: a.tasks } t)
  else
    match Exec.step a.ex .install with
    | .ok ex _ => some (push { a with ex := ex, tasks := t :: a.tasks } t)
    | _ => none

/-- The `run` future may do something: it is being polled, and no task is. -/
def ticking (a : App V S O) : Bool := a.ex.polling && a.sys.stack.isEmpty && a.sys.waking.isNone

def step (a : App V S O) : Event V S O → Option (App V S O)
  -- `async_ui_web/src/mount.rs:23-28`
  | .mount t =>
    match spawn a t with
    | some a => some (schedule a)
    | none => none
  | .spawn t => spawn a t
  | .cancel t => some { a with gone := t :: a.gone }
  | .runNow => if a.sys.waking = none then afterExec a (Exec.step a.ex .runNow) else none
  | .timer => if a.sys.waking = none then afterExec a (Exec.step a.ex .timer) else none
  | .next =>
    if ticking a then
      match a.queue with
      | t :: q =>
        if t ∈ a.gone then some { a with queue := q }
        else
          match Nested.step a.sys (.pollTask t) with
          | some s => some { a with queue := q, sys := s }
          | none => none
      | [] => none
    else none
  | .yield =>
    if ticking a then
      let a := schedule a
      afterExec a (Exec.step a.ex .pollReturns)
    else none
  | .sleep =>
    if ticking a && a.queue.isEmpty then afterExec { a with asleep := true } (Exec.step a.ex .pollReturns) else none
  | .block (.pollTask _) => none
  | .block e =>
    match Nested.step a.sys e with
    | some s =>
      match e, a.sys.waking with
      | .propagate, some (.task t) => some (wakeTask { a with sys := s } t)
      | _, _ => some { a with sys := s }
    | none => none

def init : App V S O := ⟨Exec.init, true, false, [], [], [], Nested.init⟩

def run (a : App V S O) : List (Event V S O) → Option (App V S O)
  | [] => some a
  | e :: es =>
    match step a e with
    | some a => run a es
    | none => none

end
end Verif.App
