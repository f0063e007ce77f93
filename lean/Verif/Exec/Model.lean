/-!
# The root executor

Model of `async_ui_web_core/src/executor.rs`.

JavaScript is single threaded: timer callbacks and event callbacks start only when no Rust code
is running; `schedule` (through wakers), `run_now` (through event dispatch inside a poll) and
`set_executor_future` may be called at any time, also inside a poll. A poll that never returns
or panics is not modelled.
-/
namespace Verif.Exec

/-- `ExecutorSingleton`, `executor.rs:19-25`, plus the environment it lives in. -/
structure St where
  /-- `future` is `Some` -/
  installed : Bool
  scheduled : Bool
  active : Bool
  /-- number of `setTimeout` callbacks queued in the browser -/
  timers : Nat
  /-- the root future is being polled (its `RefCell` is borrowed) -/
  polling : Bool
deriving DecidableEq, Repr

/-- `ExecutorSingleton::new`, `executor.rs:28-36`. -/
def init : St := ⟨false, false, false, 0, false⟩

/-- What the environment does. -/
inductive Event
  /-- `set_executor_future` -/
  | install
  /-- the root waker is woken, or `schedule` is called -/
  | wake
  /-- `run_now` is called -/
  | runNow
  /-- the browser fires a queued timer -/
  | timer
  /-- the poll of the root future returns -/
  | pollReturns
deriving DecidableEq, Repr

/-- What can be observed in response. -/
inductive Effect
  | pollStarts
  | setTimeout
deriving DecidableEq, Repr

/-- The `while` loop of `run_now` from its head, `executor.rs:54-60`, up to the point where it
enters a poll or ends. With `future` = `None` an iteration does nothing, and the second one
finds `scheduled` false. `none` = panic: `borrow_mut` while the future is being polled. -/
def loop (s : St) : Option (St × List Effect) :=
  if s.scheduled then
    if s.polling then none
    else if s.installed then
      some ({ s with scheduled := false, polling := true }, [.pollStarts])
    else some ({ s with scheduled := false, active := false }, [])
  else some ({ s with active := false }, [])

/-- `run_now`, `executor.rs:50-63`. -/
def runNow (s : St) : Option (St × List Effect) :=
  if s.active then some (s, []) else loop { s with active := true }

/-- `schedule`, `executor.rs:68-78`. -/
def schedule (s : St) : St × List Effect :=
  if !s.scheduled && !s.active then
    ({ s with scheduled := true, timers := s.timers + 1 }, [.setTimeout])
  else ({ s with scheduled := true }, [])

/-- Result of an event: not possible in this state, a panic, or a new state. -/
inductive Res
  | impossible
  | panic
  | ok (s : St) (out : List Effect)
deriving DecidableEq, Repr

def Res.of : Option (St × List Effect) → Res
  | none => .panic
  | some (s, o) => .ok s o

def step (s : St) : Event → Res
  -- `executor.rs:41-43`; `borrow_mut` panics inside a poll
  | .install => if s.polling then .panic else .ok { s with installed := true } []
  | .wake => let (s, o) := schedule s; .ok s o
  | .runNow => Res.of (runNow s)
  | .timer =>
    if s.polling || s.timers == 0 then .impossible
    else Res.of (runNow { s with timers := s.timers - 1 })
  -- back in the loop, `executor.rs:57-58`
  | .pollReturns =>
    if s.polling then Res.of (loop { s with polling := false }) else .impossible

/-- A trace entry: an event and its effects. -/
abbrev Entry := Event × List Effect

/-- `Run s tr s'`: from `s` the events of `tr` happen, with the effects recorded, ending in `s'`. -/
inductive Run : St → List Entry → St → Prop
  | nil (s) : Run s [] s
  | snoc {s tr s' s''} {e : Event} {o : List Effect} :
      Run s tr s' → step s' e = .ok s'' o → Run s (tr ++ [(e, o)]) s''

end Verif.Exec
