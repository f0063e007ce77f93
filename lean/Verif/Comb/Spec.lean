import Verif.Comb.Model
/-!
# Vocabulary of the combinator properties

Everything here is about traces (newest entry first): what was called and what was observed.
-/
namespace Verif.Comb
variable {V S O W : Type}

/-- The task waker of the latest poll; `none` if the combinator was never polled. -/
def lastWaker : List (Entry V S O W) → Option W
  | [] => none
  | (.poll w, _) :: _ => some w
  | _ :: tr => lastWaker tr

/-- The part of the trace since the latest poll began, that poll's first entry included. -/
def current : List (Entry V S O W) → List (Entry V S O W)
  | [] => []
  | (.poll w, out) :: _ => [(.poll w, out)]
  | e :: tr => e :: current tr

/-- The part of the trace before the latest poll began. -/
def before : List (Entry V S O W) → List (Entry V S O W)
  | [] => []
  | (.poll _, _) :: tr => tr
  | _ :: tr => before tr

/-- Subfuture `i` has been polled in `tr`. -/
def Polled (tr : List (Entry V S O W)) (i : Nat) : Prop := ∃ e ∈ tr, .subPoll i ∈ e.2

/-- The indices of the subfutures polled in `tr`, newest first. -/
def pollsOf (tr : List (Entry V S O W)) : List Nat :=
  tr.flatMap fun e => e.2.filterMap fun
    | .subPoll i => some i
    | _ => none

/-- A waker of subfuture `i` was woken in `tr`. -/
def Woken (tr : List (Entry V S O W)) (i : Nat) : Prop := ∃ e ∈ tr, e.1 = .wake i

/-- A waker of subfuture `i` was woken after the latest poll of `i` began. -/
def WokenSincePolled (i : Nat) : List (Entry V S O W) → Prop
  | [] => False
  | e :: tr => .subPoll i ∉ e.2 ∧ (e.1 = .wake i ∨ WokenSincePolled i tr)

/-- Subfuture `i` returned `Ready v`. -/
def Output (tr : List (Entry V S O W)) (i : Nat) (v : V) : Prop := ∃ e ∈ tr, e.1 = .sub i (.ready v)

/-- Subfuture `i` returned `Ready`. -/
def Finished (tr : List (Entry V S O W)) (i : Nat) : Prop := ∃ v, Output tr i v

/-- The combinator has not returned `Ready`, not panicked and not been dropped. -/
def Active (tr : List (Entry V S O W)) : Prop :=
  ∀ e ∈ tr, e.1 ≠ .drop ∧ .panicked ∉ e.2 ∧ ∀ o ss, .retReady o ss ∉ e.2

/-- The combinator has been polled and its latest poll has returned `Pending`. -/
def Suspended : List (Entry V S O W) → Prop
  | [] => False
  | (.wake _, _) :: tr => Suspended tr
  | e :: _ => .retPending ∈ e.2

/-- The task waker of the latest poll was woken after that poll began. -/
def TaskWoken (tr : List (Entry V S O W)) : Prop :=
  ∃ w, lastWaker tr = some w ∧ ∃ e ∈ current tr, .taskWoken (some w) ∈ e.2

/-- The items handed to the combinator for keeping, by subfutures that returned. -/
def kept (b : Behavior V S O) (tr : List (Entry V S O W)) : List S :=
  tr.filterMap fun
    | (.sub _ (.ready v), _) => (b.maybeReturn v).getLeft?
    | _ => none

/-- The kept items that moved into a returned output or were dropped. -/
def released (tr : List (Entry V S O W)) : List S :=
  tr.flatMap fun e => e.2.flatMap fun
    | .retReady _ ss => ss
    | .droppedItem s => [s]
    | _ => []

end Verif.Comb
