import Verif.Wakers.Model
/-!
# Specification for C19

Which subfuture of which combinator each waker was handed to, read off the history without looking
at pointers or counts. Combinators and owned wakers are numbered in order of creation.
-/
namespace Verif.Wakers

/-- `(c, i)`: handed to subfuture `i` of combinator `c`. -/
abbrev Target := Nat × Nat

structure Ledger where
  /-- number of subfutures of each combinator; `none` once it is dropped -/
  sets : List (Option Nat)
  /-- owned wakers; `none` once consumed or dropped -/
  handles : List (Option Target)
  /-- the waker with which each combinator was polled last, if it is one of ours -/
  stored : List (Option Target)

def Ledger.target (l : Ledger) : Src → Option Target
  | .handle h => (l.handles[h]?).join
  | .own c i => (l.sets[c]?).join.bind (fun n => if i < n then some (c, i) else none)
  | .stored c => (l.stored[c]?).join

def Ledger.record (l : Ledger) : Op → Ledger
  | .new n => { l with sets := l.sets ++ [some n], stored := l.stored ++ [none] }
  | .clone s => { l with handles := l.handles ++ [l.target s] }
  | .wakeByRef _ => l
  | .wake h => { l with handles := l.handles.set h none }
  | .drop h => { l with handles := l.handles.set h none }
  | .poll c w => { l with stored := l.stored.set c (w.bind l.target) }
  | .dropSet c => { l with sets := l.sets.set c none }

/-- The ledger of a history (newest first). -/
def ledger : List Op → Ledger
  | [] => ⟨[], [], []⟩
  | op :: ops => (ledger ops).record op

/-- The memory of combinator `c` is allocated. -/
def Allocated (s : State) (c : Nat) : Prop := ∃ b, s.heap[c]? = some (some b)

/-- The mark of subfuture `i` of combinator `c`; `none` if the memory is gone. -/
def mark (s : State) (c i : Nat) : Option Bool := (s.heap[c]?).join.bind (·.awake[i]?)

end Verif.Wakers
