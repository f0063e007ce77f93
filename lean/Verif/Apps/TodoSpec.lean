import Verif.Apps.Todo

/-!
# TodoMVC: specification

What the user knows of the program: a list of todos and a filter, how the things that the user does change them, and
what is then to be seen on the screen.
-/

namespace Verif.Todo

/-- A todo. -/
structure Entry where
  id : Nat
  text : Text
  done : Bool
  editing : Bool
deriving DecidableEq

/-- The todos in order, and the filter. `next` is the number of the next todo. -/
structure App where
  todos : List Entry
  filter : Mode
  next : Nat
deriving DecidableEq

def App.empty : App := ⟨[], .all, 0⟩

/-- What the user's actions mean. -/
def App.step (trim : Text → Text) (a : App) : Event → App
  | .add text =>
    if trim text = [] then a else ⟨a.todos ++ [⟨a.next, trim text, false, false⟩], a.filter, a.next + 1⟩
  | .check i => { a with todos := a.todos.map fun e => if e.id = i then { e with done := !e.done } else e }
  | .toggleAll => { a with todos := a.todos.map fun e => { e with done := !a.todos.all (·.done) } }
  | .clear => { a with todos := a.todos.filter fun e => !e.done }
  | .delete i => { a with todos := a.todos.filter fun e => e.id != i }
  | .dblclick i => { a with todos := a.todos.map fun e => if e.id = i then { e with editing := true } else e }
  | .edited i text =>
    { a with todos := a.todos.map fun e =>
        if e.id = i ∧ e.editing = true then { e with text := trim text, editing := false } else e }
  | .filter m => { a with filter := m }

/-- One row of the list on the screen. -/
structure Row where
  id : Nat
  label : Text
  box : Bool
  completed : Bool
  hidden : Bool
  editing : Bool
deriving DecidableEq

/-- The screen. The checkbox for all counts only if there are rows. -/
structure Screen where
  rows : List Row
  left : Int
  toggleBox : Option Bool
  mainHidden : Bool
  clearHidden : Bool
  selected : Mode → Bool

/-- What is on the screen. -/
def State.screen (s : State) : Screen :=
  { rows := s.items.map fun p => ⟨p.1, p.2.label, p.2.box, p.2.completed, p.2.hidden, p.2.editing⟩
    left := s.left
    toggleBox := if s.items = [] then none else some s.toggleBox
    mainHidden := s.mainHidden
    clearHidden := s.clearHidden
    selected := s.selected }

/-- Which todos a filter hides. -/
def Mode.hides : Mode → Bool → Bool
  | .all, _ => false
  | .active, done => done
  | .completed, done => !done

/-- What should be on the screen. -/
def App.screen (a : App) : Screen :=
  { rows := a.todos.map fun e => ⟨e.id, e.text, e.done, e.done, a.filter.hides e.done, e.editing⟩
    left := (a.todos.filter fun e => !e.done).length
    toggleBox := if a.todos = [] then none else some (a.todos.all (·.done))
    mainHidden := decide (a.todos = [])
    clearHidden := !a.todos.any (·.done)
    selected := fun m => decide (a.filter = m) }

/-- Nothing is left to do. -/
def Idle (trim : Text → Text) (s : State) : Prop := s.pending = [] ∧ ∀ p, poll trim s p = s

/-- An event arrives and the loops are polled, in any order and any number of times, until nothing is left to do. -/
def Handled (trim : Text → Text) (s : State) (e : Event) (s' : State) : Prop :=
  ∃ ps, polls trim (fire e s) ps = s' ∧ Idle trim s'

/-- Events arrive one after the other. -/
inductive Play (trim : Text → Text) : State → List Event → State → Prop where
  | nil (s : State) : Play trim s [] s
  | cons {s s' s'' : State} {e : Event} {es : List Event} :
      Handled trim s e s' → Play trim s' es s'' → Play trim s (e :: es) s''

/-- Polls that each have something to do. -/
inductive Busy (trim : Text → Text) : State → List Poll → State → Prop where
  | nil (s : State) : Busy trim s [] s
  | cons {s s' : State} {p : Poll} {ps : List Poll} :
      poll trim s p ≠ s → Busy trim (poll trim s p) ps s' → Busy trim s (p :: ps) s'

end Verif.Todo
