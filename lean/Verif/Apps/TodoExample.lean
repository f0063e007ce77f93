import Verif.Apps.TodoWork

/-!
# TodoMVC: examples
-/

namespace Verif.Todo

/-- Two todos, one is done, and only the open ones are shown. -/
def busyDay : List Event :=
  [.add ['a'], .add [], .add ['b'], .check 1, .dblclick 0, .edited 0 ['c'], .filter .active]

/-- `todo_screen` and `todo_plays` at work. -/
example : ∃ s, Play id init busyDay s ∧
    s.screen.rows = [⟨0, ['c'], false, false, false, false⟩, ⟨1, ['b'], true, true, true, false⟩] ∧
    s.screen.left = 1 ∧ s.screen.toggleBox = some false ∧ s.screen.mainHidden = false ∧ s.screen.clearHidden = false ∧
    s.screen.selected .active = true ∧ s.screen.selected .all = false := by
  obtain ⟨s, h⟩ := todo_plays id busyDay
  refine ⟨s, h, ?_⟩
  rw [todo_screen h]
  refine ⟨?_, ?_, ?_, ?_, ?_, ?_, ?_⟩ <;> decide

/-- The checkbox for all makes everything done, then nothing; clearing takes the done ones away. -/
example : ∃ s, Play id init [.add ['a'], .add ['b'], .check 0, .toggleAll, .toggleAll, .check 1, .clear] s ∧
    s.screen.rows = [⟨0, ['a'], false, false, false, false⟩] ∧ s.screen.left = 1 ∧ s.screen.clearHidden = true := by
  obtain ⟨s, h⟩ := todo_plays id [.add ['a'], .add ['b'], .check 0, .toggleAll, .toggleAll, .check 1, .clear]
  refine ⟨s, h, ?_⟩
  rw [todo_screen h]
  refine ⟨?_, ?_, ?_⟩ <;> decide

/-- `todo_settles`: after the two todos, a click on the checkbox for all leaves at most 18 polls with something to do. -/
example : ∃ s, Play id init [.add ['a'], .add ['b']] s ∧ ∀ ps s', Busy id (fire .toggleAll s) ps s' → ps.length ≤ 18 := by
  obtain ⟨s, h⟩ := todo_plays id [.add ['a'], .add ['b']]
  exact ⟨s, h, fun ps s' hb => (todo_settles h .toggleAll hb).1⟩

/-- `todo_double_click` applies. -/
example : ∃ s s' : State, Play id init [.add ['a']] s ∧
    (∃ ps, polls id (fire (.check 0) (fire (.check 0) s)) ps = s') ∧ Idle id s' ∧
    s'.screen.left = 2 ∧ s'.screen.rows.length = 1 := todo_double_click id (text := ['a']) (by decide)

end Verif.Todo
