import Verif.App.Model
import Verif.Nested.Spec
/-!
# Vocabulary for the whole app (C49, C50)
-/
namespace Verif.App
variable {V S O : Type}

/-- The browser is idle: no code of the app is running and no timer is queued. -/
def Idle (a : App V S O) : Prop := a.ex.polling = false ∧ a.ex.timers = 0 ∧ a.sys.waking = none

/-- The task was spawned, was not cancelled and has not returned `Ready`. -/
def Alive (a : App V S O) (t : Nat) : Prop := t ∈ a.tasks ∧ t ∉ a.gone ∧ .returned (.task t) ∉ a.sys.log

end Verif.App
