import Verif.App.Spec
import Verif.Live.Model
/-!
# Vocabulary for apps that wait for data and events (C51 to C53)
-/
namespace Verif.Live
open Verif
variable {Z : Source} {V S O : Type}

/-- The browser is idle, and the source has called all the wakers it wanted to call. -/
def Idle (w : World Z V S O) : Prop := App.Idle w.app ∧ w.todo = []

/-- The future is being awaited by a part of a task that is alive. -/
def Awaited (w : World Z V S O) (k : Z.Key) : Prop :=
  ∃ n g t, (k, n) ∈ w.awaits ∧ w.given[n]? = some g ∧ App.Alive w.app t ∧ Nested.PartOf w.app.sys t g.place

/-- The history of a source. -/
inductive Hist (Z : Source) : Z.σ → List (Z.Op × Z.Out) → Z.σ → Prop
  | nil (s) : Hist Z s [] s
  | snoc {s h s1 o out s2} : Hist Z s h s1 → Z.step s1 o = some (s2, out) → Hist Z s (h ++ [(o, out)]) s2

end Verif.Live
