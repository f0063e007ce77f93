import Verif.Live.Inv
/-!
# A concrete app, for the examples

A task joins a block and a leaf; the block races two leaves, of which the second awaits a future of the source.
-/
namespace Verif.Live
open Verif

/-- The app is mounted and runs until everything is pending; `a` are the operations in the first poll of the
second leaf of the race. Then `b` happens, which wakes that leaf; and everything runs again, with `c` in the
second poll of the leaf. -/
def exEvents (Z : Source) (a b c : List Z.Op) : List (Event Z Nat Nat (List Nat)) :=
  [.app (.mount 0), .app .timer, .app .next] ++ ((Nested.exStart.drop 1).take 5).map (fun e => .app (.block e)) ++
  a.map .op ++ ((Nested.exStart.drop 6).take 4).map (fun e => .app (.block e)) ++ [.app .sleep] ++
  b.map .op ++ [.wake, .app (.block .propagate), .app (.block .propagate), .app (.block .propagate),
    .app .timer, .app .next, .app (.block .await), .app (.block .await)] ++
  c.map .op ++ ((Nested.exPoll.drop 3).map fun e => .app (.block e)) ++ [.app .sleep]

variable {Z : Source}

abbrev View (Z : Source) :=
  ((Exec.St × List Nat × List Nat × List Nat) ×
    List Nested.Frame × Option Nested.Place × List Nested.Note × Option Nat × Option Nat × List (Nat × List Nat)) ×
  List Nat × List (Z.Key × Nat) × Option Nested.Place

/-- What the examples look at. -/
def view (w : World Z Nat Nat (List Nat)) : View Z :=
  ((App.view w.app, Nested.view w.app.sys), w.todo, w.awaits, w.given[1]?.map (·.place))

/-- The state of the app at the end. -/
def exView (k : Z.Key) : View Z :=
  (((⟨true, false, false, 0, false⟩, [], [0], []),
    [], none, [.polled (.sub 1 1), .polled (.sub 0 0), .polled (.task 0),
      .woken (.task 0), .woken (.sub 0 0), .woken (.sub 1 1), .polled (.sub 0 1), .polled (.sub 1 1),
      .polled (.sub 1 0), .polled (.sub 0 0), .polled (.task 0)], some 0, some 1, [(2, []), (2, [])]),
    [], [(k, 1)], some (.sub 1 1))

theorem ex_idle {w : World Z Nat Nat (List Nat)} {k : Z.Key} (h : view w = exView k) : Idle w ∧ Awaited w k := by
  simp only [view, exView, App.view, Nested.view, Prod.mk.injEq, Option.map_eq_some_iff] at h
  obtain ⟨⟨⟨a1, a2, a3, a4⟩, b1, b2, b3, b4, b5, b6⟩, c1, c2, g, c3, c4⟩ := h
  refine ⟨⟨⟨by simp [a1], by simp [a1], b2⟩, c1⟩, 1, g, 0, by simp [c2], c3,
    ⟨by simp [a3], by simp [a4], by simp [b3]⟩, c4 ▸ Nested.ex_part b4 b5 b6 (by simp [b3])⟩

end Verif.Live
