import Verif.Live.EveryExample
import Verif.Live.Sync
/-!
# A click that is handled in time, and one that is not

The app of `Verif.Live.Example`: a task that joins a block `A` (a race of two leaves, of which the second is
`loop { button.until_click().await; … }`) and a block `B`.
-/
namespace Verif.Live
open XBow.Data (Data Layer)

/-- The app is mounted and runs until the leaf and `A` have returned `Pending`. `B` is being polled. -/
def exUntilB : List (Event exSource Nat Nat (List Nat)) :=
  [.app (.mount 0), .app .timer, .app .next] ++ ((Nested.exStart.drop 1).take 5).map (fun e => .app (.block e)) ++
  [onEvents (.new 3 7), onEvents (.poll 0 1)].map .op ++ ((Nested.exStart.drop 6).take 2).map (fun e => .app (.block e))

/-- `B` and the task return `Pending`, and so does the root future. -/
def exThenRest : List (Event exSource Nat Nat (List Nat)) :=
  ((Nested.exStart.drop 8).take 2).map (fun e => .app (.block e)) ++ [.app .sleep]

def exClick : Event exSource Nat Nat (List Nat) := .op (onEvents (.deliver ⟨3, 7, 0, false, false⟩ 100))

/-- The listener wakes the waker. -/
def exWakes : List (Event exSource Nat Nat (List Nat)) :=
  [.wake, .app (.block .propagate), .app (.block .propagate), .app (.block .propagate)]

/-- The listener calls `run_now`; the task is polled; the leaf gets the click, and waits for the next one. -/
def exHandle : List (Event exSource Nat Nat (List Nat)) :=
  exWakes ++ [.app .runNow, .app .next, .app (.block .await), .app (.block .await)] ++
  [onEvents (.poll 0 2), onEvents (.drop 0), onEvents (.new 3 7), onEvents (.poll 1 3)].map .op ++
  ((Nested.exPoll.drop 3).map fun e => .app (.block e))

/-- What the examples look at. -/
def syncView (w : World exSource Nat Nat (List Nat)) :=
  ((App.view w.app, w.app.sys.waking, w.app.sys.log.all fun | .returned _ => false | _ => true),
    (w.app.sys.child (.task 0), w.app.sys.child (.sub 0 0), w.app.sys.objs.map Nested.Obj.content),
    w.todo, w.awaits, w.given.map (·.place), ofEvents w 0)

/-- The leaf awaits the stream `i` with the waker `n`. -/
theorem sync_part {w : World exSource Nat Nat (List Nat)} {x : Exec.St} {q todo : List Nat} {i n : Nat}
    {ops : List (Events.Op × Events.Obs)}
    (h : syncView w = (((x, q, [0], []), none, true), (some 0, some 1, [(2, []), (2, [])]), todo, [(⟨.events 0, i⟩, n)],
      List.replicate (n + 1) (.sub 1 1), ops)) :
    w.app.ex = x ∧ w.todo = todo ∧ w.app.sys.waking = none ∧ ofEvents w 0 = ops ∧
      ∃ g, ((⟨.events 0, i⟩ : exSource.Key), n) ∈ w.awaits ∧ w.given[n]? = some g ∧ g.place = .sub 1 1 ∧
        App.Alive w.app 0 ∧ Nested.PartOf w.app.sys 0 g.place := by
  simp only [syncView, App.view, Prod.mk.injEq] at h
  obtain ⟨⟨⟨a1, a2, a3, a4⟩, b1, b2⟩, ⟨b4, b5, b6⟩, c1, c2, c3, c4⟩ := h
  have hg : (w.given.map (·.place))[n]? = some (.sub 1 1) := by rw [c3, List.getElem?_replicate, if_pos (by omega)]
  rw [List.getElem?_map, Option.map_eq_some_iff] at hg
  obtain ⟨g, d3, d4⟩ := hg
  have hr : ∀ p, .returned p ∉ w.app.sys.log := fun p hp => by simpa using List.all_eq_true.1 b2 _ hp
  exact ⟨a1, c1, b1, c4, g, by simp [c2], d3, d4, ⟨by simp [a3], by simp [a4], hr _⟩, d4 ▸ Nested.ex_part b4 b5 b6 hr⟩

/-- What happened to the streams when the click is handled. -/
def exHandled : List (Events.Op × Events.Obs) :=
  [(.new 3 7, {}), (.poll 0 1, { polled := some none }), (.deliver ⟨3, 7, 0, false, false⟩ 100, { woke := some 1 }),
    (.poll 0 2, { polled := some (some 100) }), (.drop 0, {}), (.new 3 7, {}), (.poll 1 3, { polled := some none })]

theorem exRest_view : (run (init exStart) (exUntilB ++ exThenRest)).map syncView =
    some (((⟨true, false, false, 0, false⟩, [], [0], []), none, true), (some 0, some 1, [(2, []), (2, [])]), [],
      [(⟨.events 0, 0⟩, 0)], [.sub 1 1], exHandled.take 2) := by rfl

theorem exHandle_view : (run (init exStart) (exUntilB ++ exThenRest ++ exClick :: exHandle)).map syncView =
    some (((⟨true, false, true, 1, true⟩, [], [0], []), none, true), (some 0, some 1, [(2, []), (2, [])]), [],
      [(⟨.events 0, 1⟩, 2)], List.replicate 3 (.sub 1 1), exHandled) := by rfl

theorem exSlept_view : (run (init exStart) (exUntilB ++ exThenRest ++ exClick :: exHandle ++ [.app .sleep])).map syncView =
    some (((⟨true, false, false, 1, false⟩, [], [0], []), none, true), (some 0, some 1, [(2, []), (2, [])]), [],
      [(⟨.events 0, 1⟩, 2)], List.replicate 3 (.sub 1 1), exHandled) := by rfl

/-- The hypotheses of `event_is_handled_in_time_partial` are met: the click is delivered while the app rests, and when `run_now`
returns the leaf has got it, although the timer has not fired yet. -/
example : ∃ w1 w2 w3 w4 g, run (init exStart) (exUntilB ++ exThenRest) = some w1 ∧
    (∃ t, Event.app (.mount t) ∈ exUntilB ++ exThenRest) ∧
    ((⟨.events 0, 0⟩ : exSource.Key), 0) ∈ w1.awaits ∧ w1.given[0]? = some g ∧ step w1 exClick = some w2 ∧
    (Events.history (eventOps w1 0)).order[0]? = some 0 ∧ run w2 exHandle = some w3 ∧ Returns w3 .sleep w4 ∧
    App.Alive w4.app 0 ∧ Nested.PartOf w4.app.sys 0 g.place ∧ w4.app.ex.timers = 1 ∧ ofEvents w4 0 = exHandled := by
  obtain ⟨w1, hw1, hv1⟩ := Option.map_eq_some_iff.1 exRest_view
  obtain ⟨w3, hw3, hv3⟩ := Option.map_eq_some_iff.1 exHandle_view
  obtain ⟨w4, hw4, hv4⟩ := Option.map_eq_some_iff.1 exSlept_view
  obtain ⟨-, -, -, p4, g, p5, p6, p7, -, -⟩ := sync_part hv1
  obtain ⟨q1, q2, q3, q4, -, -, -, -, -, -⟩ := sync_part hv3
  obtain ⟨r1, r2, r3, r4, g', -, -, r5, r6, r7⟩ := sync_part hv4
  obtain ⟨w1', e1, e2⟩ := run_split hw3
  rw [hw1] at e1; cases e1
  obtain ⟨w3', e3, e4⟩ := run_split hw4
  rw [hw3] at e3; cases e3
  simp only [run] at e2 e4
  split at e2
  · next w2 hw2 =>
    split at e4
    · next w5 hw5 =>
      cases e4
      refine ⟨w1, w2, w3, w4, g, hw1, ⟨0, by simp [exUntilB]⟩, p5, p6, hw2, ?_, e2, ⟨hw5, ⟨?_, by rw [r1], .inl (by rw [q1])⟩, r2⟩,
        r6, ?_, by rw [r1], r4⟩
      · simp [eventOps, p4, exHandled, Events.history, Events.History.next, Events.History.upd]
      · simp only [step] at hw5
        split at hw5
        · split at hw5
          · next a ha => cases hw5; exact ha
          · cases hw5
        · cases hw5
      · rw [p7, ← r5]; exact r7
    · cases e4
  · cases e2

theorem exUntilB_view : (run (init exStart) exUntilB).map syncView =
    some (((⟨true, false, true, 0, true⟩, [], [0], []), none, true), (some 0, some 1, [(2, []), (2, [])]), [],
      [(⟨.events 0, 0⟩, 0)], [.sub 1 1], exHandled.take 2) := by rfl

theorem exWakes_view : (run (init exStart) (exUntilB ++ exClick :: exWakes)).map syncView =
    some (((⟨true, false, true, 0, true⟩, [0], [0], []), none, true), (some 0, some 1, [(2, []), (2, [])]), [],
      [(⟨.events 0, 0⟩, 0)], [.sub 1 1], exHandled.take 3) := by rfl

/-- A `run_now` that is called while another one is running does nothing. -/
theorem nested_run_now {Z : Source} {V S O : Type} {w w' : World Z V S O} (ha : w.app.ex.active = true)
    (h : step w (.app .runNow) = some w') : w' = w := by
  simp only [step, mayHappen, if_true, App.step] at h
  split at h
  · next a hs =>
    cases h
    split at hs
    · simp only [Exec.step, Exec.runNow, ha, if_true, Exec.Res.of, App.afterExec] at hs
      simp only [List.not_mem_nil, if_false] at hs
      cases hs; rfl
    · cases hs
  · cases h

/-- **What C82 excludes.** The task itself dispatches the event: `B` calls `button.click()`. The listener wakes the waker and
calls `run_now`, which returns at once. The listener returns, and the leaf has not got the click: its task and the leaf
are there, and the stream was neither polled nor given up. (The leaf will get it when the task is polled again; the
dispatch is over then, and `prevent_default` does nothing.) -/
theorem nested_event_is_late : ∃ (es1 es2 : List (Event exSource Nat Nat (List Nat))) (w1 w2 w3 w4 : World exSource Nat Nat (List Nat))
    (g : Given) (l : Events.Listener) (e : Events.Ev),
    run (init exStart) es1 = some w1 ∧ (∃ t, .app (.mount t) ∈ es1) ∧
    ((⟨.events 0, 0⟩ : exSource.Key), 0) ∈ w1.awaits ∧ w1.given[0]? = some g ∧
    step w1 (.op ⟨.events 0, .deliver l e⟩) = some w2 ∧ (Events.history (eventOps w1 0)).order[l.callback]? = some 0 ∧
    run w2 es2 = some w3 ∧ step w3 (.app .runNow) = some w4 ∧ w4.todo = [] ∧
    ofEvents w4 0 = ofEvents w2 0 ∧ .release ⟨.events 0, 0⟩ ∉ es2 ∧ .op ⟨.events 0, .drop 0⟩ ∉ es2 ∧
    App.Alive w4.app 0 ∧ Nested.PartOf w4.app.sys 0 g.place := by
  obtain ⟨w1, hw1, hv1⟩ := Option.map_eq_some_iff.1 exUntilB_view
  obtain ⟨w3, hw3, hv3⟩ := Option.map_eq_some_iff.1 exWakes_view
  obtain ⟨-, -, -, p4, g, p5, p6, p7, -, -⟩ := sync_part hv1
  obtain ⟨q1, q2, q3, q4, g', -, -, q5, q6, q7⟩ := sync_part hv3
  obtain ⟨w1', e1, e2⟩ := run_split hw3
  rw [hw1] at e1; cases e1
  simp only [run] at e2
  split at e2
  · next w2 hw2 =>
    have hs : step w3 (.app .runNow) = some w3 := by
      obtain ⟨a, src, hist, gi, aw, td⟩ := w3
      obtain ⟨ex, f, sl, q, ts, gn, sy⟩ := a
      simp only at q1 q3
      subst q1
      simp [step, mayHappen, App.step, q3, Exec.step, Exec.runNow, Exec.Res.of, App.afterExec]
    refine ⟨exUntilB, exWakes, w1, w2, w3, w3, g, ⟨3, 7, 0, false, false⟩, 100, hw1, ⟨0, by simp [exUntilB]⟩, p5, p6, hw2, ?_, e2, hs, q2, ?_,
      fun h => by simp [exWakes] at h, fun h => by simp [exWakes] at h, q6, by rw [p7, ← q5]; exact q7⟩
    · simp [eventOps, p4, exHandled, Events.history, Events.History.next, Events.History.upd]
    · obtain ⟨out, ho⟩ := op_part hw2
      obtain ⟨later, hl⟩ := run_part e2 (.events 0)
      simp only [ofEvents] at q4 p4 ⊢
      rw [ho, p4] at hl
      have := congrArg List.length (hl.symm.trans q4)
      simp [exHandled] at this
      subst this
      rw [hl, ho, p4]; simp
  · cases e2

end Verif.Live
