import Verif.Live.Every
import Verif.Live.FullExample
/-!
# A loop that gets all the clicks, and one that does not

The app of `Verif.Live.Example`. Its leaf is `loop { button.until_click().await; … }`, which makes a new stream for
every click.
-/
namespace Verif.Live
open XBow.Data (Data Layer)

/-- Two clicks. -/
def exClicks : List (Event exSource Nat Nat (List Nat)) :=
  exEvents exSource [onEvents (.new 3 7), onEvents (.poll 0 1)] [onEvents (.deliver ⟨3, 7, 0, false, false⟩ 100)]
    [onEvents (.poll 0 2), onEvents (.drop 0), onEvents (.new 3 7), onEvents (.poll 1 3)] ++
  [.op (onEvents (.deliver ⟨3, 7, 1, false, false⟩ 200)), .wake, .app (.block .propagate), .app (.block .propagate),
    .app (.block .propagate), .app .timer, .app .next, .app (.block .await), .app (.block .await)] ++
  [onEvents (.poll 1 4), onEvents (.drop 1), onEvents (.new 3 7), onEvents (.poll 2 5)].map .op ++
  ((Nested.exPoll.drop 3).map fun e => .app (.block e)) ++ [.app .sleep]

/-- What the example looks at. -/
def clickView (w : World exSource Nat Nat (List Nat)) :=
  (((App.view w.app), w.app.sys.waking, w.app.sys.log.all fun | .returned _ => false | _ => true),
    (w.app.sys.child (.task 0), w.app.sys.child (.sub 0 0), w.app.sys.objs.map Nested.Obj.content),
    w.todo, w.awaits, w.given.map (·.place), ofEvents w 0)

/-- The app is idle and its leaf awaits the stream `i`. -/
def clickAt (i n : Nat) (ops : List (Events.Op × Events.Obs)) :=
  (((((⟨true, false, false, 0, false⟩ : Exec.St), ([] : List Nat), [0], ([] : List Nat))), (none : Option Nested.Place), true),
    (some 0, some 1, [(2, ([] : List Nat)), (2, [])]),
    ([] : List Nat), [((⟨.events 0, i⟩ : exSource.Key), n)], List.replicate (n + 1) (Nested.Place.sub 1 1), ops)

theorem clickAt_idle {w : World exSource Nat Nat (List Nat)} {i n : Nat} {ops : List (Events.Op × Events.Obs)}
    (h : clickView w = clickAt i n ops) : Idle w ∧ Awaited w ⟨.events 0, i⟩ ∧ ofEvents w 0 = ops := by
  simp only [clickView, clickAt, App.view, Prod.mk.injEq] at h
  obtain ⟨⟨⟨a1, a2, a3, a4⟩, b1, b2⟩, ⟨b4, b5, b6⟩, c1, c2, c3, c4⟩ := h
  have hg : (w.given.map (·.place))[n]? = some (.sub 1 1) := by rw [c3, List.getElem?_replicate, if_pos (by omega)]
  rw [List.getElem?_map, Option.map_eq_some_iff] at hg
  obtain ⟨g, d3, d4⟩ := hg
  have hr : ∀ p, .returned p ∉ w.app.sys.log := fun p hp => by simpa using List.all_eq_true.1 b2 _ hp
  exact ⟨⟨⟨by simp [a1], by simp [a1], b1⟩, c1⟩, ⟨n, g, 0, by simp [c2], d3, ⟨by simp [a3], by simp [a4], hr _⟩,
    d4 ▸ Nested.ex_part b4 b5 b6 hr⟩, c4⟩

/-- At the beginning. -/
def exStart : exSource.σ := start (fun _ => (Cell.init 3).get rfl) fun _ => XBow.sampleData 1 2

/-- Where in a list something of a kind is. -/
def positions {α : Type} (f : α → Bool) : List α → List Nat
  | [] => []
  | x :: l => (if f x then [0] else []) ++ (positions f l).map (· + 1)

theorem mem_positions {α : Type} {f : α → Bool} {x : α} (hx : f x = true) {a b l : List α} (h : l = a ++ x :: b) :
    a.length ∈ positions f l ∧ a = l.take a.length := by
  subst h
  refine ⟨?_, by simp⟩
  induction a with
  | nil => simp [positions, hx]
  | cons y a ih => simp only [List.cons_append, positions, List.length_cons]; simp [ih]

def isDelivery : Event exSource Nat Nat (List Nat) → Bool
  | .op ⟨.events _, .deliver _ _⟩ => true
  | _ => false

def isDrop : Event exSource Nat Nat (List Nat) → Bool
  | .op ⟨.events _, .drop _⟩ => true
  | _ => false

theorem exClicks_positions : positions isDelivery exClicks = [15, 32] ∧ positions isDrop exClicks = [25, 42] := ⟨rfl, rfl⟩

/-- What happens to the streams. -/
def exClickHist : List (Events.Op × Events.Obs) :=
  [(.new 3 7, {}), (.poll 0 1, { polled := some none }),
    (.deliver ⟨3, 7, 0, false, false⟩ 100, { woke := some 1 }),
    (.poll 0 2, { polled := some (some 100) }), (.drop 0, {}), (.new 3 7, {}), (.poll 1 3, { polled := some none }),
    (.deliver ⟨3, 7, 1, false, false⟩ 200, { woke := some 3 }),
    (.poll 1 4, { polled := some (some 200) }), (.drop 1, {}), (.new 3 7, {}), (.poll 2 5, { polled := some none })]

theorem exClicks_15 : (run (init exStart) (exClicks.take 15)).map clickView =
    some (clickAt 0 0 (exClickHist.take 2)) := by rfl

theorem exClicks_32 : (run (init exStart) (exClicks.take 32)).map clickView =
    some (clickAt 1 2 (exClickHist.take 7)) := by rfl

theorem exClicks_end : (run (init exStart) exClicks).map clickView =
    some (clickAt 2 4 exClickHist) := by rfl

theorem exClicks_25 : (run (init exStart) (exClicks.take 25)).map (ofEvents · 0) =
    some (exClickHist.take 4) := by rfl

theorem exClicks_42 : (run (init exStart) (exClicks.take 42)).map (ofEvents · 0) =
    some (exClickHist.take 9) := by rfl

/-- The hypotheses of `every_event_is_yielded` are met, for all streams; two clicks are yielded, by two streams. -/
example : ∃ w, run (init exStart) exClicks = some w ∧
    (∀ es1 l e es2 w1, exClicks = es1 ++ .op ⟨.events 0, .deliver l e⟩ :: es2 →
      run (init exStart) es1 = some w1 →
      ∀ i, (Events.history (eventOps w1 0)).order[l.callback]? = some i → (fun _ => true) i = true →
        (∃ t, .app (.mount t) ∈ es1) ∧ Attentive w1 0 (fun _ => true) ∧ Awaited w1 ⟨.events 0, i⟩) ∧
    (∀ es1 j es2 w1, exClicks = es1 ++ .op ⟨.events 0, .drop j⟩ :: es2 → run (init exStart) es1 = some w1 →
      (fun _ => true) j = true → ((Events.history (eventOps w1 0)).view j).unread = none) ∧
    (∃ t, .app (.mount t) ∈ exClicks) ∧ Attentive w 0 (fun _ => true) ∧
    Events.deliveredTo (fun _ => true) {} (eventOps w 0) = [100, 200] ∧
    Events.yieldedBy (fun _ => true) (eventOps w 0) ((ofEvents w 0).map (·.2)) = [100, 200] := by
  have v1 := exClicks_15
  have v2 := exClicks_32
  have v3 := exClicks_end
  have v4 := exClicks_25
  have v5 := exClicks_42
  obtain ⟨w, hw, hv⟩ := Option.map_eq_some_iff.1 v3
  obtain ⟨hidle, haw, hops⟩ := clickAt_idle hv
  have hmount : ∀ k, 0 < k → ∃ t, Event.app (.mount t) ∈ exClicks.take k := by
    intro k hk
    cases k with
    | zero => omega
    | succ k => exact ⟨0, by simp [exClicks, exEvents]⟩
  refine ⟨w, hw, ?_, ?_, ⟨0, by simp [exClicks, exEvents]⟩, ⟨hidle, ?_⟩, ?_, ?_⟩
  · intro es1 l e es2 w1 hes hrun i hi _
    obtain ⟨h1, h2⟩ := mem_positions (f := isDelivery) rfl hes
    rw [exClicks_positions.1] at h1
    simp only [List.mem_cons, List.not_mem_nil, or_false] at h1
    rcases h1 with h1 | h1
    · rw [h1] at h2; subst h2
      rw [hrun] at v1
      obtain ⟨j1, j2, j3⟩ := clickAt_idle (Option.some.inj v1)
      have hl : l = ⟨3, 7, 0, false, false⟩ := by
        have := congrArg (·[15]?) hes
        simp only [List.getElem?_append_right (Nat.le_of_eq h1), h1] at this
        cases this; rfl
      subst hl
      have hlis : ∀ j, (Events.history (eventOps w1 0)).listening j → j = 0 := by
        intro j hj
        refine Decidable.byContradiction fun hne => hj.1 ?_
        simp [eventOps, j3, exClickHist, Events.history, Events.History.next, Events.History.upd, hne]
      refine ⟨hmount _ (by omega), ⟨j1, fun j _ hj => ?_⟩, ?_⟩
      · rw [hlis j hj]; exact j2
      · simp [eventOps, j3, exClickHist, Events.history, Events.History.next, Events.History.upd] at hi
        exact hi ▸ j2
    · rw [h1] at h2; subst h2
      rw [hrun] at v2
      obtain ⟨j1, j2, j3⟩ := clickAt_idle (Option.some.inj v2)
      have hl : l = ⟨3, 7, 1, false, false⟩ := by
        have := congrArg (·[32]?) hes
        simp only [List.getElem?_append_right (Nat.le_of_eq h1), h1] at this
        cases this; rfl
      subst hl
      have hlis : ∀ j, (Events.history (eventOps w1 0)).listening j → j = 1 := by
        intro j hj
        refine Decidable.byContradiction fun hne => ?_
        obtain ⟨k1, k2⟩ := hj
        by_cases h0 : j = 0
        · subst h0
          simp [eventOps, j3, exClickHist, Events.history, Events.History.next, Events.History.upd] at k2
        · simp [eventOps, j3, exClickHist, Events.history, Events.History.next, Events.History.upd, hne, h0] at k1
      refine ⟨hmount _ (by omega), ⟨j1, fun j _ hj => ?_⟩, ?_⟩
      · rw [hlis j hj]; exact j2
      · simp [eventOps, j3, exClickHist, Events.history, Events.History.next, Events.History.upd] at hi
        exact hi ▸ j2
  · intro es1 j es2 w1 hes hrun _
    obtain ⟨h1, h2⟩ := mem_positions (f := isDrop) rfl hes
    rw [exClicks_positions.2] at h1
    simp only [List.mem_cons, List.not_mem_nil, or_false] at h1
    rcases h1 with h1 | h1
    · rw [h1] at h2; subst h2
      rw [hrun] at v4
      have hj : j = 0 := by
        have := congrArg (·[25]?) hes
        simp only [List.getElem?_append_right (Nat.le_of_eq h1), h1] at this
        cases this; rfl
      rw [hj, eventOps, show ofEvents w1 0 = _ from Option.some.inj v4]; rfl
    · rw [h1] at h2; subst h2
      rw [hrun] at v5
      have hj : j = 1 := by
        have := congrArg (·[42]?) hes
        simp only [List.getElem?_append_right (Nat.le_of_eq h1), h1] at this
        cases this; rfl
      rw [hj, eventOps, show ofEvents w1 0 = _ from Option.some.inj v5]; rfl
  · intro j _ hj
    have : j = 2 := by
      refine Decidable.byContradiction fun hne => ?_
      obtain ⟨k1, k2⟩ := hj
      by_cases h0 : j = 0
      · subst h0
        simp [eventOps, hops, exClickHist, Events.history, Events.History.next, Events.History.upd] at k2
      · by_cases h1 : j = 1
        · subst h1
          simp [eventOps, hops, exClickHist, Events.history, Events.History.next, Events.History.upd] at k2
        · simp [eventOps, hops, exClickHist, Events.history, Events.History.next, Events.History.upd, hne, h0, h1] at k1
    rw [this]; exact haw
  · rw [eventOps, hops]; rfl
  · rw [eventOps, hops]; rfl

/-- The hypotheses of `event_is_yielded` are met: a stream that is kept, a click, and the app runs until it is idle. -/
example : ∃ es1 es2, ∃ w1 w2 w3 : World exSource Nat Nat (List Nat),
    run (init exStart) es1 = some w1 ∧ (∃ t, .app (.mount t) ∈ es1) ∧
    step w1 (.op (onEvents (.deliver ⟨3, 7, 0, false, false⟩ 100))) = some w2 ∧
    (Events.history (eventOps w1 0)).order[0]? = some 0 ∧ run w2 es2 = some w3 ∧ Idle w3 ∧
    Awaited w3 ⟨.events 0, (0 : Nat)⟩ := by
  let es : List (Event exSource Nat Nat (List Nat)) :=
    exEvents exSource [onEvents (.new 3 7), onEvents (.poll 0 1)] [onEvents (.deliver ⟨3, 7, 0, false, false⟩ 100)]
      [onEvents (.poll 0 2)]
  have h : (((run (init exStart) (es.take 15)).bind fun w1 =>
      (step w1 (.op (onEvents (.deliver ⟨3, 7, 0, false, false⟩ 100)))).bind fun w2 =>
      (run w2 (es.drop 16)).map fun w3 => ((Events.history (eventOps w1 0)).order[0]?, clickView w3))) =
      some (some 0, clickAt 0 1 (exClickHist.take 4)) := by rfl
  obtain ⟨w1, h1, h⟩ := Option.bind_eq_some_iff.1 h
  obtain ⟨w2, h2, h⟩ := Option.bind_eq_some_iff.1 h
  obtain ⟨w3, h3, h⟩ := Option.map_eq_some_iff.1 h
  simp only [Prod.mk.injEq] at h
  obtain ⟨i1, i2, -⟩ := clickAt_idle h.2
  exact ⟨_, _, w1, w2, w3, h1, ⟨0, by simp [es, exEvents]⟩, h2, h.1, h3, i1, i2⟩

/-- The app of the example, and two clicks before it has run. -/
def exTwo : List (Event exSource Nat Nat (List Nat)) :=
  let es := exEvents exSource [onEvents (.new 3 7), onEvents (.poll 0 1)]
    [onEvents (.deliver ⟨3, 7, 0, false, false⟩ 100), onEvents (.deliver ⟨3, 7, 0, false, false⟩ 200)]
    [onEvents (.poll 0 2)]
  es.take 21 ++ [.wake, .app (.block .propagate)] ++ es.drop 21

theorem exTwo_end : (run (init exStart) exTwo).map clickView =
    some (clickAt 0 1 [(.new 3 7, {}), (.poll 0 1, { polled := some none }),
      (.deliver ⟨3, 7, 0, false, false⟩ 100, { woke := some 1 }),
      (.deliver ⟨3, 7, 0, false, false⟩ 200, { woke := some 1 }),
      (.poll 0 2, { polled := some (some 200) })]) := by rfl

/-- **C69, what goes wrong otherwise.** If two events arrive before the app has run, the first is lost, although the
stream is awaited all the time: the browser is idle, two events were delivered, and one was yielded. -/
theorem first_of_two_events_is_lost : ∃ es, ∃ w : World exSource Nat Nat (List Nat),
    run (init exStart) es = some w ∧ Idle w ∧ Awaited w ⟨.events 0, (0 : Nat)⟩ ∧
    Events.delivered 0 {} (eventOps w 0) = [100, 200] ∧
    Events.yielded 0 (eventOps w 0) ((ofEvents w 0).map (·.2)) = [200] := by
  obtain ⟨w, hw, hv⟩ := Option.map_eq_some_iff.1 exTwo_end
  obtain ⟨h1, h2, h3⟩ := clickAt_idle hv
  exact ⟨_, w, hw, h1, h2, by rw [eventOps, h3]; rfl, by rw [eventOps, h3]; rfl⟩

end Verif.Live
