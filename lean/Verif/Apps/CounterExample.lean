import Verif.Apps.Counter
import Verif.Apps.ConverterExample
/-!
# A counter that runs

The app of `Verif.Live.Example`; its leaf is the loop of `counter.rs`. The user clicks the first button, and then the second.
-/
namespace Verif.Apps
open Verif.Live

/-- In the example the number is shown as so many strokes. -/
def strokes (z : Int) : List Char := List.replicate z.natAbs 'i'

abbrev exCount : Fold Int := Counter.two strokes

/-- The app is mounted; the loop makes its streams and waits. -/
def cntOpen : List (Event exSource Nat Nat (List Nat)) :=
  let a := [onPage (.set 0 []), onPage (.ev (.new 1 0)), onPage (.ev (.new 2 0)), onPage (.ev (.poll 0 1)),
    onPage (.ev (.poll 1 2))]
  [.app (.mount 0), .app .timer, .app .next] ++ ((Nested.exStart.drop 1).take 5).map (fun e => .app (.block e)) ++
  a.map .op ++ ((Nested.exStart.drop 6).take 4).map (fun e => .app (.block e)) ++ [.app .sleep]

/-- The user clicks, and the loop is polled. -/
def cntClick (click : List PageOp) (more : List (Event exSource Nat Nat (List Nat))) (answer : List PageOp) : List (Event exSource Nat Nat (List Nat)) :=
  click.map (fun o => .op (onPage o)) ++ [.wake, .app (.block .propagate), .app (.block .propagate), .app (.block .propagate)] ++
  more ++ [.app .timer, .app .next, .app (.block .await), .app (.block .await)] ++
  answer.map (fun o => .op (onPage o)) ++ ((Nested.exPoll.drop 3).map fun e => .app (.block e)) ++ [.app .sleep]

def cntPlus := cntClick [.edit 1 0 [] 100, .call] [] [.ev (.poll 0 3), .ev (.drop 0), .ev (.drop 1), .set 0 ['i'], .ev (.new 1 0),
  .ev (.new 2 0), .ev (.poll 2 4), .ev (.poll 3 5)]

def cntMinus := cntClick [.edit 2 0 [] 101, .call] [] [.ev (.poll 2 6), .ev (.poll 3 7), .ev (.drop 2), .ev (.drop 3), .set 0 [],
  .ev (.new 1 0), .ev (.new 2 0), .ev (.poll 4 8), .ev (.poll 5 9)]

def dropOut (k : Nat) : PageOp × PageOut := (.ev (.drop k), { ev := some (.drop k, {}) })

def cnt1 : List (PageOp × PageOut) := [(.set 0 [], {}), newOut 1, newOut 2, pollOut 0 1 none, pollOut 1 2 none]

def cnt2 : List (PageOp × PageOut) := [(.edit 1 0 [] 100, {}),
  (.call, { ev := some (.deliver ⟨1, 0, 0, false, false⟩ 100, { woke := some 1 }) }), pollOut 0 3 (some 100),
  dropOut 0, dropOut 1, (.set 0 ['i'], {}), newOut 1, newOut 2, pollOut 2 4 none, pollOut 3 5 none]

def cnt3 : List (PageOp × PageOut) := [(.edit 2 0 [] 101, {}),
  (.call, { ev := some (.deliver ⟨2, 0, 3, false, false⟩ 101, { woke := some 5 }) }), pollOut 2 6 none, pollOut 3 7 (some 101),
  dropOut 2, dropOut 3, (.set 0 [], {}), newOut 1, newOut 2, pollOut 4 8 none, pollOut 5 9 none]

theorem cnt_end : (run (init exStart) cntOpen).bind (fun w1 => (run w1 cntPlus).bind fun w2 => (run w2 cntMinus).map fun w3 =>
      (convView w1, convView w2, convView w3)) =
    some (formAt 2 [(⟨.page 0, (1 : Nat)⟩, 1), (⟨.page 0, (0 : Nat)⟩, 0)] [] [] cnt1,
      formAt 5 [(⟨.page 0, (3 : Nat)⟩, 4), (⟨.page 0, (2 : Nat)⟩, 3)] ['i'] [] (cnt1 ++ cnt2),
      formAt 9 [(⟨.page 0, (5 : Nat)⟩, 8), (⟨.page 0, (4 : Nat)⟩, 7)] [] [] (cnt1 ++ cnt2 ++ cnt3)) := by rfl

theorem cnt_other {keys : List Nat} {o : PageOp} (h1 : ∀ k ∈ keys, (∀ wk, o ≠ .ev (.poll k wk)) ∧ o ≠ .ev (.drop k))
    (h2 : written 0 o = none) : exCount.Other keys o :=
  ⟨h1, fun z x hx => by rw [List.mem_singleton.1 hx]; exact h2⟩

theorem cnt1_runs : exCount.Runs cnt1 (.waiting 0 [0, 1]) := by
  refine ⟨[], cnt1, rfl, ?_⟩
  have r0 : exCount.Steps [] (exCount.round 0 []) [] (exCount.round 0 []) := .nil
  have r1 : exCount.Steps [] (exCount.round 0 []) _ ⟨0, [], [(1, 0), (2, 0)], [], []⟩ := r0.snoc (e := cnt1[0]) (.acts rfl)
  have r2 : exCount.Steps [] (exCount.round 0 []) _ ⟨0, [], [(2, 0)], [0], [0]⟩ := r1.snoc (e := newOut 1) (.makes rfl)
  have r3 : exCount.Steps [] (exCount.round 0 []) _ ⟨0, [], [], [0, 1], [0, 1]⟩ := r2.snoc (e := newOut 2) (.makes rfl)
  have r4 := r3.snoc (e := pollOut 0 1 none) (.first (.poll rfl))
  exact r4.snoc (e := pollOut 1 2 none) (.first (.poll rfl))

theorem cnt2_steps : exCount.Steps cnt1 (.waiting 0 [0, 1]) cnt2 (.waiting 1 [2, 3]) := by
  have r0 : exCount.Steps cnt1 (.waiting 0 [0, 1]) [] (.waiting 0 [0, 1]) := .nil
  have r1 := r0.snoc (e := cnt2[0]) (.other (cnt_other (by simp [cnt2]) rfl))
  have r2 := r1.snoc (e := cnt2[1]) (.other (cnt_other (by simp [cnt2]) rfl))
  have r3 : exCount.Steps cnt1 (.waiting 0 [0, 1]) _ ⟨1, [.ev (.drop 0), .ev (.drop 1), .set 0 ['i']], [(1, 0), (2, 0)], [], []⟩ :=
    r2.snoc (e := pollOut 0 3 (some 100)) (.ready (i := 0) rfl (.poll rfl))
  have r4 := r3.snoc (e := dropOut 0) (.acts rfl)
  have r5 := r4.snoc (e := dropOut 1) (.acts rfl)
  have r6 := r5.snoc (e := cnt2[5]) (.acts rfl)
  have r7 : exCount.Steps cnt1 (.waiting 0 [0, 1]) _ ⟨1, [], [(2, 0)], [2], [2]⟩ := r6.snoc (e := newOut 1) (.makes rfl)
  have r8 : exCount.Steps cnt1 (.waiting 0 [0, 1]) _ ⟨1, [], [], [2, 3], [2, 3]⟩ := r7.snoc (e := newOut 2) (.makes rfl)
  have r9 := r8.snoc (e := pollOut 2 4 none) (.first (.poll rfl))
  exact r9.snoc (e := pollOut 3 5 none) (.first (.poll rfl))

theorem cnt3_steps : exCount.Steps (cnt1 ++ cnt2) (.waiting 1 [2, 3]) cnt3 (.waiting 0 [4, 5]) := by
  have r0 : exCount.Steps (cnt1 ++ cnt2) (.waiting 1 [2, 3]) [] (.waiting 1 [2, 3]) := .nil
  have r1 := r0.snoc (e := cnt3[0]) (.other (cnt_other (by simp [cnt3]) rfl))
  have r2 := r1.snoc (e := cnt3[1]) (.other (cnt_other (by simp [cnt3]) rfl))
  have r2' := r2.snoc (e := pollOut 2 6 none) (.waits (k := 2) (by simp) (.poll rfl))
  have r3 : exCount.Steps (cnt1 ++ cnt2) (.waiting 1 [2, 3]) _ ⟨0, [.ev (.drop 2), .ev (.drop 3), .set 0 []], [(1, 0), (2, 0)], [], []⟩ :=
    r2'.snoc (e := pollOut 3 7 (some 101)) (.ready (i := 1) rfl (.poll rfl))
  have r4 := r3.snoc (e := dropOut 2) (.acts rfl)
  have r5 := r4.snoc (e := dropOut 3) (.acts rfl)
  have r6 := r5.snoc (e := cnt3[6]) (.acts rfl)
  have r7 : exCount.Steps (cnt1 ++ cnt2) (.waiting 1 [2, 3]) _ ⟨0, [], [(2, 0)], [4], [4]⟩ := r6.snoc (e := newOut 1) (.makes rfl)
  have r8 : exCount.Steps (cnt1 ++ cnt2) (.waiting 1 [2, 3]) _ ⟨0, [], [], [4, 5], [4, 5]⟩ := r7.snoc (e := newOut 2) (.makes rfl)
  have r9 := r8.snoc (e := pollOut 4 8 none) (.first (.poll rfl))
  exact r9.snoc (e := pollOut 5 9 none) (.first (.poll rfl))

/-- The hypotheses of `counter_counts` are met; the counter went up and down again. -/
example : ∃ (w1 w2 w3 : World exSource Nat Nat (List Nat)), run (init exStart) cntOpen = some w1 ∧
    (∃ t, .app (.mount t) ∈ cntOpen) ∧ Waits exCount w1 0 [0, 1] ∧ exCount.Untouched (ofPage w1 0) ∧
    Rounds exCount w1 0 [0, 1] [some (0, 100)] w2 1 [2, 3] ∧ (pageNow w2 0).value 0 = ['i'] ∧
    Rounds exCount w1 0 [0, 1] [some (0, 100), some (1, 101)] w3 0 [4, 5] ∧ (pageNow w3 0).value 0 = [] := by
  obtain ⟨w1, hw1, h⟩ := Option.bind_eq_some_iff.1 cnt_end
  obtain ⟨w2, hw2, h⟩ := Option.bind_eq_some_iff.1 h
  obtain ⟨w3, hw3, h⟩ := Option.map_eq_some_iff.1 h
  rw [Prod.mk.injEq] at h
  obtain ⟨ha, h⟩ := h
  rw [Prod.mk.injEq] at h
  obtain ⟨a1, a2, a3, -, -, a6⟩ := convAt_idle ha
  obtain ⟨b1, b2, b3, b4, -, b6⟩ := convAt_idle h.1
  obtain ⟨c1, c2, c3, c4, -, c6⟩ := convAt_idle h.2
  have r1 : Rounds exCount w1 0 [0, 1] [some (0, 100)] w2 1 [2, 3] := by
    refine Rounds.snoc (evs := []) (l := cnt2) (o := some (0, 100)) .nil hw2 ⟨a1, b1, a3, b3, by rw [a6, b6]⟩
      (by rw [a6]; exact cnt2_steps) ?_ ⟨[], cnt2[0], cnt2.drop 1, 1, 0, [], rfl, rfl, rfl, by simp [Fold.Untouched], ?_⟩
    · intro k hk
      simp only [List.mem_cons, List.not_mem_nil, or_false] at hk
      rcases hk with rfl | rfl
      · exact b2 _ 3 (by simp) (by omega)
      · exact b2 _ 4 (by simp) (by omega)
    · simp [Fold.Untouched, cnt2, pollOut, newOut, dropOut]
  refine ⟨w1, w2, w3, hw1, ⟨0, by simp [cntOpen]⟩, ⟨by rw [a6]; exact cnt1_runs, ?_⟩, ?_, r1, b4, ?_, c4⟩
  · intro k hk
    simp only [List.mem_cons, List.not_mem_nil, or_false] at hk
    rcases hk with rfl | rfl
    · exact a2 _ 0 (by simp) (by omega)
    · exact a2 _ 1 (by simp) (by omega)
  · rw [a6]
    simp [Fold.Untouched, cnt1, pollOut, newOut]
  · refine Rounds.snoc (evs := [some (0, 100)]) (l := cnt3) (o := some (1, 101)) r1 hw3 ⟨b1, c1, b3, c3, by rw [b6, c6]⟩
      (by rw [b6]; exact cnt3_steps) ?_ ⟨[], cnt3[0], cnt3.drop 1, 2, 0, [], rfl, rfl, rfl, by simp [Fold.Untouched], ?_⟩
    · intro k hk
      simp only [List.mem_cons, List.not_mem_nil, or_false] at hk
      rcases hk with rfl | rfl
      · exact c2 _ 7 (by simp) (by omega)
      · exact c2 _ 8 (by simp) (by omega)
    · simp [Fold.Untouched, cnt3, pollOut, newOut, dropOut]

/-! ## One button -/

abbrev exOne : Fold Int := Counter.one strokes

def oneOpen : List (Event exSource Nat Nat (List Nat)) :=
  let a := [onPage (.set 0 []), onPage (.ev (.new 1 0)), onPage (.ev (.poll 0 1))]
  [.app (.mount 0), .app .timer, .app .next] ++ ((Nested.exStart.drop 1).take 5).map (fun e => .app (.block e)) ++
  a.map .op ++ ((Nested.exStart.drop 6).take 4).map (fun e => .app (.block e)) ++ [.app .sleep]

def oneClick := cntClick [.edit 1 0 [] 100, .call] [] [.ev (.poll 0 2), .ev (.drop 0), .set 0 ['i'], .ev (.new 1 0),
  .ev (.poll 1 3)]

def one1 : List (PageOp × PageOut) := [(.set 0 [], {}), newOut 1, pollOut 0 1 none]

def one2 : List (PageOp × PageOut) := [(.edit 1 0 [] 100, {}),
  (.call, { ev := some (.deliver ⟨1, 0, 0, false, false⟩ 100, { woke := some 1 }) }), pollOut 0 2 (some 100),
  dropOut 0, (.set 0 ['i'], {}), newOut 1, pollOut 1 3 none]

theorem one_end : (run (init exStart) oneOpen).bind (fun w1 => (run w1 oneClick).map fun w2 => (convView w1, convView w2)) =
    some (formAt 1 [(⟨.page 0, (0 : Nat)⟩, 0)] [] [] one1,
      formAt 3 [(⟨.page 0, (1 : Nat)⟩, 2)] ['i'] [] (one1 ++ one2)) := by rfl

theorem one1_runs : exOne.Runs one1 (.waiting 0 [0]) := by
  refine ⟨[], one1, rfl, ?_⟩
  have r0 : exOne.Steps [] (exOne.round 0 []) [] (exOne.round 0 []) := .nil
  have r1 : exOne.Steps [] (exOne.round 0 []) _ ⟨0, [], [(1, 0)], [], []⟩ := r0.snoc (e := one1[0]) (.acts rfl)
  have r2 : exOne.Steps [] (exOne.round 0 []) _ ⟨0, [], [], [0], [0]⟩ := r1.snoc (e := newOut 1) (.makes rfl)
  exact r2.snoc (e := pollOut 0 1 none) (.first (.poll rfl))

theorem one_other {keys : List Nat} {o : PageOp} (h1 : ∀ k ∈ keys, (∀ wk, o ≠ .ev (.poll k wk)) ∧ o ≠ .ev (.drop k))
    (h2 : written 0 o = none) : exOne.Other keys o :=
  ⟨h1, fun z x hx => by rw [List.mem_singleton.1 hx]; exact h2⟩

theorem one2_steps : exOne.Steps one1 (.waiting 0 [0]) one2 (.waiting 1 [1]) := by
  have r0 : exOne.Steps one1 (.waiting 0 [0]) [] (.waiting 0 [0]) := .nil
  have r1 := r0.snoc (e := one2[0]) (.other (one_other (by simp [one2]) rfl))
  have r2 := r1.snoc (e := one2[1]) (.other (one_other (by simp [one2]) rfl))
  have r3 : exOne.Steps one1 (.waiting 0 [0]) _ ⟨1, [.ev (.drop 0), .set 0 ['i']], [(1, 0)], [], []⟩ :=
    r2.snoc (e := pollOut 0 2 (some 100)) (.ready (i := 0) rfl (.poll rfl))
  have r4 := r3.snoc (e := dropOut 0) (.acts rfl)
  have r5 := r4.snoc (e := one2[4]) (.acts rfl)
  have r6 : exOne.Steps one1 (.waiting 0 [0]) _ ⟨1, [], [], [1], [1]⟩ := r5.snoc (e := newOut 1) (.makes rfl)
  exact r6.snoc (e := pollOut 1 3 none) (.first (.poll rfl))

/-- The hypotheses of `counter_one` and `fold_events` are met. -/
example : ∃ (w1 w2 : World exSource Nat Nat (List Nat)), run (init exStart) oneOpen = some w1 ∧
    (∃ t, .app (.mount t) ∈ oneOpen) ∧ Waits exOne w1 0 [0] ∧ exOne.Untouched (ofPage w1 0) ∧ exOne.watches.Nodup ∧
    Rounds exOne w1 0 [0] [some (0, 100)] w2 1 [1] ∧ (pageNow w2 0).value 0 = ['i'] ∧ ((exOne.shows 1).map (·.1)).Nodup := by
  obtain ⟨w1, hw1, h⟩ := Option.bind_eq_some_iff.1 one_end
  obtain ⟨w2, hw2, h⟩ := Option.map_eq_some_iff.1 h
  rw [Prod.mk.injEq] at h
  obtain ⟨a1, a2, a3, -, -, a6⟩ := convAt_idle h.1
  obtain ⟨b1, b2, b3, b4, -, b6⟩ := convAt_idle h.2
  refine ⟨w1, w2, hw1, ⟨0, by simp [oneOpen]⟩, ⟨by rw [a6]; exact one1_runs, ?_⟩, ?_, by simp [Counter.one], ?_, b4,
    by simp [Counter.one]⟩
  · intro k hk
    obtain rfl := List.mem_singleton.1 hk
    exact a2 _ 0 (by simp) (by omega)
  · rw [a6]
    simp [Fold.Untouched, one1, pollOut, newOut]
  · refine Rounds.snoc (evs := []) (l := one2) (o := some (0, 100)) .nil hw2 ⟨a1, b1, a3, b3, by rw [a6, b6]⟩
      (by rw [a6]; exact one2_steps) ?_ ⟨[], one2[0], one2.drop 1, 1, 0, [], rfl, rfl, rfl, by simp [Fold.Untouched], ?_⟩
    · intro k hk
      obtain rfl := List.mem_singleton.1 hk
      exact b2 _ 2 (by simp) (by omega)
    · simp [Fold.Untouched, one2, pollOut, newOut, dropOut]

/-! ## Two clicks at once

If the app is not polled between two clicks - for instance because the program itself calls `click()` on the buttons - only
one of them counts. -/

def cntTwice := cntClick [.edit 1 0 [] 100, .edit 1 0 [] 101, .call, .call] [.wake, .app (.block .propagate)] [.ev (.poll 0 3), .ev (.drop 0), .ev (.drop 1),
  .set 0 ['i'], .ev (.new 1 0), .ev (.new 2 0), .ev (.poll 2 4), .ev (.poll 3 5)]

def cnt2' : List (PageOp × PageOut) := [(.edit 1 0 [] 100, {}), (.edit 1 0 [] 101, {}),
  (.call, { ev := some (.deliver ⟨1, 0, 0, false, false⟩ 100, { woke := some 1 }) }),
  (.call, { ev := some (.deliver ⟨1, 0, 0, false, false⟩ 101, { woke := some 1 }) }), pollOut 0 3 (some 101),
  dropOut 0, dropOut 1, (.set 0 ['i'], {}), newOut 1, newOut 2, pollOut 2 4 none, pollOut 3 5 none]

theorem cnt_twice_end : (run (init exStart) cntOpen).bind (fun w1 => (run w1 cntTwice).map fun w2 =>
      (convView w1, convView w2)) =
    some (formAt 2 [(⟨.page 0, (1 : Nat)⟩, 1), (⟨.page 0, (0 : Nat)⟩, 0)] [] [] cnt1,
      formAt 5 [(⟨.page 0, (3 : Nat)⟩, 4), (⟨.page 0, (2 : Nat)⟩, 3)] ['i'] [] (cnt1 ++ cnt2')) := by rfl

theorem cnt2'_steps : exCount.Steps cnt1 (.waiting 0 [0, 1]) cnt2' (.waiting 1 [2, 3]) := by
  have r0 : exCount.Steps cnt1 (.waiting 0 [0, 1]) [] (.waiting 0 [0, 1]) := .nil
  have r1 := r0.snoc (e := cnt2'[0]) (.other (cnt_other (by simp [cnt2']) rfl))
  have r1' := r1.snoc (e := cnt2'[1]) (.other (cnt_other (by simp [cnt2']) rfl))
  have r2 := r1'.snoc (e := cnt2'[2]) (.other (cnt_other (by simp [cnt2']) rfl))
  have r2' := r2.snoc (e := cnt2'[3]) (.other (cnt_other (by simp [cnt2']) rfl))
  have r3 : exCount.Steps cnt1 (.waiting 0 [0, 1]) _ ⟨1, [.ev (.drop 0), .ev (.drop 1), .set 0 ['i']], [(1, 0), (2, 0)], [], []⟩ :=
    r2'.snoc (e := pollOut 0 3 (some 101)) (.ready (i := 0) rfl (.poll rfl))
  have r4 := r3.snoc (e := dropOut 0) (.acts rfl)
  have r5 := r4.snoc (e := dropOut 1) (.acts rfl)
  have r6 := r5.snoc (e := cnt2'[7]) (.acts rfl)
  have r7 : exCount.Steps cnt1 (.waiting 0 [0, 1]) _ ⟨1, [], [(2, 0)], [2], [2]⟩ := r6.snoc (e := newOut 1) (.makes rfl)
  have r8 : exCount.Steps cnt1 (.waiting 0 [0, 1]) _ ⟨1, [], [], [2, 3], [2, 3]⟩ := r7.snoc (e := newOut 2) (.makes rfl)
  have r9 := r8.snoc (e := pollOut 2 4 none) (.first (.poll rfl))
  exact r9.snoc (e := pollOut 3 5 none) (.first (.poll rfl))

/-- **C75, the negation without "idle between any two clicks".** The app was idle, the user clicked the first button twice, the
app is idle again; everything was polled and called, but the counter went up by one. -/
theorem counter_loses_click : ∃ (w1 w2 : World exSource Nat Nat (List Nat)) (l : List (PageOp × PageOut)),
    run (init exStart) cntOpen = some w1 ∧ run w1 cntTwice = some w2 ∧ Waits exCount w1 0 [0, 1] ∧ BothIdle w1 w2 l ∧
    exCount.Steps (ofPage w1 0) (.waiting 0 [0, 1]) l (.waiting 1 [2, 3]) ∧ Waits exCount w2 1 [2, 3] ∧
    (l.filter fun e => e.1 matches .edit 1 0 _ _).length = 2 ∧ (pageNow w2 0).value 0 = strokes 1 := by
  obtain ⟨w1, hw1, h⟩ := Option.bind_eq_some_iff.1 cnt_twice_end
  obtain ⟨w2, hw2, h⟩ := Option.map_eq_some_iff.1 h
  rw [Prod.mk.injEq] at h
  obtain ⟨a1, a2, a3, -, -, a6⟩ := convAt_idle h.1
  obtain ⟨b1, b2, b3, b4, -, b6⟩ := convAt_idle h.2
  refine ⟨w1, w2, cnt2', hw1, hw2, ⟨by rw [a6]; exact cnt1_runs, ?_⟩, ⟨a1, b1, a3, b3, by rw [a6, b6]⟩,
    by rw [a6]; exact cnt2'_steps, ⟨by rw [b6]; exact runs_steps cnt1_runs cnt2'_steps, ?_⟩, rfl, b4⟩
  · intro k hk
    simp only [List.mem_cons, List.not_mem_nil, or_false] at hk
    rcases hk with rfl | rfl
    · exact a2 _ 0 (by simp) (by omega)
    · exact a2 _ 1 (by simp) (by omega)
  · intro k hk
    simp only [List.mem_cons, List.not_mem_nil, or_false] at hk
    rcases hk with rfl | rfl
    · exact b2 _ 3 (by simp) (by omega)
    · exact b2 _ 4 (by simp) (by omega)

end Verif.Apps
