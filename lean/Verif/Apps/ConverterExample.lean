import Verif.Apps.Converter
import Verif.Apps.FlightExample
/-!
# A temperature converter that runs

The app of `Verif.Live.Example`; its leaf are the two loops of the converter (`join`). The user enters a temperature.
-/
namespace Verif.Apps
open Verif.Live

/-- In the example any text but the empty one is a number. -/
def exConv (c : Char) (x : List Char) : Option (List Char) := if x = [] then none else some (c :: x)

abbrev exToF : Reaction := Converter.toF (exConv 'f')
abbrev exToC : Reaction := Converter.toC (exConv 'c')

/-- The app is mounted; both loops are polled and wait. -/
def exOpen : List (Event exSource Nat Nat (List Nat)) :=
  let a := [onPage (.ev (.new 0 0)), onPage (.ev (.poll 0 1)), onPage (.ev (.new 1 0)), onPage (.ev (.poll 1 2))]
  [.app (.mount 0), .app .timer, .app .next] ++ ((Nested.exStart.drop 1).take 5).map (fun e => .app (.block e)) ++
  a.map .op ++ ((Nested.exStart.drop 6).take 4).map (fun e => .app (.block e)) ++ [.app .sleep]

/-- The user enters a temperature in degrees Celsius. -/
def exEnter : List (Event exSource Nat Nat (List Nat)) :=
  let b := [onPage (.edit 0 0 ['7'] 100), onPage .call]
  let c := [onPage (.ev (.poll 0 3))] ++ (exToF.body 0 ['7']).map onPage ++
    [onPage (.ev (.new 0 0)), onPage (.ev (.poll 2 4)), onPage (.ev (.poll 1 5))]
  b.map .op ++ [.wake, .app (.block .propagate), .app (.block .propagate), .app (.block .propagate),
    .app .timer, .app .next, .app (.block .await), .app (.block .await)] ++
  c.map .op ++ ((Nested.exPoll.drop 3).map fun e => .app (.block e)) ++ [.app .sleep]

def pollOut (k wk : Nat) (e : Option Nat) : PageOp × PageOut :=
  (.ev (.poll k wk), { ev := some (.poll k wk, { polled := some e }) })

def newOut (t : Nat) : PageOp × PageOut := (.ev (.new t 0), { ev := some (.new t 0, {}) })

def opened : List (PageOp × PageOut) := [newOut 0, pollOut 0 1 none, newOut 1, pollOut 1 2 none]

def edited : PageOp × PageOut := (.edit 0 0 ['7'] 100, {})

def answered : List (PageOp × PageOut) :=
  [(.call, { ev := some (.deliver ⟨0, 0, 0, false, false⟩ 100, { woke := some 1 }) }), pollOut 0 3 (some 100),
    (.ev (.drop 0), { ev := some (.drop 0, {}) }), (.read 0, { value := some ['7'] }), (.set 1 ['f', '7'], {}),
    newOut 0, pollOut 2 4 none, pollOut 1 5 none]

/-- What the example looks at. -/
def convView (w : World exSource Nat Nat (List Nat)) :=
  (((App.view w.app), w.app.sys.waking, w.app.sys.log.all fun | .returned _ => false | _ => true),
    (w.app.sys.child (.task 0), w.app.sys.child (.sub 0 0), w.app.sys.objs.map Nested.Obj.content),
    w.todo, w.awaits, w.given.map (·.place), (pageNow w 0).calls, (pageNow w 0).value 0, (pageNow w 0).value 1, ofPage w 0)

theorem convAt_idle {w : World exSource Nat Nat (List Nat)} {n : Nat} {aw : List (exSource.Key × Nat)} {x0 x1 : List Char}
    {ops : List (PageOp × PageOut)} (h : convView w = formAt n aw x0 x1 ops) :
    Idle w ∧ (∀ k m, (k, m) ∈ aw → m < n → Awaited w k) ∧ (pageNow w 0).calls = [] ∧ (pageNow w 0).value 0 = x0 ∧
      (pageNow w 0).value 1 = x1 ∧ ofPage w 0 = ops := by
  simp only [convView, formAt, App.view, Prod.mk.injEq] at h
  obtain ⟨⟨⟨a1, a2, a3, a4⟩, b1, b2⟩, ⟨b4, b5, b6⟩, c1, c2, c3, c4, c5, c6, c7⟩ := h
  have hr : ∀ p, .returned p ∉ w.app.sys.log := fun p hp => by simpa using List.all_eq_true.1 b2 _ hp
  refine ⟨⟨⟨by simp [a1], by simp [a1], b1⟩, c1⟩, ?_, c4, c5, c6, c7⟩
  intro k m hk hm
  have hg : (w.given.map (·.place))[m]? = some (.sub 1 1) := by rw [c3, List.getElem?_replicate, if_pos hm]
  rw [List.getElem?_map, Option.map_eq_some_iff] at hg
  obtain ⟨g, d3, d4⟩ := hg
  exact ⟨m, g, 0, by rw [c2]; exact hk, d3, ⟨by simp [a3], by simp [a4], hr _⟩, d4 ▸ Nested.ex_part b4 b5 b6 hr⟩

theorem exEnter_end : (run (init exStart) exOpen).bind (fun w1 => (run w1 exEnter).map fun w2 => (convView w1, convView w2)) =
    some (formAt 2 [(⟨.page 0, (1 : Nat)⟩, 1), (⟨.page 0, (0 : Nat)⟩, 0)] [] [] opened,
      formAt 5 [(⟨.page 0, (1 : Nat)⟩, 4), (⟨.page 0, (2 : Nat)⟩, 3)] ['7'] ['f', '7'] (opened ++ edited :: answered)) := by rfl

theorem others {R : Reaction} {k : Nat} {o : PageOp} (h1 : ∀ wk, o ≠ .ev (.poll k wk)) (h2 : o ≠ .ev (.drop k))
    (h3 : written R.out o = none) (h4 : ∀ y v n, o = .edit R.input y v n → y = R.type) : R.Other k o :=
  ⟨h1, h2, fun v hv => (by rw [hv, written, if_pos rfl] at h3; cases h3), h4⟩

theorem exToF_open : exToF.Runs opened (.waiting 0) := by
  have r1 : exToF.Steps [] .absent ([] ++ [newOut 0]) (.fresh 0) := .snoc .nil (.begins rfl)
  have r2 := r1.snoc (e := pollOut 0 1 none) (.first (.poll rfl))
  have r3 := r2.snoc (e := newOut 1) (.other (others (by simp [newOut]) (by simp [newOut]) rfl (by simp [newOut])))
  exact r3.snoc (e := pollOut 1 2 none) (.other (others (by simp [pollOut]) (by simp [pollOut]) rfl (by simp [pollOut])))

theorem exToC_open : exToC.Runs opened (.waiting 1) := by
  have r1 := (Reaction.Steps.nil (R := exToC) (h := []) (st := .absent)).snoc (e := newOut 0) .before
  have r2 := r1.snoc (e := pollOut 0 1 none) .before
  have r3 : exToC.Steps [] .absent (_ ++ [newOut 1]) (.fresh 1) := r2.snoc (.begins rfl)
  exact r3.snoc (e := pollOut 1 2 none) (.first (.poll rfl))

theorem exToF_enter : exToF.Steps opened (.waiting 0) (edited :: answered) (.waiting 2) := by
  have r1 := (Reaction.Steps.nil (R := exToF) (h := opened) (st := .waiting 0)).snoc (e := edited)
    (.other (others (by simp [edited]) (by simp [edited]) rfl (by simp [edited, Converter.toF])))
  have r2 := r1.snoc (e := answered[0]) (.other (others (by simp [answered]) (by simp [answered]) rfl (by simp [answered])))
  have r3 : exToF.Steps opened (.waiting 0) (_ ++ [pollOut 0 3 (some 100)])
      (.busy [.ev (.drop 0), .read 0, .set 1 ['f', '7']]) := r2.snoc (.ready (.poll rfl))
  have r4 := r3.snoc (e := answered[2]) (.acts rfl)
  have r5 := r4.snoc (e := answered[3]) (.acts rfl)
  have r6 := r5.snoc (e := answered[4]) (.acts rfl)
  have r7 : exToF.Steps opened (.waiting 0) (_ ++ [newOut 0]) (.fresh 2) := r6.snoc (.again rfl)
  have r8 := r7.snoc (e := pollOut 2 4 none) (.first (.poll rfl))
  exact r8.snoc (e := pollOut 1 5 none) (.other (others (by simp [pollOut]) (by simp [pollOut]) rfl (by simp [pollOut])))

theorem exToC_enter : exToC.Steps opened (.waiting 1) (edited :: answered) (.waiting 1) := by
  have ho : ∀ {l : List (PageOp × PageOut)} {e : PageOp × PageOut}, exToC.Steps opened (.waiting 1) l (.waiting 1) →
      (∀ wk, e.1 ≠ .ev (.poll 1 wk)) → e.1 ≠ .ev (.drop 1) → (∀ v, e.1 ≠ .set 0 v) →
      (∀ y v n, e.1 = .edit 1 y v n → y = 0) → exToC.Steps opened (.waiting 1) (l ++ [e]) (.waiting 1) :=
    fun h h1 h2 h3 h4 => h.snoc (.other ⟨h1, h2, h3, h4⟩)
  have r0 : exToC.Steps opened (.waiting 1) [] (.waiting 1) := .nil
  have r1 := ho (e := edited) r0 (by simp [edited]) (by simp [edited]) (by simp [edited]) (by simp [edited])
  have r2 := ho (e := answered[0]) r1 (by simp [answered]) (by simp [answered]) (by simp [answered]) (by simp [answered])
  have r3 := ho (e := pollOut 0 3 (some 100)) r2 (by simp [pollOut]) (by simp [pollOut]) (by simp [pollOut]) (by simp [pollOut])
  have r4 := ho (e := answered[2]) r3 (by simp [answered]) (by simp [answered]) (by simp [answered]) (by simp [answered])
  have r5 := ho (e := answered[3]) r4 (by simp [answered]) (by simp [answered]) (by simp [answered]) (by simp [answered])
  have r6 := ho (e := answered[4]) r5 (by simp [answered]) (by simp [answered]) (by simp [answered]) (by simp [answered])
  have r7 := ho (e := newOut 0) r6 (by simp [newOut]) (by simp [newOut]) (by simp [newOut]) (by simp [newOut])
  have r8 := ho (e := pollOut 2 4 none) r7 (by simp [pollOut]) (by simp [pollOut]) (by simp [pollOut]) (by simp [pollOut])
  exact r8.snoc (e := pollOut 1 5 none) (.waits (.poll rfl))

/-- The hypotheses of `converter_celsius` are met, and both inputs are what they should be. -/
example : ∃ (w1 w2 : World exSource Nat Nat (List Nat)) (l b : List (PageOp × PageOut)),
    run (init exStart) exOpen = some w1 ∧ (∃ t, .app (.mount t) ∈ exOpen) ∧ run w1 exEnter = some w2 ∧ BothIdle w1 w2 l ∧
    Served exToF w1 w2 l ∧ Served exToC w1 w2 l ∧ Untouched 1 l ∧ l = [] ++ edited :: b ∧
    (∀ e ∈ b, ∀ y v n, e.1 ≠ .edit 0 y v n) ∧ (pageNow w2 0).value 0 = ['7'] ∧ (pageNow w2 0).value 1 = ['f', '7'] := by
  obtain ⟨w1, hw1, h⟩ := Option.bind_eq_some_iff.1 exEnter_end
  obtain ⟨w2, hw2, h⟩ := Option.map_eq_some_iff.1 h
  rw [Prod.mk.injEq] at h
  obtain ⟨a1, a2, a3, -, -, a6⟩ := convAt_idle h.1
  obtain ⟨b1, b2, b3, b4, b5, b6⟩ := convAt_idle h.2
  refine ⟨w1, w2, edited :: answered, answered, hw1, ⟨0, by simp [exOpen]⟩, hw2, ⟨a1, b1, a3, b3, by rw [a6, b6]⟩,
    ⟨0, 2, by rw [a6]; exact exToF_open, by rw [a6]; exact exToF_enter, a2 _ 0 (by simp) (by omega), b2 _ 3 (by simp) (by omega)⟩,
    ⟨1, 1, by rw [a6]; exact exToC_open, by rw [a6]; exact exToC_enter, a2 _ 1 (by simp) (by omega), b2 _ 4 (by simp) (by omega)⟩,
    ⟨?_, ?_⟩, rfl, ?_, b4, b5⟩
  · simp [edited, answered, pollOut, newOut]
  · simp [edited, answered, pollOut, newOut]
  · simp [answered, pollOut, newOut]

end Verif.Apps
