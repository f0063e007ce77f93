import Verif.Live.EveryExample
/-!
# A form, and an input that the program sets itself

The app of `Verif.Live.Example`. Its leaf is a loop like that of the flight booker
(`examples/web-simple-examples/src/flight.rs`, 39-67) with two inputs: it reads both and then waits for an event of any.
-/
namespace Verif.Live
open XBow.Data (Data Layer)

abbrev onPage (o : PageOp) : exSource.Op := ⟨.page 0, o⟩

/-- The loop reads both inputs and waits; the user changes the input 3; the loop is woken, reads both and waits. -/
def exForm : List (Event exSource Nat Nat (List Nat)) :=
  exEvents exSource
    [onPage (.read 3), onPage (.read 4), onPage (.ev (.new 3 7)), onPage (.ev (.new 4 7)), onPage (.ev (.poll 0 1)),
      onPage (.ev (.poll 1 2))]
    [onPage (.edit 3 7 ['a'] 100), onPage .call]
    [onPage (.ev (.poll 0 3)), onPage (.ev (.drop 0)), onPage (.ev (.drop 1)), onPage (.read 3), onPage (.read 4),
      onPage (.ev (.new 3 7)), onPage (.ev (.new 4 7)), onPage (.ev (.poll 2 4)), onPage (.ev (.poll 3 5))]

/-- What the examples look at. -/
def formView (w : World exSource Nat Nat (List Nat)) :=
  (((App.view w.app), w.app.sys.waking, w.app.sys.log.all fun | .returned _ => false | _ => true),
    (w.app.sys.child (.task 0), w.app.sys.child (.sub 0 0), w.app.sys.objs.map Nested.Obj.content),
    w.todo, w.awaits, w.given.map (·.place), (pageNow w 0).calls, (pageNow w 0).value 3, (pageNow w 0).value 4, ofPage w 0)

/-- The app is idle, its leaf awaits some streams and the browser has no listeners to call. -/
def formAt (n : Nat) (aw : List (exSource.Key × Nat)) (x3 x4 : List Char) (ops : List (PageOp × PageOut)) :=
  (((((⟨true, false, false, 0, false⟩ : Exec.St), ([] : List Nat), [0], ([] : List Nat))), (none : Option Nested.Place), true),
    (some 0, some 1, [(2, ([] : List Nat)), (2, [])]),
    ([] : List Nat), aw, List.replicate n (Nested.Place.sub 1 1), ([] : List (Events.Listener × Events.Ev)), x3, x4, ops)

theorem formAt_idle {w : World exSource Nat Nat (List Nat)} {n : Nat} {aw : List (exSource.Key × Nat)} {x3 x4 : List Char}
    {ops : List (PageOp × PageOut)} (h : formView w = formAt n aw x3 x4 ops) :
    Idle w ∧ (∀ k m, (k, m) ∈ aw → m < n → Awaited w k) ∧ (pageNow w 0).calls = [] ∧ (pageNow w 0).value 3 = x3 ∧
      (pageNow w 0).value 4 = x4 ∧ ofPage w 0 = ops := by
  simp only [formView, formAt, App.view, Prod.mk.injEq] at h
  obtain ⟨⟨⟨a1, a2, a3, a4⟩, b1, b2⟩, ⟨b4, b5, b6⟩, c1, c2, c3, c4, c5, c6, c7⟩ := h
  have hr : ∀ p, .returned p ∉ w.app.sys.log := fun p hp => by simpa using List.all_eq_true.1 b2 _ hp
  refine ⟨⟨⟨by simp [a1], by simp [a1], b1⟩, c1⟩, ?_, c4, c5, c6, c7⟩
  intro k m hk hm
  have hg : (w.given.map (·.place))[m]? = some (.sub 1 1) := by rw [c3, List.getElem?_replicate, if_pos hm]
  rw [List.getElem?_map, Option.map_eq_some_iff] at hg
  obtain ⟨g, d3, d4⟩ := hg
  exact ⟨m, g, 0, by rw [c2]; exact hk, d3, ⟨by simp [a3], by simp [a4], hr _⟩, d4 ▸ Nested.ex_part b4 b5 b6 hr⟩

/-- What happens to the page. -/
def exFormHist : List (PageOp × PageOut) :=
  [(.read 3, { value := some [] }), (.read 4, { value := some [] }), (.ev (.new 3 7), { ev := some (.new 3 7, {}) }),
    (.ev (.new 4 7), { ev := some (.new 4 7, {}) }),
    (.ev (.poll 0 1), { ev := some (.poll 0 1, { polled := some none }) }),
    (.ev (.poll 1 2), { ev := some (.poll 1 2, { polled := some none }) }),
    (.edit 3 7 ['a'] 100, {}),
    (.call, { ev := some (.deliver ⟨3, 7, 0, false, false⟩ 100, { woke := some 1 }) }),
    (.ev (.poll 0 3), { ev := some (.poll 0 3, { polled := some (some 100) }) }),
    (.ev (.drop 0), { ev := some (.drop 0, {}) }), (.ev (.drop 1), { ev := some (.drop 1, {}) }),
    (.read 3, { value := some ['a'] }), (.read 4, { value := some [] }), (.ev (.new 3 7), { ev := some (.new 3 7, {}) }),
    (.ev (.new 4 7), { ev := some (.new 4 7, {}) }),
    (.ev (.poll 2 4), { ev := some (.poll 2 4, { polled := some none }) }),
    (.ev (.poll 3 5), { ev := some (.poll 3 5, { polled := some none }) })]

theorem exForm_end : (run (init exStart) exForm).map formView =
    some (formAt 5 [(⟨.page 0, (3 : Nat)⟩, 4), (⟨.page 0, (2 : Nat)⟩, 3)] ['a'] [] exFormHist) := by rfl

/-- The hypotheses of `idle_form` are met for both inputs. -/
example : ∃ w, run (init exStart) exForm = some w ∧ (∃ t, .app (.mount t) ∈ exForm) ∧ Idle w ∧ (pageNow w 0).calls = [] ∧
    Awaited w ⟨.page 0, (2 : Nat)⟩ ∧ Awaited w ⟨.page 0, (3 : Nat)⟩ ∧ ReadThenListens 3 7 2 (ofPage w 0) ['a'] ∧
    ReadThenListens 4 7 3 (ofPage w 0) [] := by
  obtain ⟨w, hw, hv⟩ := Option.map_eq_some_iff.1 exForm_end
  obtain ⟨h1, h2, h3, -, -, h6⟩ := formAt_idle hv
  refine ⟨w, hw, ⟨0, by simp [exForm, exEvents]⟩, h1, h3, h2 _ 3 (by simp) (by omega), h2 _ 4 (by simp) (by omega), ?_, ?_⟩
  · rw [h6]
    refine ⟨exFormHist.take 11, _, (exFormHist.drop 12).take 3, _, _, exFormHist.drop 16, rfl, rfl, rfl, ?_, ?_⟩
    · simp [exFormHist]
    · simp [exFormHist]
  · rw [h6]
    refine ⟨exFormHist.take 12, _, (exFormHist.drop 13).take 3, _, _, exFormHist.drop 17, rfl, rfl, rfl, ?_, ?_⟩
    · simp [exFormHist]
    · simp [exFormHist]

/-- The same, but in the end another part of the program sets the input 4, as the converter does
(`examples/web-simple-examples/src/temp_converter.rs`, 15 and 22). -/
def exSet : List (Event exSource Nat Nat (List Nat)) := exForm ++ [.op (onPage (.set 4 ['b']))]

theorem exSet_end : (run (init exStart) exSet).map formView =
    some (formAt 5 [(⟨.page 0, (3 : Nat)⟩, 4), (⟨.page 0, (2 : Nat)⟩, 3)] ['a'] ['b']
      (exFormHist ++ [(.set 4 ['b'], ({} : PageOut))])) := by rfl

/-- **C70, what goes wrong otherwise.** A value that the program sets fires no event: the app is idle, the loop is
waiting for events of the input, it has read the empty text, and there is another text in the input. -/
theorem set_is_not_seen : ∃ es, ∃ w : World exSource Nat Nat (List Nat), run (init exStart) es = some w ∧ Idle w ∧
    (pageNow w 0).calls = [] ∧ Awaited w ⟨.page 0, (3 : Nat)⟩ ∧ (streams (ofPage w 0)).made[3]? = some (4, 7) ∧
    (∃ mid post out wk o, ofPage w 0 = exFormHist.take 12 ++ (.read 4, out) :: (mid ++ (.ev (.poll 3 wk), o) :: post) ∧
      out.value = some []) ∧
    (pageNow w 0).value 4 = ['b'] := by
  obtain ⟨w, hw, hv⟩ := Option.map_eq_some_iff.1 exSet_end
  obtain ⟨h1, h2, h3, -, h5, h6⟩ := formAt_idle hv
  refine ⟨exSet, w, hw, h1, h3, h2 _ 4 (by simp) (by omega), by rw [h6]; rfl, ?_, h5⟩
  rw [h6]
  exact ⟨(exFormHist.drop 13).take 3, [(.set 4 ['b'], ({} : PageOut))], _, _, _, rfl, rfl⟩

end Verif.Live
