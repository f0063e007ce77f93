import Verif.Apps.Flight
import Verif.Live.FormExample
/-!
# A flight booker and a timer that run

The app of `Verif.Live.Example`; its leaf is the loop of the flight booker, or the three loops of the timer (`join`).
-/
namespace Verif.Apps
open Verif.Live

/-- What the examples look at. -/
def loopView (w : World exSource Nat Nat (List Nat)) :=
  (((App.view w.app), w.app.sys.waking, w.app.sys.log.all fun | .returned _ => false | _ => true),
    (w.app.sys.child (.task 0), w.app.sys.child (.sub 0 0), w.app.sys.objs.map Nested.Obj.content),
    w.todo, w.awaits, w.given.map (·.place), (pageNow w 0).calls,
    ((cellNow w 0).cell.writing, (cellNow w 1).cell.writing), w.hist)

/-- The app is idle, its leaf awaits some futures, the browser has no listeners to call, and no cell is being written. -/
def loopAt (n : Nat) (aw : List (exSource.Key × Nat)) (hist : List (exSource.Op × exSource.Out)) :=
  (((((⟨true, false, false, 0, false⟩ : Exec.St), ([] : List Nat), [0], ([] : List Nat))), (none : Option Nested.Place), true),
    (some 0, some 1, [(2, ([] : List Nat)), (2, [])]),
    ([] : List Nat), aw, List.replicate n (Nested.Place.sub 1 1), ([] : List (Events.Listener × Events.Ev)),
    (false, false), hist)

theorem loopAt_idle {w : World exSource Nat Nat (List Nat)} {n : Nat} {aw : List (exSource.Key × Nat)}
    {hist : List (exSource.Op × exSource.Out)} (h : loopView w = loopAt n aw hist) :
    Idle w ∧ (∀ k m, (k, m) ∈ aw → m < n → Awaited w k) ∧ (pageNow w 0).calls = [] ∧
      ((cellNow w 0).cell.writing = false ∧ (cellNow w 1).cell.writing = false) ∧ w.hist = hist := by
  simp only [loopView, loopAt, App.view, Prod.mk.injEq] at h
  obtain ⟨⟨⟨a1, a2, a3, a4⟩, b1, b2⟩, ⟨b4, b5, b6⟩, c1, c2, c3, c4, c5, c6⟩ := h
  have hr : ∀ p, .returned p ∉ w.app.sys.log := fun p hp => by simpa using List.all_eq_true.1 b2 _ hp
  refine ⟨⟨⟨by simp [a1], by simp [a1], b1⟩, c1⟩, ?_, c4, c5, c6⟩
  intro k m hk hm
  have hg : (w.given.map (·.place))[m]? = some (.sub 1 1) := by rw [c3, List.getElem?_replicate, if_pos hm]
  rw [List.getElem?_map, Option.map_eq_some_iff] at hg
  obtain ⟨g, d3, d4⟩ := hg
  exact ⟨m, g, 0, by rw [c2]; exact hk, d3, ⟨by simp [a3], by simp [a4], hr _⟩, d4 ▸ Nested.ex_part b4 b5 b6 hr⟩

/-- In the example any text but the empty one is a date, the longer the later. -/
def exParse (x : List Char) : Option Nat := if x = [] then none else some x.length

abbrev exFlight : Loop (fun _ => Nat) XBow.sampleHash XBow.sampleEnc := Flight.loop exParse

/-- The values of all things if the user has entered these texts. -/
def entered (x0 x1 x2 : List Char) : Vals (fun _ => Nat)
  | .cell _ => (0 : Nat)
  | .input _ t => if t = 0 then x0 else if t = 1 then x1 else if t = 2 then x2 else []

/-- One round in which the streams `k` to `k + 2` are made; the first waker is number `wk`. -/
def flightRound (x0 x1 x2 : List Char) (k wk : Nat) : List exSource.Op :=
  exFlight.body (entered x0 x1 x2) ++ exFlight.watches.map listenOp ++
    [onPage (.ev (.poll k wk)), onPage (.ev (.poll (k + 1) (wk + 1))), onPage (.ev (.poll (k + 2) (wk + 2)))]

/-- The user enters the first date; the loop is woken and does another round. -/
def exBooking : List (Event exSource Nat Nat (List Nat)) :=
  exEvents exSource (flightRound [] [] [] 0 1) [onPage (.edit 1 0 ['a'] 100), onPage .call]
    ([onPage (.ev (.poll 0 4)), onPage (.ev (.poll 1 5)), onPage (.ev (.drop 0)), onPage (.ev (.drop 1)),
      onPage (.ev (.drop 2))] ++ flightRound [] ['a'] [] 3 6)

/-- An entry of the history. -/
def pg (o : PageOp) (out : PageOut) : exSource.Op × exSource.Out := (⟨.page 0, o⟩, ⟨.page 0, o, out⟩)

/-- Polls that return `Pending`, or the event `e`. -/
def polled (k wk : Nat) (e : Option Nat) : exSource.Op × exSource.Out :=
  pg (.ev (.poll k wk)) { ev := some (.poll k wk, { polled := some e }) }

def made (t : Nat) : exSource.Op × exSource.Out := pg (.ev (.new t 0)) { ev := some (.new t 0, {}) }
def dropped (k : Nat) : exSource.Op × exSource.Out := pg (.ev (.drop k)) { ev := some (.drop k, {}) }
def isRead (t : Nat) (x : List Char) : exSource.Op × exSource.Out := pg (.read t) { value := some x }
def isSet (t : Nat) (x : List Char) : exSource.Op × exSource.Out := pg (.set t x) {}

def round1 : List (exSource.Op × exSource.Out) :=
  [isRead 0 [], isRead 1 [], isRead 2 [], isSet 3 ['t'], isSet 4 ['t'], isSet 5 ['t'], isSet 6 ['t'], made 0, made 1, made 2,
    polled 0 1 none, polled 1 2 none, polled 2 3 none]

def change : List (exSource.Op × exSource.Out) :=
  [pg (.edit 1 0 ['a'] 100) {}, pg .call { ev := some (.deliver ⟨1, 0, 1, false, false⟩ 100, { woke := some 2 }) }]

def wakeUp : List (exSource.Op × exSource.Out) := [polled 0 4 none, polled 1 5 (some 100), dropped 0, dropped 1, dropped 2]

def round2 : List (exSource.Op × exSource.Out) :=
  [isRead 0 [], isRead 1 ['a'], isRead 2 [], isSet 3 ['t'], isSet 4 ['f'], isSet 5 ['f'], isSet 6 ['t'], made 0, made 1, made 2,
    polled 3 6 none, polled 4 7 none, polled 5 8 none]

theorem exBooking_end : (run (init exStart) exBooking).map loopView =
    some (loopAt 8 [(⟨.page 0, (5 : Nat)⟩, 7), (⟨.page 0, (4 : Nat)⟩, 6), (⟨.page 0, (3 : Nat)⟩, 5)]
      (round1 ++ change ++ wakeUp ++ round2)) := by rfl

theorem polled_polls (t k wk : Nat) (e : Option Nat) :
    Polls (D := fun _ => Nat) (hash := XBow.sampleHash) (enc := XBow.sampleEnc) (.input 0 t) k (polled k wk e).1 :=
  .input 0 t k wk

theorem polled_pends (k wk : Nat) :
    Pends (D := fun _ => Nat) (hash := XBow.sampleHash) (enc := XBow.sampleEnc) (polled k wk none).2 := .input rfl

/-- Both rounds are rounds of the loop. -/
theorem is_round {h : List (exSource.Op × exSource.Out)} {a : List (exSource.Op × exSource.Out)} {k wk : Nat}
    (ha : a.map (·.1) = exFlight.body (valuesAt (initially fun _ => 3) h) ++ exFlight.watches.map listenOp)
    (hk : ∀ t < 3, MadeFor (h ++ a) (.input 0 t, 0) (k + t)) :
    exFlight.Round (initially fun _ => 3) h [k, k + 1, k + 2]
      (a ++ [polled k wk none, polled (k + 1) (wk + 1) none, polled (k + 2) (wk + 2) none]) := by
  refine ⟨a, _, rfl, ha, rfl, rfl, ?_, ?_⟩
  · intro j x e hx he
    rcases j with _ | _ | _ | j
    · cases hx; cases he; exact ⟨polled_polls _ _ _ _, polled_pends _ _⟩
    · cases hx; cases he; exact ⟨polled_polls _ _ _ _, polled_pends _ _⟩
    · cases hx; cases he; exact ⟨polled_polls _ _ _ _, polled_pends _ _⟩
    · cases he
  · intro x hx
    rw [show exFlight.watches.zip [k, k + 1, k + 2] =
      [((.input 0 0, 0), k), ((.input 0 1, 0), k + 1), ((.input 0 2, 0), k + 2)] from rfl] at hx
    simp only [List.mem_cons, List.not_mem_nil, or_false] at hx
    rcases hx with rfl | rfl | rfl
    · exact hk 0 (by omega)
    · exact hk 1 (by omega)
    · exact hk 2 (by omega)

/-- The history is one of the loop of the flight booker. -/
theorem exBooking_runs : exFlight.Runs (initially fun _ => 3) (round1 ++ change ++ wakeUp ++ round2)
    (some (round1 ++ change ++ wakeUp, [3, 4, 5])) := by
  have r1 : exFlight.Round (initially fun _ => 3) [] [0, 1, 2] round1 :=
    is_round (a := round1.take 10) (k := 0) (wk := 1) rfl
      (fun t ht => by rcases t with _ | _ | _ | t <;> first | rfl | omega)
  have r2 : exFlight.Round (initially fun _ => 3) (round1 ++ change ++ wakeUp) [3, 4, 5] round2 :=
    is_round (a := round2.take 10) (k := 3) (wk := 6) rfl
      (fun t ht => by rcases t with _ | _ | _ | t <;> first | rfl | omega)
  have h1 : exFlight.Runs (initially fun _ => 3) ([] ++ round1) (some ([], [0, 1, 2])) := .first .start r1
  have hz : exFlight.watches.zip [0, 1, 2] = [((.input 0 0, 0), 0), ((.input 0 1, 0), 1), ((.input 0 2, 0), 2)] := rfl
  have ho : ∀ e ∈ change, exFlight.Other [0, 1, 2] e := by
    intro e he
    simp only [change, List.mem_cons, List.not_mem_nil, or_false] at he
    refine ⟨?_, ?_, ?_⟩
    · rintro ⟨⟨x, y⟩, k⟩ _ hp
      rcases he with rfl | rfl <;> cases x <;> cases hp
    · intro z hz
      simp only [exFlight, Flight.loop, List.mem_cons, List.not_mem_nil, or_false] at hz
      rcases hz with rfl | rfl | rfl | rfl <;> rcases he with rfl | rfl <;> rfl
    · intro p t y hy
      have hy0 : p = 0 ∧ y = 0 := by
        simp only [exFlight, Flight.loop, List.mem_cons, List.not_mem_nil, or_false, Prod.mk.injEq, Item.input.injEq] at hy
        omega
      obtain ⟨rfl, rfl⟩ := hy0
      refine ⟨fun v hv => ?_, fun y' v n hv => ?_⟩
      · rcases he with rfl | rfl <;> cases hv
      · rcases he with rfl | rfl <;> cases hv; rfl
  have h2 : exFlight.Runs (initially fun _ => 3) (round1 ++ change) (some ([], [0, 1, 2])) := by
    have := (h1.other (ho _ (by simp [change]; left; rfl))).other (ho _ (by simp [change]; right; rfl))
    exact this
  refine h2.again ?_ r2
  intro e he
  rw [hz]
  simp only [wakeUp, List.mem_cons, List.not_mem_nil, or_false] at he
  rcases he with rfl | rfl | rfl | rfl | rfl
  · exact ⟨((.input 0 0, 0), 0), by simp, .inl (polled_polls 0 0 _ _)⟩
  · exact ⟨((.input 0 1, 0), 1), by simp, .inl (polled_polls 1 1 _ _)⟩
  · exact ⟨((.input 0 0, 0), 0), by simp, .inr (.input 0 0 0)⟩
  · exact ⟨((.input 0 1, 0), 1), by simp, .inr (.input 0 1 1)⟩
  · exact ⟨((.input 0 2, 0), 2), by simp, .inr (.input 0 2 2)⟩

/-- The hypotheses of `flight_idle` are met, and the flight can be booked. -/
example : ∃ cells w, (∀ _ : Nat, Cell.init 3 = some cells) ∧
    run (init (start (fun _ => cells) fun _ => XBow.sampleData 1 2)) exBooking = some w ∧
    (∃ t, .app (.mount t) ∈ exBooking) ∧ Idle w ∧ Settled exFlight (fun _ => 3) w ∧ (pageNow w 0).value 4 = flag false := by
  obtain ⟨w, hw, hv⟩ := Option.map_eq_some_iff.1 exBooking_end
  obtain ⟨h1, h2, h3, h4, h5⟩ := loopAt_idle hv
  have hmount : ∃ t, .app (.mount t) ∈ exBooking := ⟨0, by simp [exBooking, exEvents]⟩
  have hs : Settled exFlight (fun _ => 3) w := by
    refine ⟨⟨_, _, by rw [h5]; exact exBooking_runs, ?_⟩, ?_, ?_⟩
    · intro x hx
      rw [show exFlight.watches.zip [3, 4, 5] =
        [((.input 0 0, 0), 3), ((.input 0 1, 0), 4), ((.input 0 2, 0), 5)] from rfl] at hx
      simp only [List.mem_cons, List.not_mem_nil, or_false] at hx
      rcases hx with rfl | rfl | rfl
      · exact h2 _ 5 (by simp [keyOf]) (by omega)
      · exact h2 _ 6 (by simp [keyOf]) (by omega)
      · exact h2 _ 7 (by simp [keyOf]) (by omega)
    · intro n y hy
      simp [exFlight, Flight.loop] at hy
    · intro p t y hy
      have : p = 0 := by
        simp only [exFlight, Flight.loop, List.mem_cons, List.not_mem_nil, or_false, Prod.mk.injEq, Item.input.injEq] at hy
        omega
      subst this; exact h3
  refine ⟨_, w, fun _ => rfl, hw, hmount, h1, hs, ?_⟩
  rw [(values_now hw hmount h1 (by simp [Flight.loop]) (Flight.keeps exParse) hs (fun _ => rfl)).1, h5]
  rfl

/-! ### The timer -/

abbrev exMeter : Loop (fun _ => Nat) XBow.sampleHash XBow.sampleEnc :=
  Timer.meter (fun a b => a / b) fun n => List.replicate n 'm'
abbrev exTotal : Loop (fun _ => Nat) XBow.sampleHash XBow.sampleEnc := Timer.total List.length
abbrev exShown : Loop (fun _ => Nat) XBow.sampleHash XBow.sampleEnc := Timer.shown fun n => List.replicate n 's'

/-- The elapsed time and the total. -/
def times (e t : Nat) : Vals (fun _ => Nat)
  | .cell n => if n = 0 then e else t
  | .input _ _ => ['a', 'b']

abbrev onC (n : Nat) (o : Cell.Op Nat) : exSource.Op := ⟨.cell n, o⟩

/-- The duration is 2 in the beginning. The three loops run for the first time: that of the slider, that of the
progress bar, that of the text. Then the elapsed time changes from 3 to 5, and the last two do another round. -/
def exTimer : List (Event exSource Nat Nat (List Nat)) :=
  let a := [onPage (.set 0 ['a', 'b'])] ++ exTotal.body (times 3 3) ++ [onPage (.ev (.new 0 0)), onPage (.ev (.poll 0 1))] ++
    exMeter.body (times 3 2) ++ [onC 1 .listen, onC 0 .listen, onC 1 (.poll 0 (some 1)), onC 0 (.poll 0 (some 2))] ++
    exShown.body (times 3 2) ++ [onC 0 .listen, onC 0 (.poll 1 (some 3))]
  let b := [onC 0 .borrowMut, onC 0 (.write 5), onC 0 .dropGuard]
  let c := [onPage (.ev (.poll 0 5)), onC 1 (.poll 0 (some 5)), onC 0 (.poll 0 (some 6)), onC 1 (.dropListener 0), onC 0 (.dropListener 0)] ++
    exMeter.body (times 5 2) ++ [onC 1 .listen, onC 0 .listen, onC 1 (.poll 1 (some 7)), onC 0 (.poll 2 (some 8))] ++
    [onC 0 (.poll 1 (some 9)), onC 0 (.dropListener 1)] ++ exShown.body (times 5 2) ++
    [onC 0 .listen, onC 0 (.poll 3 (some 10))]
  [.app (.mount 0), .app .timer, .app .next] ++ ((Nested.exStart.drop 1).take 5).map (fun e => .app (.block e)) ++
  a.map .op ++ ((Nested.exStart.drop 6).take 4).map (fun e => .app (.block e)) ++ [.app .sleep] ++
  b.map .op ++ [.wake, .app (.block .propagate), .app (.block .propagate), .app (.block .propagate), .wake, .app (.block .propagate),
    .app .timer, .app .next, .app (.block .await), .app (.block .await)] ++
  c.map .op ++ ((Nested.exPoll.drop 3).map fun e => .app (.block e)) ++ [.app .sleep]

/-- An entry of the history of a cell. -/
def ce (n : Nat) (o : Cell.Op Nat) (out : Cell.Out) : exSource.Op × exSource.Out := (⟨.cell n, o⟩, ⟨.cell n, o, out⟩)

def slid : List (exSource.Op × exSource.Out) := [isSet 0 ['a', 'b']]

def total1 : List (exSource.Op × exSource.Out) :=
  [isRead 0 ['a', 'b'], ce 1 .borrowMut .unit, ce 1 (.write (2 : Nat)) .unit, ce 1 .dropGuard (.woken []), made 0, polled 0 1 none]

def meter1 : List (exSource.Op × exSource.Out) :=
  [ce 0 .borrow .unit, ce 1 .borrow .unit, isSet 1 ['m'], ce 1 .dropRef .unit, ce 0 .dropRef .unit, ce 1 .listen .unit,
    ce 0 .listen .unit, ce 1 (.poll 0 (some 1)) (.polled false), ce 0 (.poll 0 (some 2)) (.polled false)]

def shown1 : List (exSource.Op × exSource.Out) :=
  [ce 0 .borrow .unit, ce 0 .dropRef .unit, isSet 2 ['s', 's', 's'], ce 0 .listen .unit,
    ce 0 (.poll 1 (some 3)) (.polled false)]

def elapses : List (exSource.Op × exSource.Out) :=
  [ce 0 .borrowMut .unit, ce 0 (.write (5 : Nat)) .unit, ce 0 .dropGuard (.woken [some 2, some 3])]

def totalWaits : exSource.Op × exSource.Out := polled 0 5 none

def meterWakes : List (exSource.Op × exSource.Out) :=
  [ce 1 (.poll 0 (some 5)) (.polled false), ce 0 (.poll 0 (some 6)) (.polled true), ce 1 (.dropListener 0) .unit,
    ce 0 (.dropListener 0) .unit]

def meter2 : List (exSource.Op × exSource.Out) :=
  [ce 0 .borrow .unit, ce 1 .borrow .unit, isSet 1 ['m', 'm'], ce 1 .dropRef .unit, ce 0 .dropRef .unit, ce 1 .listen .unit,
    ce 0 .listen .unit, ce 1 (.poll 1 (some 7)) (.polled false), ce 0 (.poll 2 (some 8)) (.polled false)]

def shownWakes : List (exSource.Op × exSource.Out) :=
  [ce 0 (.poll 1 (some 9)) (.polled true), ce 0 (.dropListener 1) .unit]

def shown2 : List (exSource.Op × exSource.Out) :=
  [ce 0 .borrow .unit, ce 0 .dropRef .unit, isSet 2 ['s', 's', 's', 's', 's'], ce 0 .listen .unit,
    ce 0 (.poll 3 (some 10)) (.polled false)]

theorem exTimer_end : (run (init exStart) exTimer).map loopView =
    some (loopAt 11 [(⟨.cell 0, some (3 : Nat)⟩, 10), (⟨.cell 0, some (2 : Nat)⟩, 8), (⟨.cell 1, some (1 : Nat)⟩, 7),
      (⟨.page 0, (0 : Nat)⟩, 4)]
      (slid ++ total1 ++ meter1 ++ shown1 ++ elapses ++ [totalWaits] ++ meterWakes ++ meter2 ++ shownWakes ++ shown2)) := by
  rfl

theorem runs_before {L : Loop (fun _ => Nat) XBow.sampleHash XBow.sampleEnc} {v0 : Vals fun _ => Nat}
    (l : List (exSource.Op × exSource.Out)) : L.Runs v0 l none := by
  induction l using List.reverseRecOn with
  | nil => exact .start
  | append_singleton _ _ ih => exact .before ih

theorem runs_others {L : Loop (fun _ => Nat) XBow.sampleHash XBow.sampleEnc} {v0 : Vals fun _ => Nat}
    {h since : List (exSource.Op × exSource.Out)} {keys : List Nat} (hr : L.Runs v0 h (some (since, keys)))
    (l : List (exSource.Op × exSource.Out)) (hl : ∀ e ∈ l, L.Other keys e) : L.Runs v0 (h ++ l) (some (since, keys)) := by
  induction l using List.reverseRecOn with
  | nil => simpa using hr
  | append_singleton l e ih =>
    rw [← List.append_assoc]
    exact .other (ih fun e he => hl e (by simp [he])) (hl e (by simp))

abbrev exAt : Vals fun _ => Nat := initially fun _ => 3

def isInput : Item → Bool
  | .input _ _ => true
  | .cell _ => false

/-- A test for entries that are not of the loop. -/
def notOf (L : Loop (fun _ => Nat) XBow.sampleHash XBow.sampleEnc) (keys : List Nat) (e : exSource.Op × exSource.Out) : Bool :=
  match e.1 with
  | ⟨.cell n, .write _⟩ => decide (.cell n ∉ L.outs)
  | ⟨.cell n, .poll k _⟩ => decide (∀ x ∈ L.watches.zip keys, ¬ (x.1.1 = .cell n ∧ x.2 = k))
  | ⟨.cell _, _⟩ => true
  | ⟨.page pg, .set t _⟩ => decide (.input pg t ∉ L.outs ∧ ∀ x ∈ L.watches, x.1 ≠ .input pg t)
  | ⟨.page _, .ev (.poll k _)⟩ => decide (∀ x ∈ L.watches.zip keys, ¬ (x.2 = k ∧ isInput x.1.1 = true))
  | ⟨.page _, .read _⟩ => true
  | ⟨.page _, .ev (.new _ _)⟩ => true
  | _ => false

theorem notOf_other {L : Loop (fun _ => Nat) XBow.sampleHash XBow.sampleEnc} {keys : List Nat}
    {e : exSource.Op × exSource.Out} (h : notOf L keys e = true) : L.Other keys e := by
  obtain ⟨⟨i, o⟩, out⟩ := e
  refine ⟨?_, ?_, ?_⟩
  · rintro ⟨⟨x, y⟩, k⟩ hx hp
    dsimp only at hp
    cases hp with
    | cell n k wk =>
      have := of_decide_eq_true h
      exact this _ hx ⟨rfl, rfl⟩
    | input p t k wk =>
      have := of_decide_eq_true h
      exact this _ hx ⟨rfl, rfl⟩
  · intro z hz
    cases i with
    | cell m =>
      cases z with
      | input _ _ => rfl
      | cell n =>
        cases o with
        | write v =>
          have := of_decide_eq_true h
          exact dif_neg fun hmn : m = n => this (hmn ▸ hz)
        | _ => rfl
    | page p =>
      cases z with
      | cell _ => rfl
      | input p' t =>
        cases o with
        | set t' v =>
          have := of_decide_eq_true h
          exact if_neg fun hpt : p = p' ∧ t' = t => this.1 (hpt.1 ▸ hpt.2 ▸ hz)
        | edit t' y v n => cases h
        | _ => rfl
    | store _ => cases z <;> rfl
    | events _ => cases z <;> rfl
  · intro p t y hx
    refine ⟨fun v hv => ?_, fun y' v n hv => ?_⟩
    · cases hv
      exact (of_decide_eq_true h).2 _ hx rfl
    · cases hv; cases h

theorem all_others {L : Loop (fun _ => Nat) XBow.sampleHash XBow.sampleEnc} {keys : List Nat}
    {l : List (exSource.Op × exSource.Out)} (h : l.all (notOf L keys) = true) : ∀ e ∈ l, L.Other keys e :=
  fun e he => notOf_other (List.all_eq_true.1 h e he)

theorem ce_polls (n k : Nat) (wk : Option Nat) (out : Cell.Out) :
    Polls (D := fun _ => Nat) (hash := XBow.sampleHash) (enc := XBow.sampleEnc) (.cell n) k (ce n (.poll k wk) out).1 :=
  .cell n k wk

theorem ce_pends (n : Nat) (o : Cell.Op Nat) :
    Pends (D := fun _ => Nat) (hash := XBow.sampleHash) (enc := XBow.sampleEnc) (ce n o (.polled false)).2 := .cell

theorem total_runs : exTotal.Runs exAt
    (slid ++ total1 ++ (meter1 ++ shown1 ++ elapses) ++ [totalWaits] ++ (meterWakes ++ meter2 ++ shownWakes ++ shown2))
    (some (slid, [0])) := by
  have r1 : exTotal.Round exAt slid [0] total1 := by
    refine ⟨total1.take 5, total1.drop 5, rfl, rfl, rfl, rfl, ?_, ?_⟩
    · intro j x e hx he
      rcases j with _ | j
      · cases hx; cases he; exact ⟨polled_polls 0 0 _ _, polled_pends _ _⟩
      · cases he
    · intro x hx
      rw [show exTotal.watches.zip [0] = [((.input 0 0, 0), 0)] from rfl, List.mem_singleton] at hx
      subst hx; rfl
  have h1 : exTotal.Runs exAt (slid ++ total1) (some (slid, [0])) := .first (runs_before _) r1
  have h2 := runs_others h1 (meter1 ++ shown1 ++ elapses) (all_others rfl)
  have h3 := h2.waits (e := totalWaits) (x := ((.input 0 0, 0), 0)) (by simp [exTotal, Timer.total])
    (polled_polls 0 0 _ _) (polled_pends _ _)
  exact runs_others h3 _ (all_others rfl)

theorem meter_round {h : List (exSource.Op × exSource.Out)} {a : List (exSource.Op × exSource.Out)} {k0 k1 wk : Nat}
    (ha : a.map (·.1) = exMeter.body (valuesAt exAt h) ++ exMeter.watches.map listenOp) :
    exMeter.Round exAt h [k1, k0]
      (a ++ [ce 1 (.poll k1 (some wk)) (.polled false), ce 0 (.poll k0 (some (wk + 1))) (.polled false)]) := by
  refine ⟨a, _, rfl, ha, rfl, rfl, ?_, ?_⟩
  · intro j x e hx he
    rcases j with _ | _ | j
    · cases hx; cases he; exact ⟨ce_polls _ _ _ _, ce_pends _ _⟩
    · cases hx; cases he; exact ⟨ce_polls _ _ _ _, ce_pends _ _⟩
    · cases he
  · intro x hx
    rw [show exMeter.watches.zip [k1, k0] = [((.cell 1, 0), k1), ((.cell 0, 0), k0)] from rfl] at hx
    simp only [List.mem_cons, List.not_mem_nil, or_false] at hx
    rcases hx with rfl | rfl <;> trivial

theorem meter_runs : exMeter.Runs exAt
    (slid ++ total1 ++ meter1 ++ (shown1 ++ elapses ++ [totalWaits]) ++ meterWakes ++ meter2 ++ (shownWakes ++ shown2))
    (some (slid ++ total1 ++ meter1 ++ (shown1 ++ elapses ++ [totalWaits]) ++ meterWakes, [1, 2])) := by
  have r1 : exMeter.Round exAt (slid ++ total1) [0, 0] meter1 := meter_round (a := meter1.take 7) (wk := 1) rfl
  have r2 : exMeter.Round exAt (slid ++ total1 ++ meter1 ++ (shown1 ++ elapses ++ [totalWaits]) ++ meterWakes) [1, 2] meter2 :=
    meter_round (a := meter2.take 7) (wk := 7) rfl
  have h1 : exMeter.Runs exAt (slid ++ total1 ++ meter1) (some (slid ++ total1, [0, 0])) := .first (runs_before _) r1
  have h2 := runs_others h1 (shown1 ++ elapses ++ [totalWaits]) (all_others rfl)
  refine runs_others (h2.again ?_ r2) _ (all_others rfl)
  intro e he
  rw [show exMeter.watches.zip [0, 0] = [((.cell 1, 0), 0), ((.cell 0, 0), 0)] from rfl]
  simp only [meterWakes, List.mem_cons, List.not_mem_nil, or_false] at he
  rcases he with rfl | rfl | rfl | rfl
  · exact ⟨((.cell 1, 0), 0), by simp, .inl (ce_polls 1 0 _ _)⟩
  · exact ⟨((.cell 0, 0), 0), by simp, .inl (ce_polls 0 0 _ _)⟩
  · exact ⟨((.cell 1, 0), 0), by simp, .inr (.cell 1 0)⟩
  · exact ⟨((.cell 0, 0), 0), by simp, .inr (.cell 0 0)⟩

theorem shown_round {h : List (exSource.Op × exSource.Out)} {a : List (exSource.Op × exSource.Out)} {k wk : Nat}
    (ha : a.map (·.1) = exShown.body (valuesAt exAt h) ++ exShown.watches.map listenOp) :
    exShown.Round exAt h [k] (a ++ [ce 0 (.poll k (some wk)) (.polled false)]) := by
  refine ⟨a, _, rfl, ha, rfl, rfl, ?_, ?_⟩
  · intro j x e hx he
    rcases j with _ | j
    · cases hx; cases he; exact ⟨ce_polls _ _ _ _, ce_pends _ _⟩
    · cases he
  · intro x hx
    rw [show exShown.watches.zip [k] = [((.cell 0, 0), k)] from rfl, List.mem_singleton] at hx
    subst hx; trivial

theorem shown_runs : exShown.Runs exAt
    (slid ++ total1 ++ meter1 ++ shown1 ++ (elapses ++ [totalWaits] ++ meterWakes ++ meter2) ++ shownWakes ++ shown2)
    (some (slid ++ total1 ++ meter1 ++ shown1 ++ (elapses ++ [totalWaits] ++ meterWakes ++ meter2) ++ shownWakes, [3])) := by
  have r1 : exShown.Round exAt (slid ++ total1 ++ meter1) [1] shown1 := shown_round (a := shown1.take 4) (wk := 3) rfl
  have r2 : exShown.Round exAt
      (slid ++ total1 ++ meter1 ++ shown1 ++ (elapses ++ [totalWaits] ++ meterWakes ++ meter2) ++ shownWakes) [3] shown2 :=
    shown_round (a := shown2.take 4) (wk := 10) rfl
  have h1 : exShown.Runs exAt (slid ++ total1 ++ meter1 ++ shown1) (some (slid ++ total1 ++ meter1, [1])) :=
    .first (runs_before _) r1
  have h2 := runs_others h1 (elapses ++ [totalWaits] ++ meterWakes ++ meter2) (all_others rfl)
  refine h2.again ?_ r2
  intro e he
  rw [show exShown.watches.zip [1] = [((.cell 0, 0), 1)] from rfl]
  simp only [shownWakes, List.mem_cons, List.not_mem_nil, or_false] at he
  rcases he with rfl | rfl
  · exact ⟨((.cell 0, 0), 1), by simp, .inl (ce_polls 0 1 _ _)⟩
  · exact ⟨((.cell 0, 0), 1), by simp, .inr (.cell 0 1)⟩

/-- The hypotheses of `timer_idle` are met; the progress bar says 5 / 2, rounded down. -/
example : ∃ cells w, (∀ _ : Nat, Cell.init 3 = some cells) ∧
    run (init (start (fun _ => cells) fun _ => XBow.sampleData 1 2)) exTimer = some w ∧
    (∃ t, .app (.mount t) ∈ exTimer) ∧ Idle w ∧ Settled exMeter (fun _ => 3) w ∧ Settled exTotal (fun _ => 3) w ∧
    Settled exShown (fun _ => 3) w ∧ (pageNow w 0).value 1 = ['m', 'm'] := by
  obtain ⟨w, hw, hv⟩ := Option.map_eq_some_iff.1 exTimer_end
  obtain ⟨h1, h2, h3, h4, h5⟩ := loopAt_idle hv
  have hmount : ∃ t, .app (.mount t) ∈ exTimer := ⟨0, by simp [exTimer]⟩
  have hs1 : Settled exMeter (fun _ => 3) w := by
    refine ⟨⟨_, _, by rw [h5]; exact meter_runs, ?_⟩, ?_, ?_⟩
    · intro x hx
      rw [show exMeter.watches.zip [1, 2] = [((.cell 1, 0), 1), ((.cell 0, 0), 2)] from rfl] at hx
      simp only [List.mem_cons, List.not_mem_nil, or_false] at hx
      rcases hx with rfl | rfl
      · exact h2 _ 7 (by simp [keyOf]) (by omega)
      · exact h2 _ 8 (by simp [keyOf]) (by omega)
    · intro n y hy
      simp only [exMeter, Timer.meter, List.mem_cons, List.not_mem_nil, or_false, Prod.mk.injEq, Item.cell.injEq] at hy
      rcases hy with ⟨rfl, -⟩ | ⟨rfl, -⟩
      · exact h4.2
      · exact h4.1
    · intro p t y hy
      simp [exMeter, Timer.meter] at hy
  have hs2 : Settled exTotal (fun _ => 3) w := by
    refine ⟨⟨_, _, by rw [h5]; exact total_runs, ?_⟩, ?_, ?_⟩
    · intro x hx
      rw [show exTotal.watches.zip [0] = [((.input 0 0, 0), 0)] from rfl, List.mem_singleton] at hx
      subst hx
      exact h2 _ 4 (by simp [keyOf]) (by omega)
    · intro n y hy
      simp [exTotal, Timer.total] at hy
    · intro p t y hy
      simp only [exTotal, Timer.total, List.mem_cons, List.not_mem_nil, or_false, Prod.mk.injEq, Item.input.injEq] at hy
      rw [hy.1.1]; exact h3
  have hs3 : Settled exShown (fun _ => 3) w := by
    refine ⟨⟨_, _, by rw [h5]; exact shown_runs, ?_⟩, ?_, ?_⟩
    · intro x hx
      rw [show exShown.watches.zip [3] = [((.cell 0, 0), 3)] from rfl, List.mem_singleton] at hx
      subst hx
      exact h2 _ 10 (by simp [keyOf]) (by omega)
    · intro n y hy
      simp only [exShown, Timer.shown, List.mem_cons, List.not_mem_nil, or_false, Prod.mk.injEq, Item.cell.injEq] at hy
      rw [hy.1]; exact h4.1
    · intro p t y hy
      simp [exShown, Timer.shown] at hy
  refine ⟨_, w, fun _ => rfl, hw, hmount, h1, hs1, hs2, hs3, ?_⟩
  rw [(values_now hw hmount h1 (by simp [Timer.shown]) (Timer.shown_keeps _) hs3 (fun _ => rfl)).1, h5]
  rfl

end Verif.Apps
