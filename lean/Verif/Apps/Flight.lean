import Verif.Live.Loop
/-!
# C71: the flight booker and the timer

`examples/web-simple-examples/src/flight.rs` and `timer.rs` as loops (`Verif.Live.LoopSpec`) of a whole app. The elements
of the page are numbered; a property of an element that the program sets is an element of its own here. Left out: the
names of the classes and of the properties, the elements without such a loop, and in the timer what changes the elapsed
time (the interval and the reset button), which is arbitrary.
-/
namespace Verif.Apps
open Verif.Live
open XBow.Data (Data Layer)

section
variable {D : Nat → Type} {V S O : Type} {hash : XBow.Path → BitVec 64} {enc : Layer → XBow.Seg}

/-- The value of `disabled` and the like. -/
def flag (b : Bool) : List Char := if b then ['t'] else ['f']

/-- The value of the element `t`. -/
def text (v : Vals D) (t : Nat) : List Char := v (.input 0 t)

namespace Flight

def twoWay : List Char := ['t', 'w', 'o', '-', 'w', 'a', 'y']

/-- Lines 49-53; `parse` is `Date::parse` (42). -/
def noBook {Date : Type} [LT Date] [DecidableLT Date] (parse : List Char → Option Date) (two : Bool) (x1 x2 : List Char) :
    Bool :=
  match two, parse x1, parse x2 with
  | true, some d1, some d2 => if d1 < d2 then false else true
  | false, some _, _ => false
  | _, _, _ => true

/-- The loop (39-67). Elements 0 to 2 are `type_chooser`, `input_1` and `input_2`; 3 and 4 are `disabled` of `input_2` and
`book`; 5 and 6 are whether `input_1` and `input_2` have the class `invalid`. The event `input` is number 0. -/
def loop {Date : Type} [LT Date] [DecidableLT Date] (parse : List Char → Option Date) : Loop D hash enc where
  watches := [(.input 0 0, 0), (.input 0 1, 0), (.input 0 2, 0)]
  body v :=
    let two := text v 0 == twoWay
    [⟨.page 0, .read 0⟩, ⟨.page 0, .read 1⟩, ⟨.page 0, .read 2⟩, ⟨.page 0, .set 3 (flag (!two))⟩,
      ⟨.page 0, .set 4 (flag (noBook parse two (text v 1) (text v 2)))⟩,
      ⟨.page 0, .set 5 (flag (parse (text v 1)).isNone)⟩, ⟨.page 0, .set 6 (flag (parse (text v 2)).isNone)⟩]
  outs := [.input 0 3, .input 0 4, .input 0 5, .input 0 6]

/-- What should be possible to book: a flight on a date, or two flights on two dates of which the second is later. -/
def Bookable {Date : Type} [LT Date] (parse : List Char → Option Date) (type x1 x2 : List Char) : Prop :=
  if type = twoWay then ∃ d1 d2, parse x1 = some d1 ∧ parse x2 = some d2 ∧ d1 < d2 else ∃ d, parse x1 = some d

theorem keeps {Date : Type} [LT Date] [DecidableLT Date] (parse : List Char → Option Date) :
    (loop parse : Loop D hash enc).Keeps := by
  intro v x hx
  simp only [loop, List.mem_cons, List.not_mem_nil, or_false] at hx ⊢
  refine ⟨fun o ho => ?_, fun o ho => ?_⟩
  · rcases hx with rfl | rfl | rfl <;> rcases ho with rfl | rfl | rfl | rfl | rfl | rfl | rfl <;> rfl
  · rcases hx with rfl | rfl | rfl <;> simp only [readOps, List.mem_singleton] at ho <;> simp [ho]

end Flight

variable {cells : ∀ n, Cell.Sys (D n)} {data : Nat → Data}
  {es : List (Event (fullSource D hash enc) V S O)} {w : World (fullSource D hash enc) V S O}

/-- The app with a loop in it is idle: nothing is left to do, the browser has no listeners to call, the loop waits for
all its futures, and cells that it reads are not mutably borrowed. -/
structure Settled (L : Loop D hash enc) (v : ∀ n, D n) (w : World (fullSource D hash enc) V S O) : Prop where
  runs : ∃ since keys, L.Runs (initially v) w.hist (some (since, keys)) ∧
    ∀ x ∈ L.watches.zip keys, Awaited w (keyOf x.1.1 x.2)
  written : ∀ n y, (.cell n, y) ∈ L.watches → (cellNow w n).cell.writing = false
  called : ∀ pg t y, (.input pg t, y) ∈ L.watches → (pageNow w pg).calls = []

theorem settled_output {L : Loop D hash enc} {v : ∀ n, D n} (h : run (init (start cells data)) es = some w)
    (hm : ∃ t, .app (.mount t) ∈ es) (hidle : Idle w) (hcells : ∀ n, Cell.init (v n) = some (cells n)) (hg : L.Keeps)
    (hs : Settled L v w) {z : Item} {f : Vals D → z.Val D} (hz : z ∈ L.outs) (hf : ∀ u, lastWrite z (L.body u) = some (f u))
    (hc : ∀ u u', (∀ x ∈ L.watches, u x.1 = u' x.1) → f u = f u') :
    valuesAt (initially v) w.hist z = f (valuesAt (initially v) w.hist) := by
  obtain ⟨since, keys, hr, hk⟩ := hs.runs
  exact (idle_loop h hm hidle hcells hg hr hs.written hs.called hk).2 z f hz hf hc

/-- What `valuesAt` says is what is there. -/
theorem values_now {v : ∀ n, D n} (h : run (init (start cells data)) es = some w) (hm : ∃ t, .app (.mount t) ∈ es)
    (hidle : Idle w) {L : Loop D hash enc} (hw : L.watches ≠ []) (hg : L.Keeps) (hs : Settled L v w)
    (hcells : ∀ n, Cell.init (v n) = some (cells n)) :
    (∀ pg t, (pageNow w pg).value t = valuesAt (initially v) w.hist (.input pg t)) ∧
    ∀ n, (cellNow w n).cell.data = valuesAt (initially v) w.hist (.cell n) := by
  obtain ⟨since, keys, hr, hk⟩ := hs.runs
  obtain ⟨x, l, hx⟩ := List.exists_cons_of_ne_nil hw
  obtain ⟨k, hxk⟩ := runs_key hg hr (x := x) (by rw [hx]; simp)
  obtain ⟨-, -, -, -, -, -, -, hist, -⟩ := idle_not_woken h hm hidle (hk _ hxk)
  refine ⟨fun pg t => page_value hist rfl, fun n => ?_⟩
  rw [← cell_value (part_hist hist (.cell n)).2]
  exact Cell.reach_data ⟨cells n, hcells n, (cell_hist (part_hist hist (.cell n)).1).1⟩

/-- **C71, the flight booker.** Whenever the app is idle, the second date can be entered exactly if a return flight is
chosen, the button is enabled exactly if what has been entered can be booked, and exactly the texts that are not dates
are marked. -/
theorem flight_idle {Date : Type} [LT Date] [DecidableLT Date] {parse : List Char → Option Date} {v : ∀ n, D n}
    (h : run (init (start cells data)) es = some w) (hm : ∃ t, .app (.mount t) ∈ es) (hidle : Idle w)
    (hcells : ∀ n, Cell.init (v n) = some (cells n)) (hs : Settled (Flight.loop parse) v w) :
    let now := (pageNow w 0).value
    (now 3 = flag true ↔ now 0 ≠ Flight.twoWay) ∧ (now 4 = flag true ↔ ¬ Flight.Bookable parse (now 0) (now 1) (now 2)) ∧
    (now 5 = flag true ↔ parse (now 1) = none) ∧ (now 6 = flag true ↔ parse (now 2) = none) := by
  have hn := (values_now h hm hidle (by simp [Flight.loop]) (Flight.keeps parse) hs hcells).1 0
  have key := fun {z : Item} {f : Vals D → z.Val D} => settled_output h hm hidle hcells (Flight.keeps parse) hs (z := z) (f := f)
  have hfl : ∀ b, flag b = flag true ↔ b = true := by intro b; cases b <;> simp [flag]
  have cong : ∀ {u u' : Vals D}, (∀ x ∈ (Flight.loop (D := D) (hash := hash) (enc := enc) parse).watches, u x.1 = u' x.1) →
      text u 0 = text u' 0 ∧ text u 1 = text u' 1 ∧ text u 2 = text u' 2 := fun hu =>
    ⟨hu (.input 0 0, 0) (by simp [Flight.loop]), hu (.input 0 1, 0) (by simp [Flight.loop]),
      hu (.input 0 2, 0) (by simp [Flight.loop])⟩
  have h3 := key (z := .input 0 3) (f := fun u => flag (!(text u 0 == Flight.twoWay))) (by simp [Flight.loop])
    (fun u => rfl) (fun u u' hu => by rw [(cong hu).1])
  have h4 := key (z := .input 0 4)
    (f := fun u => flag (Flight.noBook parse (text u 0 == Flight.twoWay) (text u 1) (text u 2)))
    (by simp [Flight.loop]) (fun u => rfl) (fun u u' hu => by rw [(cong hu).1, (cong hu).2.1, (cong hu).2.2])
  have h5 := key (z := .input 0 5) (f := fun u => flag (parse (text u 1)).isNone) (by simp [Flight.loop])
    (fun u => rfl) (fun u u' hu => by rw [(cong hu).2.1])
  have h6 := key (z := .input 0 6) (f := fun u => flag (parse (text u 2)).isNone) (by simp [Flight.loop])
    (fun u => rfl) (fun u u' hu => by rw [(cong hu).2.2])
  simp only [text, ← hn] at h3 h4 h5 h6
  intro now
  refine ⟨?_, ?_, ?_, ?_⟩
  · rw [show now 3 = _ from h3, hfl]; simp [now]
  · rw [show now 4 = _ from h4, hfl]
    simp only [Flight.noBook, Flight.Bookable, now]
    by_cases h0 : (pageNow w 0).value 0 = Flight.twoWay
    · simp only [h0, BEq.rfl, if_true]
      cases parse ((pageNow w 0).value 1) with
      | none => simp
      | some d1 =>
        cases parse ((pageNow w 0).value 2) with
        | none => simp
        | some d2 =>
          by_cases hd : d1 < d2 <;> simp [hd]
    · simp only [beq_eq_false_iff_ne.2 h0, if_neg h0]
      cases parse ((pageNow w 0).value 1) <;> simp
  · rw [show now 5 = _ from h5, hfl]; simp [now]
  · rw [show now 6 = _ from h6, hfl]; simp [now]

/-- Flights there and back on the same day cannot be booked. The task that the example implements ("7GUIs") wants the
button disabled only if the second date is strictly before the first. -/
theorem same_day {Date : Type} [LT Date] [DecidableLT Date] {parse : List Char → Option Date} {v : ∀ n, D n}
    (h : run (init (start cells data)) es = some w) (hm : ∃ t, .app (.mount t) ∈ es) (hidle : Idle w)
    (hcells : ∀ n, Cell.init (v n) = some (cells n)) (hs : Settled (Flight.loop parse) v w)
    (hirr : ∀ d : Date, ¬ d < d) (h0 : (pageNow w 0).value 0 = Flight.twoWay)
    (h12 : (pageNow w 0).value 1 = (pageNow w 0).value 2) : (pageNow w 0).value 4 = flag true := by
  refine (flight_idle h hm hidle hcells hs).2.1.2 fun hb => ?_
  simp only [Flight.Bookable, h0, if_true] at hb
  obtain ⟨d1, d2, h1, h2, hlt⟩ := hb
  rw [h12, h2] at h1
  cases h1
  exact hirr _ hlt

end

section
variable {R V S O : Type} {hash : XBow.Path → BitVec 64} {enc : Layer → XBow.Seg}

namespace Timer

/-- The loop of the progress bar (38-44). The cells 0 and 1 are `elapsed` and `total`; the elements 0 to 2 are the value
of `slider`, the value of `meter` and the data of `elapsed_text`. `div` is the division of numbers, `num` turns the
value of the property `value` into text. -/
def meter (div : R → R → R) (num : R → List Char) : Loop (fun _ => R) hash enc where
  watches := [(.cell 1, 0), (.cell 0, 0)]
  body v := [⟨.cell 0, .borrow⟩, ⟨.cell 1, .borrow⟩, ⟨.page 0, .set 1 (num (div (v (.cell 0)) (v (.cell 1))))⟩,
    ⟨.cell 1, .dropRef⟩, ⟨.cell 0, .dropRef⟩]
  outs := [.input 0 1]

/-- The loop of the slider (45-51); `parse` is `value_as_number`. -/
def total (parse : List Char → R) : Loop (fun _ => R) hash enc where
  watches := [(.input 0 0, 0)]
  body v := [⟨.page 0, .read 0⟩, ⟨.cell 1, .borrowMut⟩, ⟨.cell 1, .write (parse (text v 0))⟩, ⟨.cell 1, .dropGuard⟩]
  outs := [.cell 1]

/-- The loop of the text (69-75); `fmt` is `format!("{:.2}")`. -/
def shown (fmt : R → List Char) : Loop (fun _ => R) hash enc where
  watches := [(.cell 0, 0)]
  body v := [⟨.cell 0, .borrow⟩, ⟨.cell 0, .dropRef⟩, ⟨.page 0, .set 2 (fmt (v (.cell 0)))⟩]
  outs := [.input 0 2]

theorem meter_keeps (div : R → R → R) (num : R → List Char) : (meter div num : Loop _ hash enc).Keeps := by
  intro v x hx
  simp only [meter, List.mem_cons, List.not_mem_nil, or_false] at hx ⊢
  refine ⟨fun o ho => ?_, fun o ho => ?_⟩
  · rcases hx with rfl | rfl <;> rcases ho with rfl | rfl | rfl | rfl | rfl <;> rfl
  · rcases hx with rfl | rfl <;> simp only [readOps, List.mem_cons, List.not_mem_nil, or_false] at ho <;>
      rcases ho with rfl | rfl <;> simp

theorem total_keeps (parse : List Char → R) : (total parse : Loop _ hash enc).Keeps := by
  intro v x hx
  simp only [total, List.mem_cons, List.not_mem_nil, or_false] at hx ⊢
  subst hx
  refine ⟨fun o ho => ?_, fun o ho => ?_⟩
  · rcases ho with rfl | rfl | rfl | rfl <;> rfl
  · simp only [readOps, List.mem_singleton] at ho; simp [ho]

theorem shown_keeps (fmt : R → List Char) : (shown fmt : Loop _ hash enc).Keeps := by
  intro v x hx
  simp only [shown, List.mem_cons, List.not_mem_nil, or_false] at hx ⊢
  subst hx
  refine ⟨fun o ho => ?_, fun o ho => ?_⟩
  · rcases ho with rfl | rfl | rfl <;> rfl
  · simp only [readOps, List.mem_cons, List.not_mem_nil, or_false] at ho
    rcases ho with rfl | rfl <;> simp

end Timer

variable {cells : Nat → Cell.Sys R} {data : Nat → Data}
  {es : List (Event (fullSource (fun _ => R) hash enc) V S O)} {w : World (fullSource (fun _ => R) hash enc) V S O}

/-- **C71, the timer.** Whenever the app is idle, the duration is what the slider says, the progress bar shows the
fraction of it that has elapsed, and the text says how much has. -/
theorem timer_idle {div : R → R → R} {num fmt : R → List Char} {parse : List Char → R} {v : Nat → R}
    (h : run (init (start cells data)) es = some w) (hm : ∃ t, .app (.mount t) ∈ es) (hidle : Idle w)
    (hcells : ∀ n, Cell.init (v n) = some (cells n)) (hmeter : Settled (Timer.meter div num) v w)
    (htotal : Settled (Timer.total parse) v w) (hshown : Settled (Timer.shown fmt) v w) :
    let elapsed := (cellNow w 0).cell.data
    let total := (cellNow w 1).cell.data
    total = parse ((pageNow w 0).value 0) ∧ (pageNow w 0).value 1 = num (div elapsed total) ∧
    (pageNow w 0).value 2 = fmt elapsed := by
  obtain ⟨hp, hc⟩ := values_now h hm hidle (by simp [Timer.shown]) (Timer.shown_keeps fmt) hshown hcells
  have h1 := settled_output h hm hidle hcells (Timer.total_keeps parse) htotal (z := .cell 1)
    (f := fun u => parse (text u 0)) (by simp [Timer.total]) (fun u => rfl)
    (fun u u' hu => by rw [show text u 0 = text u' 0 from hu (.input 0 0, 0) (by simp [Timer.total])])
  have h2 := settled_output h hm hidle hcells (Timer.meter_keeps div num) hmeter (z := .input 0 1)
    (f := fun u => num (div (u (.cell 0)) (u (.cell 1)))) (by simp [Timer.meter]) (fun u => rfl)
    (fun u u' hu => by
      rw [show u (.cell 0) = u' (.cell 0) from hu (.cell 0, 0) (by simp [Timer.meter]),
        show u (.cell 1) = u' (.cell 1) from hu (.cell 1, 0) (by simp [Timer.meter])])
  have h3 := settled_output h hm hidle hcells (Timer.shown_keeps fmt) hshown (z := .input 0 2)
    (f := fun u => fmt (u (.cell 0))) (by simp [Timer.shown]) (fun u => rfl)
    (fun u u' hu => by rw [show u (.cell 0) = u' (.cell 0) from hu (.cell 0, 0) (by simp [Timer.shown])])
  simp only [text, ← hp] at h1
  simp only [← hp, ← hc] at h1 h2 h3
  exact ⟨h1, h2, h3⟩

end
end Verif.Apps
