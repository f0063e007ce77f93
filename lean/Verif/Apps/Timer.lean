import Mathlib.Data.Rat.Floor
import Mathlib.Tactic.Linarith
import Mathlib.Tactic.FieldSimp
/-!
# C80: the timer

`examples/web-simple-examples/src/timer.rs` as a whole: the five loops that the component joins, the two cells, the slider,
the reset button and the interval. The display loops alone, in an app that is otherwise arbitrary, are in `Apps/Flight`.

Simplified: numbers are exact, while in the code they are `f64`. Any loop may be polled at any time, in any order; one
whose futures are not ready does nothing then (C12, C13). A future of `until_change` is ready when the cell has been
written since the future was polled first (C23; the loops poll it at once). A stream of events keeps that there was an event
(C40), and a new one is listening before the loop gives control back. The channel of an `IntervalStream` keeps all ticks;
it is code of `gloo_timers`, which is not in the repository. The elements that do not change are left out.
-/
namespace Verif.Apps.Timer

/-- The component. `Txt` is what texts are. -/
structure State (Txt : Type) where
  /-- `elapsed` and `total` (timer.rs 11-12), and how often they have been written. -/
  elapsed : ℚ
  total : ℚ
  elapsedWrites : Nat
  totalWrites : Nat
  /-- The slider, as the user sees it. -/
  slider : ℚ
  /-- The value of the meter and the text (16-21). -/
  meter : ℚ
  text : Txt
  /-- What the streams hold: whether there was an `input`, how many ticks there were, whether there was a `click`. -/
  input : Bool
  ticks : Nat
  click : Bool
  /-- Which loops have been polled, and for the two that wait for cells, what had been written when they began to wait. -/
  meterSeen : Option (Nat × Nat)
  sliderRuns : Bool
  intervalRuns : Bool
  resetRuns : Bool
  textSeen : Option Nat

variable {Txt : Type}

/-- The loops, timer.rs 38-44, 45-51, 52-61, 62-68 and 69-75. -/
inductive Task
  | meter | slider | interval | reset | text
  deriving DecidableEq

/-- Before the first poll (10-28). The slider has the value `d`, see `Slider.start`. -/
def init (blank : Txt) (d : ℚ) : State Txt :=
  { elapsed := 0, total := 15, elapsedWrites := 0, totalWrites := 0, slider := d, meter := 0, text := blank, input := false,
    ticks := 0, click := false, meterSeen := none, sliderRuns := false, intervalRuns := false, resetRuns := false,
    textSeen := none }

/-- timer.rs 41-42. -/
def meterRound (s : State Txt) : State Txt :=
  { s with meter := s.elapsed / s.total, meterSeen := some (s.elapsedWrites, s.totalWrites) }

/-- timer.rs 72-73; `fmt` is `format!("{:.2}", _)`. -/
def textRound (fmt : ℚ → Txt) (s : State Txt) : State Txt :=
  { s with text := fmt s.elapsed, textSeen := some s.elapsedWrites }

/-- timer.rs 48. -/
def readSlider (s : State Txt) : State Txt := { s with total := s.slider, totalWrites := s.totalWrites + 1 }

/-- timer.rs 57-59. -/
def count (s : State Txt) : State Txt :=
  if s.elapsed < s.total then { s with elapsed := s.elapsed + 1 / 20, elapsedWrites := s.elapsedWrites + 1 } else s

/-- timer.rs 66. -/
def zero (s : State Txt) : State Txt := { s with elapsed := 0, elapsedWrites := s.elapsedWrites + 1 }

/-- A poll of a loop: it runs until what it awaits is not ready. -/
def poll (fmt : ℚ → Txt) (s : State Txt) : Task → State Txt
  | .meter =>
    match s.meterSeen with
    | none => meterRound s
    | some (a, b) => if a = s.elapsedWrites ∧ b = s.totalWrites then s else meterRound s
  | .slider =>
    if s.sliderRuns then if s.input then readSlider { s with input := false } else s
    else readSlider { s with sliderRuns := true }
  | .interval => if s.intervalRuns then count^[s.ticks] { s with ticks := 0 } else { s with intervalRuns := true }
  | .reset =>
    if s.resetRuns then if s.click then zero { s with click := false } else s else { s with resetRuns := true }
  | .text =>
    match s.textSeen with
    | none => textRound fmt s
    | some a => if a = s.elapsedWrites then s else textRound fmt s

/-- What happens. -/
inductive Event
  | poll (t : Task)
  /-- 50 milliseconds are over. -/
  | tick
  /-- The user moves the slider. -/
  | input (x : ℚ)
  /-- The user presses the button. -/
  | click

/-- An event. `none`: it cannot happen. There are ticks when the interval has been created (54), and no value of the slider
is 0 or less (`set_min`, 24). An event for which nobody is listening yet is lost. -/
def step (fmt : ℚ → Txt) (s : State Txt) : Event → Option (State Txt)
  | .poll t => some (poll fmt s t)
  | .tick => if s.intervalRuns then some { s with ticks := s.ticks + 1 } else none
  | .input x => if 0 < x then some { s with slider := x, input := s.sliderRuns } else none
  | .click => some { s with click := s.resetRuns }

def run (fmt : ℚ → Txt) : State Txt → List Event → Option (State Txt)
  | s, [] => some s
  | s, e :: es => (step fmt s e).bind fun s' => run fmt s' es

/-- After the first poll of the whole component: `join` polls the loops one after the other (30, C12). -/
def mounted (fmt : ℚ → Txt) (blank : Txt) (d : ℚ) : State Txt :=
  [Task.meter, .slider, .interval, .reset, .text].foldl (poll fmt) (init blank d)

/-- What the user and the clock have done has been taken note of. -/
structure Handled (s : State Txt) : Prop where
  slider : s.sliderRuns = true ∧ s.input = false
  interval : s.intervalRuns = true ∧ s.ticks = 0
  reset : s.resetRuns = true ∧ s.click = false

/-- All loops are waiting, and nothing they wait for has happened. -/
structure Idle (s : State Txt) : Prop extends Handled s where
  meter : s.meterSeen = some (s.elapsedWrites, s.totalWrites)
  text : s.textSeen = some s.elapsedWrites

/-! ## The slider -/

namespace Slider

/-- What a range input makes of a value (HTML standard, "value sanitization algorithm" of `type=range`; not code of the
repository): at least `min`, at most `max`, and `min` plus a multiple of the step, which is 1 if it is not set: the nearest
one that is not above `max`, the larger of two. `lo` and `hi` are `min` and `max`. -/
def sanitize (lo hi x : ℚ) : ℚ :=
  let y := min hi (max lo x)
  lo + min ⌊hi - lo⌋ ⌊y - lo + 1 / 2⌋

/-- timer.rs 23-26. -/
def value (x : ℚ) : ℚ := sanitize (1 / 100) 30 x

/-- timer.rs 26. -/
def start : ℚ := value 15

end Slider

/-! ## The specification -/

/-- What the user and the clock do. -/
inductive Act
  | tick | input (x : ℚ) | click

/-- The timer on paper: the time that has passed, and the duration. -/
def after : ℚ × ℚ → List Act → ℚ × ℚ
  | p, [] => p
  | (e, d), .tick :: l => after (if e < d then e + 1 / 20 else e, d) l
  | (e, _), .input x :: l => after (e, x) l
  | (_, d), .click :: l => after (0, d) l

/-- What the user and the clock did in a history. -/
def acts (es : List Event) : List Act :=
  es.filterMap fun
    | .poll _ => none
    | .tick => some .tick
    | .input x => some (.input x)
    | .click => some .click

/-- The durations that the user chose, in order. -/
def durations (l : List Act) : List ℚ :=
  l.filterMap fun
    | .input x => some x
    | _ => none

end Verif.Apps.Timer
