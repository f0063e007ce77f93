import Mathlib.Analysis.SpecialFunctions.Trigonometric.Basic
import Mathlib.Algebra.Order.Floor.Ring
/-!
# The clocks of `examples/web-simple-examples/src/clock.rs`

Time is counted in nanoseconds since midnight of some day, in local time. Simplified: the clock of the computer is not
adjusted, and there is no change of the time zone or of daylight saving time. In the analog clock real numbers are used
instead of `f32`.
-/
namespace Verif.Apps.Clock

/-! ## Digital -/

/-- clock.rs 20-26: one round of the loop. `text` is the time when `now()` is called for the text, `timer` when it is called in
`next_second` (15). -/
structure Round where
  text : Nat
  timer : Nat

/-- clock.rs 15: the milliseconds to sleep; `millisecond()` is rounded down. -/
def sleepMs (t : Nat) : Nat := 1000 - t / 1000000 % 1000

/-- When the sleep is over. -/
def due (r : Round) : Nat := r.timer + sleepMs r.timer * 1000000

/-- The next round begins when the sleep is over, at most `d` later. -/
def Follows (d : Nat) (r r' : Round) : Prop := due r ≤ r'.text ∧ r'.text ≤ due r + d

/-- The rounds of the loop so far. -/
structure Run (d : Nat) (rs : List Round) : Prop where
  reads : ∀ r ∈ rs, r.text ≤ r.timer
  chain : rs.IsChain (Follows d)

def digit (n : Nat) : Char := Char.ofNat ('0'.toNat + n % 10)

/-- Two digits. -/
def two (n : Nat) : List Char := [digit (n / 10), digit n]

/-- clock.rs 20, 23: `[hour]:[minute]:[second]`. -/
def format (t : Nat) : List Char :=
  let s := t / 1000000000
  two (s / 3600 % 24) ++ ':' :: two (s / 60 % 60) ++ ':' :: two (s % 60)

/-- The text on the page at the time `t`. -/
def shown (rs : List Round) (t : Nat) : Option (List Char) :=
  (rs.filter (fun r => r.text ≤ t)).getLast?.map fun r => format r.text

/-! ## Analog -/

noncomputable section

/-- `x % y` for numbers that are not negative. -/
def fmod (x y : ℝ) : ℝ := x - y * ⌊x / y⌋

/-- clock.rs 101-103: the angles of the arms in degrees, `s` seconds after midnight. -/
def hourAngle (s : ℝ) : ℝ := fmod (s / 3600) 12 * 30
def minuteAngle (s : ℝ) : ℝ := fmod (s / 60) 60 * 6
def secondAngle (s : ℝ) : ℝ := fmod s 60 * 6

/-- clock.rs 68-70: where the number `i + 1` is: `left` and `top` in pixels. -/
def numberAngle (i : Nat) : ℝ := -(((i : ℝ) + 10) * (Real.pi / 6))
def numberTop (i : Nat) : ℝ := -Real.sin (numberAngle i) * 120 + 120 - 8
def numberLeft (i : Nat) : ℝ := Real.cos (numberAngle i) * 120 + 120 - 8

end
end Verif.Apps.Clock
