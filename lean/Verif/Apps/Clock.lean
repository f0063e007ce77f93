import Verif.Apps.ClockModel
import Mathlib.Tactic.Linarith
import Mathlib.Tactic.Ring
import Mathlib.Tactic.FieldSimp
/-!
# C76: the clocks show the time

The specification: the hour, minute and second of a time; what a text of the form `hh:mm:ss` says; where an arm points to that is
rotated by an angle (CSS: clockwise, from the top; in pixels to the right and downward).
-/
namespace Verif.Apps.Clock

/-! ## Specification -/

/-- The time of the day: hour, minute, second. -/
def timeOfDay (t : Nat) : Nat × Nat × Nat :=
  (t / 3600000000000 % 24, t / 60000000000 % 60, t / 1000000000 % 60)

def value (c : Char) : Nat := c.toNat - '0'.toNat

/-- What a text says. -/
def telling : List Char → Option (Nat × Nat × Nat)
  | [a, b, ':', c, d, ':', e, f] => some (10 * value a + value b, 10 * value c + value d, 10 * value e + value f)
  | _ => none

/-- Where something is after a rotation by `deg` degrees that was one above the center. -/
noncomputable def points (deg : ℝ) : ℝ × ℝ := (Real.sin (deg / 180 * Real.pi), -Real.cos (deg / 180 * Real.pi))

/-! ## Digital -/

theorem value_digit (n : Nat) : value (digit n) = n % 10 := by
  have : ∀ m < 10, value (Char.ofNat ('0'.toNat + m)) = m := by decide
  exact this _ (Nat.mod_lt _ (by decide))

/-- The text says the time of the day. -/
theorem telling_format (t : Nat) : telling (format t) = some (timeOfDay t) := by
  simp only [format, two, List.cons_append, List.nil_append, telling, value_digit, timeOfDay, Nat.div_div_eq_div_mul]
  refine congrArg some (Prod.ext ?_ (Prod.ext ?_ ?_)) <;> simp only <;> omega

/-- At the time `t`, the timer is at most `d` late. -/
def Timely (d : Nat) (rs : List Round) (t : Nat) : Prop := ∀ r, rs.getLast? = some r → t ≤ due r + d

theorem shown_last {rs : List Round} {r : Round} {t : Nat} (h : ∀ r ∈ rs, r.text ≤ t) (hl : rs.getLast? = some r) :
    shown rs t = some (format r.text) := by
  rw [shown, List.filter_eq_self.2 (by simpa using h), hl]; rfl

theorem due_bounds (r : Round) : (r.timer / 1000000000 + 1) * 1000000000 ≤ due r ∧
    due r < (r.timer / 1000000000 + 1) * 1000000000 + 1000000 := by
  simp only [due, sleepMs]
  omega

/-- **C76, digital.** As long as timers are at most `d` late, the clock shows the time that it was at most `d` and a
millisecond ago - if the loop has read the time twice in the same second. -/
theorem digital_partial {d t : Nat} {rs : List Round} {r : Round} (hr : Run d rs) (hl : rs.getLast? = some r)
    (hb : ∀ r ∈ rs, r.text ≤ t) (ht : Timely d rs t) (hs : r.text / 1000000000 = r.timer / 1000000000) :
    ∃ t0 x, t0 ≤ t ∧ t ≤ t0 + d + 1000000 ∧ shown rs t = some x ∧ telling x = some (timeOfDay t0) := by
  have h1 := ht r hl
  have h2 := due_bounds r
  have h3 := hb r (List.mem_of_getLast? hl)
  have h4 := hr.reads r (List.mem_of_getLast? hl)
  have key : ∀ t0, t0 / 1000000000 = r.text / 1000000000 → timeOfDay t0 = timeOfDay r.text := by
    intro t0 h0
    simp only [timeOfDay]
    refine Prod.ext ?_ (Prod.ext ?_ ?_) <;> simp only <;> omega
  by_cases hc : t / 1000000000 = r.text / 1000000000
  · exact ⟨t, format r.text, Nat.le_refl _, by omega, shown_last hb hl, by rw [telling_format, key t hc]⟩
  · refine ⟨(r.text / 1000000000 + 1) * 1000000000 - 1, format r.text, by omega, by omega, shown_last hb hl, ?_⟩
    rw [telling_format, key ((r.text / 1000000000 + 1) * 1000000000 - 1) (by omega)]

/-- **C76, without the condition.** The clock is at most a second late, apart from the times it takes. -/
theorem digital_within {d t : Nat} {rs : List Round} {r : Round} (hl : rs.getLast? = some r)
    (hb : ∀ r ∈ rs, r.text ≤ t) (ht : Timely d rs t) :
    ∃ t0 x, t0 ≤ t ∧ t ≤ t0 + (r.timer - r.text) + d + 1000000000 ∧ shown rs t = some x ∧ telling x = some (timeOfDay t0) := by
  have h1 := ht r hl
  have h3 := hb r (List.mem_of_getLast? hl)
  refine ⟨r.text, format r.text, h3, ?_, shown_last hb hl, telling_format _⟩
  simp only [due, sleepMs] at h1
  omega

/-- **C76, no second is left out.** Round number `i` shows the second number `i`. -/
theorem digital_every_second {d : Nat} {rs : List Round} (hr : Run d rs) (hd : d + 1000000 ≤ 1000000000)
    (hs : ∀ r ∈ rs, r.text / 1000000000 = r.timer / 1000000000) {i : Nat} {r0 r : Round} (h0 : rs.head? = some r0)
    (hi : rs[i]? = some r) : r.text / 1000000000 = r0.text / 1000000000 + i := by
  induction i generalizing r with
  | zero =>
    rw [List.head?_eq_getElem?, hi] at h0
    cases h0
    rfl
  | succ i ih =>
    have hlt := (List.getElem?_eq_some_iff.1 hi).1
    have h1 := ih (List.getElem?_eq_getElem (by omega))
    obtain ⟨h2, h3⟩ := List.isChain_iff_getElem.1 hr.chain i hlt
    rw [(List.getElem?_eq_some_iff.1 hi).2] at h2 h3
    have h4 := due_bounds rs[i]
    have h5 := hs rs[i] (List.getElem_mem _)
    omega

/-- **C76 is false without the condition**: if the second ends between the two calls of `now()`, the clock shows the last
second during the whole of the next, although no timer is late. -/
theorem digital_straddles : ∃ rs r t, Run 0 rs ∧ rs.getLast? = some r ∧ (∀ r ∈ rs, r.text ≤ t) ∧ Timely 0 rs t ∧
    r.timer = r.text + 1 ∧ ∀ t0 x, t0 ≤ t → t ≤ t0 + 900000000 → shown rs t = some x → telling x ≠ some (timeOfDay t0) := by
  refine ⟨[⟨10999999999, 11000000000⟩], _, 11950000000, ⟨by simp, by simp⟩, rfl, by simp, ?_, rfl, ?_⟩
  · intro r hr
    cases hr
    decide
  · intro t0 x h1 h2 hx
    have hx : some (format 10999999999) = some x := hx
    cases hx
    rw [telling_format]
    simp only [timeOfDay, ne_eq, Option.some.injEq, Prod.mk.injEq]
    omega

/-- The hypotheses are met: three rounds, the second of them 3 ms late. -/
example : Run 3000000 [⟨500, 600⟩, ⟨1002000000, 1002000001⟩, ⟨2000000001, 2000000002⟩] ∧
    Timely 3000000 [⟨500, 600⟩, ⟨1002000000, 1002000001⟩, ⟨2000000001, 2000000002⟩] 3001000000 ∧
    (∀ r ∈ [(⟨500, 600⟩ : Round), ⟨1002000000, 1002000001⟩, ⟨2000000001, 2000000002⟩],
      r.text / 1000000000 = r.timer / 1000000000) ∧
    shown [⟨500, 600⟩, ⟨1002000000, 1002000001⟩, ⟨2000000001, 2000000002⟩] 3001000000 = some "00:00:02".toList := by
  refine ⟨⟨by decide, ?_⟩, ?_, by decide, by decide⟩
  · simp [Follows, due, sleepMs]
  · intro r hr
    cases hr
    decide

/-! ## Analog -/

theorem points_add (deg : ℝ) (n : ℤ) : points (deg + 360 * n) = points deg := by
  have : (deg + 360 * n) / 180 * Real.pi = deg / 180 * Real.pi + n * (2 * Real.pi) := by ring
  simp only [points, this, Real.sin_add_int_mul_two_pi, Real.cos_add_int_mul_two_pi]

/-- **C76, analog.** The arms go round evenly: once in 12 hours, in an hour, in a minute. -/
theorem analog_arms (s : ℝ) : points (hourAngle s) = points (360 * (s / 43200)) ∧
    points (minuteAngle s) = points (360 * (s / 3600)) ∧ points (secondAngle s) = points (360 * (s / 60)) := by
  refine ⟨?_, ?_, ?_⟩
  · rw [hourAngle, fmod, ← points_add _ ⌊s / 3600 / 12⌋]; congr 1; ring
  · rw [minuteAngle, fmod, ← points_add _ ⌊s / 60 / 60⌋]; congr 1; ring
  · rw [secondAngle, fmod, ← points_add _ ⌊s / 60⌋]; congr 1; ring

/-- An arm is never rotated more than once around. -/
theorem analog_once (s : ℝ) : (0 ≤ hourAngle s ∧ hourAngle s < 360) ∧ (0 ≤ minuteAngle s ∧ minuteAngle s < 360) ∧
    0 ≤ secondAngle s ∧ secondAngle s < 360 := by
  have key : ∀ x y : ℝ, 0 < y → 0 ≤ fmod x y ∧ fmod x y < y := by
    intro x y hy
    have h1 := Int.floor_le (x / y)
    have h2 := Int.lt_floor_add_one (x / y)
    have h3 : y * (x / y) = x := by field_simp
    have h4 := mul_le_mul_of_nonneg_left h1 hy.le
    have h5 := mul_lt_mul_of_pos_left h2 hy
    rw [h3] at h4 h5
    rw [mul_add] at h5
    simp only [fmod]
    constructor <;> linarith
  simp only [hourAngle, minuteAngle, secondAngle]
  have h1 := key (s / 3600) 12 (by norm_num)
  have h2 := key (s / 60) 60 (by norm_num)
  have h3 := key s 60 (by norm_num)
  refine ⟨⟨?_, ?_⟩, ⟨?_, ?_⟩, ?_, ?_⟩ <;> linarith [h1.1, h1.2, h2.1, h2.2, h3.1, h3.2]

/-- **C76, the numbers.** The middle of the number `n`, which is 16 pixels wide and high, is 120 pixels from the middle of the
clock, which is 240 pixels wide and high, in the direction of the hour arm at `n` o'clock. -/
theorem analog_numbers (n : Nat) (h1 : 1 ≤ n) :
    numberLeft (n - 1) + 8 = 120 + 120 * (points (hourAngle (3600 * n))).1 ∧
    numberTop (n - 1) + 8 = 120 + 120 * (points (hourAngle (3600 * n))).2 := by
  rw [(analog_arms _).1]
  have hc : ((n - 1 : Nat) : ℝ) = n - 1 := by rw [Nat.cast_sub h1]; simp
  have ha : numberAngle (n - 1) = -(360 * (3600 * n / 43200) / 180 * Real.pi + Real.pi / 2) - Real.pi := by
    rw [numberAngle, hc]; ring
  simp only [numberLeft, numberTop, points, ha, Real.cos_sub_pi, Real.sin_sub_pi, Real.cos_neg, Real.sin_neg,
    Real.cos_add_pi_div_two, Real.sin_add_pi_div_two]
  constructor <;> ring

/-- **C76, the arms when the app is idle.** They are at the time of the last round, which is not much more than a second ago. -/
theorem analog_within {d t : Nat} {rs : List Round} {r : Round} (hr : Run d rs) (hl : rs.getLast? = some r)
    (hb : ∀ r ∈ rs, r.text ≤ t) (ht : Timely d rs t) :
    r.text ≤ t ∧ t ≤ r.text + (r.timer - r.text) + d + 1000000000 := by
  have h1 := ht r hl
  have h2 := hr.reads r (List.mem_of_getLast? hl)
  simp only [due, sleepMs] at h1
  exact ⟨hb r (List.mem_of_getLast? hl), by omega⟩

/-- At half past two the arms are at 75 and 180 degrees, after 52215 seconds the third is at 90. -/
example : hourAngle 52200 = 75 ∧ minuteAngle 52200 = 180 ∧ secondAngle 52215 = 90 := by
  have f : ∀ (x y : ℝ) (n : ℤ) (z : ℝ), 0 < y → x = y * n + z → 0 ≤ z → z < y → fmod x y = z := by
    intro x y n z hy hx h0 h1
    have : ⌊x / y⌋ = n := by
      rw [Int.floor_eq_iff, hx, add_div, mul_div_cancel_left₀ _ hy.ne']
      exact ⟨by have := div_nonneg h0 hy.le; linarith, by have := (div_lt_one hy).2 h1; linarith⟩
    rw [fmod, this, hx]; ring
  refine ⟨?_, ?_, ?_⟩
  · rw [hourAngle, f _ _ 1 (5 / 2)] <;> norm_num
  · rw [minuteAngle, f _ _ 14 30] <;> norm_num
  · rw [secondAngle, f _ _ 870 15] <;> norm_num

end Verif.Apps.Clock
