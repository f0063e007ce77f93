import Mathlib.Data.List.Perm.Basic
import Verif.Apps.Timer
/-! # C80: what the timer shows -/
namespace Verif.Apps.Timer
variable {Txt : Type} {fmt : ℚ → Txt} {blank : Txt} {s s0 s' : State Txt} {d : ℚ} {es : List Event}

/-! ## Lemmas -/

/-- One tick on paper. -/
def tickOn (d e : ℚ) : ℚ := if e < d then e + 1 / 20 else e

theorem after_append (p : ℚ × ℚ) (l l' : List Act) : after p (l ++ l') = after (after p l) l' := by
  induction l generalizing p with
  | nil => rfl
  | cons a l ih => obtain ⟨e, d⟩ := p; cases a <;> exact ih _

theorem after_ticks (e d : ℚ) (n : Nat) : after (e, d) (List.replicate n .tick) = ((tickOn d)^[n] e, d) := by
  induction n generalizing e with
  | zero => rfl
  | succ n ih => rw [List.replicate_succ, Function.iterate_succ_apply, ← ih]; rfl

theorem after_clicks (e d : ℚ) (n : Nat) (h : n ≠ 0) : after (e, d) (List.replicate n .click) = (0, d) := by
  induction n generalizing e with
  | zero => exact absurd rfl h
  | succ n ih =>
    cases n with
    | zero => rfl
    | succ n => rw [List.replicate_succ]; exact ih 0 (by simp)

theorem after_inputs (e d : ℚ) (l : List ℚ) : after (e, d) (l.map .input) = (e, l.getLast?.getD d) := by
  induction l generalizing d with
  | nil => rfl
  | cons x l ih =>
    rw [List.map_cons, show after (e, d) (Act.input x :: l.map .input) = after (e, x) (l.map .input) from rfl, ih,
      List.getLast?_cons]
    rfl

theorem count_iter (s : State Txt) (n : Nat) : ∃ w, count^[n] s =
    { s with elapsed := (tickOn s.total)^[n] s.elapsed, elapsedWrites := w } ∧ s.elapsedWrites ≤ w ∧
    (w = s.elapsedWrites → (tickOn s.total)^[n] s.elapsed = s.elapsed) := by
  induction n generalizing s with
  | zero => exact ⟨s.elapsedWrites, rfl, le_rfl, fun _ => rfl⟩
  | succ n ih =>
    rw [Function.iterate_succ_apply, Function.iterate_succ_apply]
    by_cases h : s.elapsed < s.total
    · have hc : count s = { s with elapsed := s.elapsed + 1 / 20, elapsedWrites := s.elapsedWrites + 1 } := by
        simp [count, h]
      have ht : tickOn s.total s.elapsed = s.elapsed + 1 / 20 := by simp [tickOn, h]
      obtain ⟨w, h1, h2, h3⟩ := ih (count s)
      rw [hc] at h1 h2 h3
      rw [hc, ht]
      exact ⟨w, h1, by simp at h2; omega, fun hw => by simp at h2; omega⟩
    · have hc : count s = s := by simp [count, h]
      have ht : tickOn s.total s.elapsed = s.elapsed := by simp [tickOn, h]
      rw [hc, ht]
      exact ih s

theorem poll_slider (h : s.sliderRuns = true) :
    poll fmt s .slider = if s.input then readSlider { s with input := false } else s := if_pos h

theorem poll_interval (h : s.intervalRuns = true) :
    poll fmt s .interval = count^[s.ticks] { s with ticks := 0 } := if_pos h

theorem poll_reset (h : s.resetRuns = true) :
    poll fmt s .reset = if s.click then zero { s with click := false } else s := if_pos h

/-- What is true at all times. -/
structure Inv (fmt : ℚ → Txt) (s : State Txt) : Prop where
  meter : ∃ a b, s.meterSeen = some (a, b) ∧ a ≤ s.elapsedWrites ∧ b ≤ s.totalWrites ∧
    (a = s.elapsedWrites → b = s.totalWrites → s.meter = s.elapsed / s.total)
  text : ∃ a, s.textSeen = some a ∧ a ≤ s.elapsedWrites ∧ (a = s.elapsedWrites → s.text = fmt s.elapsed)
  slider : s.sliderRuns = true ∧ (s.input = false → s.total = s.slider)
  interval : s.intervalRuns = true
  reset : s.resetRuns = true
  pos : 0 < s.total ∧ 0 < s.slider

theorem mounted_inv (hd : 0 < d) : Inv fmt (mounted fmt blank d) where
  meter := ⟨0, 0, rfl, le_rfl, Nat.zero_le _, fun _ h => by cases h⟩
  text := ⟨0, rfl, le_rfl, fun _ => rfl⟩
  slider := ⟨rfl, fun _ => rfl⟩
  interval := rfl
  reset := rfl
  pos := ⟨hd, hd⟩

theorem poll_inv (h : Inv fmt s) (t : Task) : Inv fmt (poll fmt s t) := by
  obtain ⟨⟨a, b, m1, m2, m3, m4⟩, ⟨c, t1, t2, t3⟩, ⟨h1, h2⟩, h3, h4, h5⟩ := h
  cases t with
  | meter =>
    simp only [poll, m1]
    split
    · exact ⟨⟨a, b, m1, m2, m3, m4⟩, ⟨c, t1, t2, t3⟩, ⟨h1, h2⟩, h3, h4, h5⟩
    · exact ⟨⟨_, _, rfl, le_rfl, le_rfl, fun _ _ => rfl⟩, ⟨c, t1, t2, t3⟩, ⟨h1, h2⟩, h3, h4, h5⟩
  | text =>
    simp only [poll, t1]
    split
    · exact ⟨⟨a, b, m1, m2, m3, m4⟩, ⟨c, t1, t2, t3⟩, ⟨h1, h2⟩, h3, h4, h5⟩
    · exact ⟨⟨a, b, m1, m2, m3, m4⟩, ⟨_, rfl, le_rfl, fun _ => rfl⟩, ⟨h1, h2⟩, h3, h4, h5⟩
  | slider =>
    rw [poll_slider h1]
    split
    · refine ⟨⟨a, b, m1, m2, Nat.le_succ_of_le m3, fun _ hb => ?_⟩, ⟨c, t1, t2, t3⟩, ⟨h1, fun _ => rfl⟩, h3, h4, h5.2, h5.2⟩
      simp only [readSlider] at hb
      omega
    · exact ⟨⟨a, b, m1, m2, m3, m4⟩, ⟨c, t1, t2, t3⟩, ⟨h1, h2⟩, h3, h4, h5⟩
  | reset =>
    rw [poll_reset h4]
    split
    · refine ⟨⟨a, b, m1, Nat.le_succ_of_le m2, m3, fun ha _ => ?_⟩, ⟨c, t1, Nat.le_succ_of_le t2, fun hc => ?_⟩,
        ⟨h1, h2⟩, h3, h4, h5⟩
      · simp only [zero] at ha; omega
      · simp only [zero] at hc; omega
    · exact ⟨⟨a, b, m1, m2, m3, m4⟩, ⟨c, t1, t2, t3⟩, ⟨h1, h2⟩, h3, h4, h5⟩
  | interval =>
    rw [poll_interval h3]
    obtain ⟨w, w1, w2, w3⟩ := count_iter { s with ticks := 0 } s.ticks
    rw [w1]
    simp only at w2 w3
    refine ⟨⟨a, b, m1, m2.trans w2, m3, fun ha hb => ?_⟩, ⟨c, t1, t2.trans w2, fun hc => ?_⟩, ⟨h1, h2⟩, h3, h4, h5⟩
    · simp only at ha hb ⊢
      rw [w3 (by omega)]
      exact m4 (by omega) hb
    · simp only at hc ⊢
      rw [w3 (by omega)]
      exact t3 (by omega)

theorem step_inv (h : Inv fmt s) {e : Event} (hs : step fmt s e = some s') : Inv fmt s' := by
  cases e with
  | poll t => cases hs; exact poll_inv h t
  | tick =>
    rw [show step fmt s .tick = some { s with ticks := s.ticks + 1 } from if_pos h.interval] at hs
    cases hs
    exact ⟨h.meter, h.text, h.slider, h.interval, h.reset, h.pos⟩
  | input x =>
    simp only [step] at hs
    split at hs
    · rename_i hx
      cases hs
      exact ⟨h.meter, h.text, ⟨h.slider.1, fun hi => by simp [h.slider.1] at hi⟩, h.interval, h.reset, h.pos.1, hx⟩
    · cases hs
  | click =>
    cases hs
    exact ⟨h.meter, h.text, h.slider, h.interval, h.reset, h.pos⟩

theorem run_inv (h : Inv fmt s) (hr : run fmt s es = some s') : Inv fmt s' := by
  induction es generalizing s with
  | nil => cases hr; exact h
  | cons e es ih =>
    obtain ⟨s1, h1, h2⟩ := Option.bind_eq_some_iff.1 hr
    exact ih (step_inv h h1) h2

theorem run_append {es' : List Event} (h : run fmt s es = some s0) (h' : run fmt s0 es' = some s') :
    run fmt s (es ++ es') = some s' := by
  induction es generalizing s with
  | nil => cases h; exact h'
  | cons e es ih =>
    obtain ⟨s1, h1, h2⟩ := Option.bind_eq_some_iff.1 h
    exact Option.bind_eq_some_iff.2 ⟨s1, h1, ih h2⟩

/-- Events so far: those that have been handled, in the order in which they were, and those that have not been. -/
structure Lin (p : ℚ × ℚ) (l : List Act) (s : State Txt) (done : List Act) (ins : List ℚ) (clicks : Nat) : Prop where
  perm : (done ++ (List.replicate s.ticks Act.tick ++ ins.map Act.input ++ List.replicate clicks Act.click)).Perm l
  order : durations done ++ ins = durations l
  value : after p done = (s.elapsed, s.total)
  input : s.input = !ins.isEmpty
  slider : s.slider = ins.getLast?.getD s.total
  click : s.click = (clicks != 0)

theorem durations_append (l l' : List Act) : durations (l ++ l') = durations l ++ durations l' := List.filterMap_append

theorem durations_ticks (n : Nat) : durations (List.replicate n .tick) = [] := by
  simp [durations]

theorem durations_clicks (n : Nat) : durations (List.replicate n .click) = [] := by
  simp [durations]

theorem durations_inputs (l : List ℚ) : durations (l.map .input) = l := by
  induction l with
  | nil => rfl
  | cons x l ih => exact congrArg (x :: ·) ih

theorem lin_step {p : ℚ × ℚ} {l done : List Act} {ins : List ℚ} {k : Nat} (hi : Inv fmt s) (h : Lin p l s done ins k)
    {e : Event} (hs : step fmt s e = some s') : ∃ done' ins' k', Lin p (l ++ acts [e]) s' done' ins' k' := by
  cases e with
  | tick =>
    rw [show step fmt s .tick = some { s with ticks := s.ticks + 1 } from if_pos hi.interval] at hs
    cases hs
    refine ⟨done, ins, k, ?_, ?_, h.value, h.input, h.slider, h.click⟩
    · refine List.Perm.trans ?_ (h.perm.append_right _)
      simp only [acts, List.replicate_succ', List.filterMap_cons, List.filterMap_nil, List.append_assoc]
      refine (List.perm_append_left_iff _).2 ((List.perm_append_left_iff _).2 ?_)
      exact List.perm_append_comm.trans (by simp)
    · rw [durations_append, h.order]; simp [acts, durations]
  | click =>
    cases hs
    refine ⟨done, ins, k + 1, ?_, ?_, h.value, h.input, h.slider, by simp [hi.reset]⟩
    · refine List.Perm.trans ?_ (h.perm.append_right _)
      simp [acts, List.replicate_succ']
    · rw [durations_append, h.order]; simp [acts, durations]
  | input x =>
    simp only [step] at hs
    split at hs
    · cases hs
      refine ⟨done, ins ++ [x], k, ?_, ?_, h.value, by simp [hi.slider.1], by simp, h.click⟩
      · refine List.Perm.trans ?_ (h.perm.append_right _)
        simp only [acts, List.map_append, List.map_cons, List.map_nil, List.filterMap_cons, List.filterMap_nil,
          List.append_assoc]
        refine (List.perm_append_left_iff _).2 ((List.perm_append_left_iff _).2 ((List.perm_append_left_iff _).2 ?_))
        exact List.perm_append_comm
      · rw [durations_append, ← h.order]; simp [acts, durations]
    · cases hs
  | poll t =>
    cases hs
    rw [show acts [Event.poll t] = [] from rfl, List.append_nil]
    cases t with
    | meter =>
      obtain ⟨a, b, m1, -⟩ := hi.meter
      simp only [poll, m1]
      split
      · exact ⟨done, ins, k, h⟩
      · exact ⟨done, ins, k, h.perm, h.order, h.value, h.input, h.slider, h.click⟩
    | text =>
      obtain ⟨a, m1, -⟩ := hi.text
      simp only [poll, m1]
      split
      · exact ⟨done, ins, k, h⟩
      · exact ⟨done, ins, k, h.perm, h.order, h.value, h.input, h.slider, h.click⟩
    | slider =>
      rw [poll_slider hi.slider.1]
      split
      · refine ⟨done ++ ins.map .input, [], k, ?_, ?_, ?_, rfl, rfl, h.click⟩
        · refine List.Perm.trans ?_ h.perm
          simp only [List.append_assoc, List.map_nil, List.nil_append]
          refine (List.perm_append_left_iff _).2 ?_
          rw [← List.append_assoc, ← List.append_assoc]
          exact List.perm_append_comm.append_right _
        · rw [durations_append, durations_inputs, List.append_nil, h.order]
        · rw [after_append, h.value, after_inputs, ← h.slider]; rfl
      · exact ⟨done, ins, k, h⟩
    | reset =>
      rw [poll_reset hi.reset]
      split
      · rename_i hc
        have hk : k ≠ 0 := by simpa using h.click.symm.trans hc
        refine ⟨done ++ List.replicate k .click, ins, 0, ?_, ?_, ?_, h.input, h.slider, rfl⟩
        · refine List.Perm.trans ?_ h.perm
          simp only [List.append_assoc, List.replicate_zero, List.append_nil]
          refine (List.perm_append_left_iff _).2 ?_
          exact List.perm_append_comm.trans (by simp [zero])
        · rw [durations_append, durations_clicks, List.append_nil, h.order]
        · rw [after_append, h.value, after_clicks _ _ _ hk]; rfl
      · exact ⟨done, ins, k, h⟩
    | interval =>
      rw [poll_interval hi.interval]
      obtain ⟨w, w1, -, -⟩ := count_iter { s with ticks := 0 } s.ticks
      rw [w1]
      refine ⟨done ++ List.replicate s.ticks .tick, ins, k, ?_, ?_, ?_, h.input, h.slider, h.click⟩
      · refine List.Perm.trans (by simp) h.perm
      · rw [durations_append, durations_ticks, List.append_nil, h.order]
      · rw [after_append, h.value, after_ticks]

theorem acts_append (l l' : List Event) : acts (l ++ l') = acts l ++ acts l' := List.filterMap_append

theorem lin_run {p : ℚ × ℚ} {l done : List Act} {ins : List ℚ} {k : Nat} (hi : Inv fmt s) (h : Lin p l s done ins k)
    (hr : run fmt s es = some s') : ∃ done' ins' k', Lin p (l ++ acts es) s' done' ins' k' := by
  induction es generalizing s l done ins k with
  | nil => cases hr; exact ⟨done, ins, k, by simpa [acts] using h⟩
  | cons e es ih =>
    obtain ⟨s1, h1, h2⟩ := Option.bind_eq_some_iff.1 hr
    obtain ⟨done', ins', k', h3⟩ := lin_step hi h h1
    obtain ⟨d2, i2, k2, h4⟩ := ih (step_inv hi h1) h3 h2
    refine ⟨d2, i2, k2, ?_⟩
    rw [show e :: es = [e] ++ es from rfl, acts_append, ← List.append_assoc]
    exact h4

/-- The states that the component can be in. -/
def Reach (fmt : ℚ → Txt) (s : State Txt) : Prop :=
  ∃ blank d es, 0 < d ∧ run fmt (mounted fmt blank d) es = some s

theorem reach_inv (h : Reach fmt s) : Inv fmt s := by
  obtain ⟨blank, d, es, hd, hr⟩ := h
  exact run_inv (mounted_inv hd) hr

/-! ## The theorems -/

/-- **C80, what is shown.** Whenever the component is idle, the meter shows which part of the duration on the slider has
passed, and the text how much has passed. -/
theorem timer_idle (h : Reach fmt s) (hi : Idle s) : s.meter = s.elapsed / s.slider ∧ s.text = fmt s.elapsed := by
  have hv := reach_inv h
  obtain ⟨a, b, m1, -, -, m4⟩ := hv.meter
  obtain ⟨c, t1, -, t3⟩ := hv.text
  rw [hi.meter] at m1
  rw [hi.text] at t1
  cases m1; cases t1
  rw [m4 rfl rfl, hv.slider.2 hi.slider.2]
  exact ⟨rfl, t3 rfl⟩

/-- **C80, what has passed.** Between two moments at which all events have been handled, the timer does what it would do on
paper for the same events, each of which counts once. If several of them come before the loops are polled, they may count in
another order; but not what the user does to the slider. -/
theorem timer_events (h : Reach fmt s0) (h0 : Handled s0) (hr : run fmt s0 es = some s) (hs : Handled s) :
    ∃ l, l.Perm (acts es) ∧ durations l = durations (acts es) ∧ after (s0.elapsed, s0.slider) l = (s.elapsed, s.slider) := by
  have hv := reach_inv h
  have hl : Lin (s0.elapsed, s0.slider) [] s0 [] [] 0 :=
    ⟨by simp [h0.interval.2], rfl, by rw [hv.slider.2 h0.slider.2]; rfl, by simp [h0.slider.2],
      by simp [hv.slider.2 h0.slider.2], by simp [h0.reset.2]⟩
  obtain ⟨done, ins, k, h1⟩ := lin_run hv hl hr
  have hins : ins = [] := by have := h1.input; rw [hs.slider.2] at this; simpa using this.symm
  have hk : k = 0 := by have := h1.click; rw [hs.reset.2] at this; simpa using this.symm
  subst hins hk
  have hp := h1.perm
  simp only [hs.interval.2, List.replicate_zero, List.map_nil, List.append_nil, List.nil_append] at hp
  refine ⟨done, hp, by simpa using h1.order, ?_⟩
  rw [h1.value, h1.slider]
  rfl

/-- The component becomes idle between any two events. -/
inductive Calm (fmt : ℚ → Txt) (s : State Txt) : List Act → State Txt → Prop
  | nil : Calm fmt s [] s
  | snoc {l : List Act} {s1 s2 : State Txt} {es : List Event} {a : Act} : Calm fmt s l s1 → run fmt s1 es = some s2 →
      acts es = [a] → Handled s2 → Calm fmt s (l ++ [a]) s2

theorem calm_run {l : List Act} (h : Calm fmt s l s') : ∃ es, run fmt s es = some s' := by
  induction h with
  | nil => exact ⟨[], rfl⟩
  | snoc _ h2 _ _ ih => obtain ⟨es, h1⟩ := ih; exact ⟨_, run_append h1 h2⟩

theorem reach_run (h : Reach fmt s) (hr : run fmt s es = some s') : Reach fmt s' := by
  obtain ⟨blank, d, es', hd, h1⟩ := h
  exact ⟨blank, d, _, hd, run_append h1 hr⟩

/-- **C80, one by one.** If events are handled before the next one comes, as they are in the browser, the timer does exactly
what it would do on paper. -/
theorem timer_exact {l : List Act} (h : Reach fmt s0) (h0 : Handled s0) (hc : Calm fmt s0 l s) :
    (s.elapsed, s.slider) = after (s0.elapsed, s0.slider) l := by
  suffices Handled s ∧ (s.elapsed, s.slider) = after (s0.elapsed, s0.slider) l from this.2
  induction hc with
  | nil => exact ⟨h0, rfl⟩
  | snoc c1 h2 h3 h4 ih =>
    obtain ⟨es, h1⟩ := calm_run c1
    obtain ⟨l', p1, -, p3⟩ := timer_events (reach_run h h1) ih.1 h2 h4
    rw [h3, List.perm_singleton] at p1
    subst p1
    exact ⟨h4, by rw [after_append, ← ih.2, p3]⟩

theorem tickOn_iter (d : ℚ) (n k : Nat) : (tickOn d)^[k] (n / 20) = ((max n (min (n + k) ⌈20 * d⌉₊) : Nat) : ℚ) / 20 := by
  induction k generalizing n with
  | zero => simp
  | succ k ih =>
    rw [Function.iterate_succ_apply]
    have hlt : (n : ℚ) / 20 < d ↔ n < ⌈20 * d⌉₊ := by
      rw [Nat.lt_ceil, div_lt_iff₀ (by norm_num), mul_comm]
    by_cases h : (n : ℚ) / 20 < d
    · have hn := hlt.1 h
      rw [show tickOn d (n / 20) = ((n + 1 : Nat) : ℚ) / 20 by simp [tickOn, h]; ring, ih,
        show max (n + 1) (min (n + 1 + k) ⌈20 * d⌉₊) = max n (min (n + (k + 1)) ⌈20 * d⌉₊) by omega]
    · have hn : ¬ n < ⌈20 * d⌉₊ := fun h' => h (hlt.2 h')
      rw [show tickOn d (n / 20) = (n : ℚ) / 20 by simp [tickOn, h], ih,
        show max n (min (n + k) ⌈20 * d⌉₊) = max n (min (n + (k + 1)) ⌈20 * d⌉₊) by omega]

/-- **C80, how long it runs.** While the user does nothing, every tick adds 0.05 seconds until the duration is reached; then
the timer stands still. It also stands still if more than the duration has passed, and goes on when the user makes the
duration longer. -/
theorem timer_runs {n k : Nat} (h : Reach fmt s0) (h0 : Handled s0) (hn : s0.elapsed = n / 20) (hr : run fmt s0 es = some s)
    (hs : Handled s) (hk : acts es = List.replicate k .tick) :
    s.elapsed = ((max n (min (n + k) ⌈20 * s0.slider⌉₊) : Nat) : ℚ) / 20 ∧ s.slider = s0.slider := by
  obtain ⟨l, p1, -, p3⟩ := timer_events h h0 hr hs
  rw [hk, List.perm_replicate] at p1
  rw [p1, after_ticks, hn, tickOn_iter] at p3
  exact ⟨(Prod.mk.inj p3).1.symm, (Prod.mk.inj p3).2.symm⟩

/-- On paper: what has passed is a whole number of ticks, and less than 0.05 seconds above the longest duration. -/
theorem after_bounds {l : List Act} {e d M : ℚ} (he : ∃ n : Nat, e = n / 20) (hM : e < M + 1 / 20) (hM0 : 0 ≤ M) (hd : d ≤ M)
    (hl : ∀ x ∈ durations l, x ≤ M) : (∃ n : Nat, (after (e, d) l).1 = n / 20) ∧ (after (e, d) l).1 < M + 1 / 20 := by
  induction l generalizing e d with
  | nil => exact ⟨he, hM⟩
  | cons a l ih =>
    cases a with
    | tick =>
      have hl : ∀ x ∈ durations l, x ≤ M := hl
      obtain ⟨n, rfl⟩ := he
      refine ih ?_ ?_ hd hl
      · split
        · exact ⟨n + 1, by push_cast; ring⟩
        · exact ⟨n, rfl⟩
      · split
        · linarith
        · exact hM
    | input x =>
      have hl : ∀ y ∈ x :: durations l, y ≤ M := hl
      exact ih he hM (hl x (.head _)) fun y hy => hl y (.tail _ hy)
    | click =>
      have hl : ∀ x ∈ durations l, x ≤ M := hl
      exact ih ⟨0, by simp⟩ (by linarith) hd hl

/-- **C80, bounds.** At all times what has passed is a whole number of ticks, and it is less than 0.05 seconds above the
longest duration that has been chosen. -/
theorem timer_bounds {M : ℚ} (hd : 0 < d) (hdM : d ≤ M) (hr : run fmt (mounted fmt blank d) es = some s)
    (hM : ∀ x ∈ durations (acts es), x ≤ M) : (∃ n : Nat, s.elapsed = n / 20) ∧ s.elapsed < M + 1 / 20 := by
  have hl : Lin (0, d) [] (mounted fmt blank d) [] [] 0 := ⟨.refl _, rfl, rfl, rfl, rfl, rfl⟩
  obtain ⟨done, ins, k, h1⟩ := lin_run (mounted_inv hd) hl hr
  have := after_bounds (l := done) (e := 0) (d := d) (M := M) ⟨0, by simp⟩ (by linarith) (by linarith) hdM fun x hx =>
    hM x (by have := h1.order; rw [List.nil_append] at this; rw [← this]; exact List.mem_append_left _ hx)
  rw [h1.value] at this
  exact this

theorem polls_inv (h : Inv fmt s) (l : List Task) : Inv fmt (l.foldl (poll fmt) s) := by
  induction l generalizing s with
  | nil => exact h
  | cons t l ih => exact ih (poll_inv h t)

theorem text_polled (hv : Inv fmt s) :
    ∃ x, poll fmt s .text = { s with text := x, textSeen := some s.elapsedWrites } := by
  obtain ⟨a, t1, -⟩ := hv.text
  simp only [poll, t1]
  split
  · rename_i ha; exact ⟨s.text, by rw [show some s.elapsedWrites = s.textSeen by rw [t1, ha]]⟩
  · exact ⟨_, rfl⟩

theorem meter_polled (hv : Inv fmt s) :
    ∃ x, poll fmt s .meter = { s with meter := x, meterSeen := some (s.elapsedWrites, s.totalWrites) } := by
  obtain ⟨a, b, m1, -⟩ := hv.meter
  simp only [poll, m1]
  split
  · rename_i ha; exact ⟨s.meter, by rw [show some (s.elapsedWrites, s.totalWrites) = s.meterSeen by rw [m1, ha.1, ha.2]]⟩
  · exact ⟨_, rfl⟩

theorem handled_polled (hv : Inv fmt s) : Handled ([Task.slider, .interval, .reset].foldl (poll fmt) s) := by
  have v := polls_inv hv [Task.slider, .interval, .reset]
  have v1 := polls_inv hv [Task.slider]
  have v2 := polls_inv hv [Task.slider, .interval]
  simp only [List.foldl_cons, List.foldl_nil] at *
  have h1 : (poll fmt s .slider).input = false := by
    rw [poll_slider hv.slider.1]
    cases hi : s.input <;> simp [readSlider, hi]
  generalize poll fmt s .slider = s1 at *
  have h2 : (poll fmt s1 .interval).input = false ∧ (poll fmt s1 .interval).ticks = 0 := by
    rw [poll_interval v1.interval]
    obtain ⟨w, w1, -⟩ := count_iter { s1 with ticks := 0 } s1.ticks
    rw [w1]
    exact ⟨h1, rfl⟩
  generalize poll fmt s1 .interval = s2 at *
  have h3 : (poll fmt s2 .reset).input = s2.input ∧ (poll fmt s2 .reset).ticks = s2.ticks ∧
      (poll fmt s2 .reset).click = false := by
    rw [poll_reset v2.reset]
    cases hi : s2.click <;> simp [zero, hi]
  exact ⟨⟨v.slider.1, h3.1.trans h2.1⟩, ⟨v.interval, h3.2.1.trans h2.2⟩, v.reset, h3.2.2⟩

/-- **C80, coming to rest.** From wherever it is, the component is idle when the loops have been polled, and those that
show something once more. -/
theorem timer_settles (h : Reach fmt s) :
    Idle ([Task.meter, .slider, .interval, .reset, .text, .meter, .text].foldl (poll fmt) s) := by
  have v1 := poll_inv (reach_inv h) .meter
  have h1 := handled_polled v1
  have v2 := polls_inv v1 [Task.slider, .interval, .reset]
  simp only [List.foldl_cons, List.foldl_nil] at *
  generalize poll fmt (poll fmt (poll fmt (poll fmt s .meter) .slider) .interval) .reset = q at *
  have v3 := poll_inv v2 .text
  have v4 := poll_inv v3 .meter
  obtain ⟨x, e3⟩ := text_polled v2
  rw [e3] at v3 v4 ⊢
  obtain ⟨y, e4⟩ := meter_polled v3
  rw [e4] at v4 ⊢
  obtain ⟨z, e5⟩ := text_polled v4
  rw [e5]
  exact ⟨⟨h1.slider, h1.interval, h1.reset⟩, rfl, rfl⟩

theorem handled_iff (s : State Txt) : Handled s ↔ (s.sliderRuns = true ∧ s.input = false) ∧
    (s.intervalRuns = true ∧ s.ticks = 0) ∧ s.resetRuns = true ∧ s.click = false :=
  ⟨fun h => ⟨h.slider, h.interval, h.reset⟩, fun h => ⟨h.1, h.2.1, h.2.2⟩⟩

/-- **C80, the order.** When a tick and a click come together, either may count first: the timer then is at 0 or at 0.05. -/
theorem timer_order_matters (h : Reach fmt s) (hs : Handled s) :
    (∃ s', run fmt s [.tick, .click, .poll .interval, .poll .reset] = some s' ∧ Handled s' ∧ s'.elapsed = 0) ∧
    ∃ s', run fmt s [.tick, .click, .poll .reset, .poll .interval] = some s' ∧ Handled s' ∧ s'.elapsed = 1 / 20 := by
  have hv := reach_inv h
  have hpos := hv.pos.1
  obtain ⟨⟨a1, a2⟩, ⟨a3, a4⟩, a5, a6⟩ := hs
  obtain ⟨el, tot, ew, tw, sl, me, tx, inp, ti, cl, ms, sr, ir, rr, ts⟩ := s
  simp only at a1 a2 a3 a4 a5 a6 hpos
  subst a1 a2 a3 a4 a5 a6
  constructor
  · by_cases hlt : el < tot <;>
      simp [run, step, poll, count, zero, hlt, handled_iff]
  · simp [run, step, poll, count, zero, hpos, handled_iff]

/-- **C80, the slider.** It offers the durations 0.01, 1.01, and so on up to 29.01, because its step is 1; whatever value is
set or chosen, it has one of them. -/
theorem slider_values (x : ℚ) : ∃ k : Nat, k ≤ 29 ∧ Slider.value x = 1 / 100 + k := by
  have hf : ⌊(30 : ℚ) - 1 / 100⌋ = 29 := by norm_num
  have h0 : 0 ≤ ⌊min 30 (max (1 / 100) x) - 1 / 100 + 1 / 2⌋ := by
    rw [Int.floor_nonneg]
    have : (1 : ℚ) / 100 ≤ min 30 (max (1 / 100) x) := le_min (by norm_num) (le_max_left _ _)
    linarith
  obtain ⟨n, hn⟩ := Int.eq_ofNat_of_zero_le h0
  refine ⟨min 29 n, by omega, ?_⟩
  simp only [Slider.value, Slider.sanitize]
  rw [hf, hn]
  congr 1
  norm_cast

/-- It starts with 15.01, and not with the 15.0 that the program sets. -/
theorem slider_start : Slider.start = 1501 / 100 := by
  norm_num [Slider.start, Slider.value, Slider.sanitize]

/-! ## An example

A second passes, in which the browser is late once; the user shortens the duration to 0.01 seconds, and the timer stands still;
they press the button, and it runs for one tick; then they make the duration longer, and it goes on. -/

def handle : List Event := [.poll .slider, .poll .interval, .poll .reset, .poll .meter, .poll .text]

def day : List Event :=
  List.replicate 3 .tick ++ handle ++ (.tick :: handle) ++ (.input (1 / 100) :: handle) ++ (.tick :: handle) ++
    (.click :: handle) ++ (.tick :: handle) ++ (.tick :: handle) ++ (.input 2 :: handle) ++ (.tick :: handle)

example : (run id (mounted id 0 Slider.start) day).map (fun s => (s.elapsed, s.slider, s.meter, s.text)) =
    some (1 / 10, 2, 1 / 20, 1 / 10) ∧
    after (0, Slider.start) (acts day) = (1 / 10, 2) := by
  rw [slider_start]; decide +kernel

example : Reach id (mounted id 0 Slider.start) ∧ Handled (mounted id 0 Slider.start) :=
  ⟨⟨0, _, [], by rw [slider_start]; norm_num, rfl⟩, ⟨rfl, rfl⟩, ⟨rfl, rfl⟩, rfl, rfl⟩

/-- The hypotheses of `timer_runs`: ten ticks of which only the first counts. -/
example : ∃ s, run id (mounted id 0 (1 / 100)) (List.replicate 10 .tick ++ handle) = some s ∧ Handled s ∧ s.elapsed = 1 / 20 := by
  have h : (run id (mounted id 0 (1 / 100)) (List.replicate 10 .tick ++ handle)).map (fun s => (s.elapsed,
      (s.sliderRuns, s.input), (s.intervalRuns, s.ticks), s.resetRuns, s.click)) =
      some (1 / 20, (true, false), (true, 0), true, false) := by decide +kernel
  obtain ⟨s, h1, h2⟩ := Option.map_eq_some_iff.1 h
  simp only [Prod.mk.injEq] at h2
  exact ⟨s, h1, ⟨h2.2.1, h2.2.2.1, h2.2.2.2⟩, h2.1⟩

end Verif.Apps.Timer
