import Verif.Exec.Model
/-!
# Property theorems for C09, C10 and C11
-/
namespace Verif.Exec

/-! ### Specification, on traces only -/

/-- After the trace there is a wake-up that no poll start has followed. -/
def Outstanding (tr : List Entry) : Prop :=
  ∃ t1 o t2, tr = t1 ++ (Event.wake, o) :: t2 ∧ ∀ e ∈ t2, Effect.pollStarts ∉ e.2

/-- The future is being polled after the trace: a poll started and did not return. -/
def InPoll (tr : List Entry) : Prop :=
  ∃ t1 e o t2, tr = t1 ++ (e, o) :: t2 ∧ Effect.pollStarts ∈ o ∧
    ∀ e ∈ t2, e.1 ≠ .pollReturns

/-! ### Invariant -/

structure Inv (tr : List Entry) (s : St) : Prop where
  active : s.active = s.polling
  timer : s.scheduled = true → s.polling = false → 0 < s.timers
  out : s.scheduled = true ↔ Outstanding tr
  poll : s.polling = true ↔ InPoll tr

theorem not_outstanding_snoc_poll {tr : List Entry} {e : Event} {o : List Effect}
    (ho : .pollStarts ∈ o) : ¬ Outstanding (tr ++ [(e, o)]) ∨ e = .wake := by
  by_cases he : e = .wake
  · exact .inr he
  · left
    rintro ⟨t1, o', t2, heq, hno⟩
    rcases List.eq_nil_or_concat t2 with rfl | ⟨t2', y, rfl⟩
    · have := List.append_inj_right' heq rfl
      simp at this; exact he this.1
    · rw [List.concat_eq_append] at heq hno
      rw [show t1 ++ (Event.wake, o') :: (t2' ++ [y]) = (t1 ++ (Event.wake, o') :: t2') ++ [y] by simp] at heq
      have := List.append_inj_right' heq rfl
      simp at this
      exact hno y (by simp) (by rw [← this]; exact ho)

theorem outstanding_snoc {tr : List Entry} {e : Event} {o : List Effect}
    (ho : .pollStarts ∉ o) : Outstanding (tr ++ [(e, o)]) ↔ Outstanding tr ∨ e = .wake := by
  constructor
  · rintro ⟨t1, o', t2, heq, hno⟩
    rcases List.eq_nil_or_concat t2 with rfl | ⟨t2', y, rfl⟩
    · have := List.append_inj_right' heq rfl
      simp at this; exact .inr this.1
    · rw [List.concat_eq_append] at heq hno
      rw [show t1 ++ (Event.wake, o') :: (t2' ++ [y]) = (t1 ++ (Event.wake, o') :: t2') ++ [y] by simp] at heq
      have h1 := List.append_inj_left' heq rfl
      exact .inl ⟨t1, o', t2', h1, fun e he => hno e (by simp [he])⟩
  · rintro (⟨t1, o', t2, rfl, hno⟩ | rfl)
    · refine ⟨t1, o', t2 ++ [(e, o)], by simp, ?_⟩
      intro e' he'
      rcases List.mem_append.1 he' with h | h
      · exact hno _ h
      · simp at h; subst h; exact ho
    · exact ⟨tr, o, [], rfl, by simp⟩

theorem inPoll_snoc {tr : List Entry} {e : Event} {o : List Effect} :
    InPoll (tr ++ [(e, o)]) ↔ .pollStarts ∈ o ∨ (InPoll tr ∧ e ≠ .pollReturns) := by
  constructor
  · rintro ⟨t1, e', o', t2, heq, hp, hno⟩
    rcases List.eq_nil_or_concat t2 with rfl | ⟨t2', y, rfl⟩
    · have := List.append_inj_right' heq rfl
      simp at this; exact .inl (by rw [this.2]; exact hp)
    · rw [List.concat_eq_append] at heq hno
      rw [show t1 ++ (e', o') :: (t2' ++ [y]) = (t1 ++ (e', o') :: t2') ++ [y] by simp] at heq
      have h1 := List.append_inj_left' heq rfl
      have h2 := List.append_inj_right' heq rfl
      simp at h2
      refine .inr ⟨⟨t1, e', o', t2', h1, hp, fun e he => hno e (by simp [he])⟩, ?_⟩
      have := hno y (by simp)
      rw [← h2] at this
      exact this
  · rintro (hp | ⟨⟨t1, e', o', t2, rfl, hp, hno⟩, he⟩)
    · exact ⟨tr, e, o, [], rfl, hp, by simp⟩
    · refine ⟨t1, e', o', t2 ++ [(e, o)], by simp, hp, ?_⟩
      intro e' he'
      rcases List.mem_append.1 he' with h | h
      · exact hno _ h
      · simp at h; subst h; exact he

/-- The start: the future has been installed, nothing else has happened. -/
def started : St := { init with installed := true }

theorem Inv.init : Inv [] started := by
  refine ⟨rfl, by simp [started, Exec.init], ?_, ?_⟩
  · simp [started, Exec.init, Outstanding]
  · simp [started, Exec.init, InPoll]

theorem Inv.step {tr : List Entry} {s s' : St} {e : Event} {o : List Effect} (h : Inv tr s)
    (hi : s.installed = true) (hs : step s e = .ok s' o) :
    Inv (tr ++ [(e, o)]) s' ∧ s'.installed = true := by
  obtain ⟨ins, sch, act, tim, pol⟩ := s
  obtain ⟨h1, h2, h3, h4⟩ := h
  simp only at h1 h2 h3 h4 hi
  subst h1 hi
  have key : ∀ (s' : St) (o : List Effect), s'.active = s'.polling →
      (s'.scheduled = true → s'.polling = false → 0 < s'.timers) →
      (.pollStarts ∈ o → s'.scheduled = false ∧ s'.polling = true ∧ e ≠ .wake) →
      (.pollStarts ∉ o → (s'.scheduled = true ↔ (sch = true ∨ e = .wake)) ∧
        (s'.polling = true ↔ act = true ∧ e ≠ .pollReturns)) → Inv (tr ++ [(e, o)]) s' := by
    intro s' o k1 k2 k3 k4
    by_cases ho : .pollStarts ∈ o
    · obtain ⟨k5, k6, k7⟩ := k3 ho
      refine ⟨k1, k2, ?_, ?_⟩
      · rw [k5]
        simp only [Bool.false_eq_true, false_iff]
        exact (not_outstanding_snoc_poll ho).resolve_right k7
      · rw [inPoll_snoc]; simp [k6, ho]
    · obtain ⟨k5, k6⟩ := k4 ho
      refine ⟨k1, k2, ?_, ?_⟩
      · rw [outstanding_snoc ho, k5, h3]
      · rw [inPoll_snoc, k6, h4]; simp [ho]
  cases e <;> cases sch <;> cases act <;>
    simp [Exec.step, Exec.schedule, Exec.runNow, Exec.loop, Res.of] at hs <;>
    first
    | (obtain ⟨rfl, rfl⟩ := hs
       exact ⟨key _ _ (by simp) (by simp_all) (by simp) (by simp), rfl⟩)
    | (split at hs
       · cases hs
       · simp only [Res.ok.injEq] at hs
         obtain ⟨rfl, rfl⟩ := hs
         exact ⟨key _ _ (by simp) (by simp_all) (by simp) (by simp), rfl⟩)

theorem Inv.run {tr : List Entry} {s : St} (h : Run started tr s) :
    Inv tr s ∧ s.installed = true := by
  generalize hs : started = s0 at h
  induction h with
  | nil => subst hs; exact ⟨Inv.init, rfl⟩
  | snoc hr hstep ih =>
    obtain ⟨h1, h2⟩ := ih
    exact h1.step h2 hstep

/-! ### C09 -/

/-- C09. After any sequence of events, if a wake-up has not been followed by the start of a poll,
then either a poll is in progress and the next poll starts as soon as it returns, or a timer is
queued and the poll starts when it (or any other run) fires. -/
theorem wake_not_lost (tr : List Entry) (s : St) (h : Run started tr s) (hw : Outstanding tr) :
    (InPoll tr ∧ ∃ s', step s .pollReturns = .ok s' [.pollStarts]) ∨
    (¬ InPoll tr ∧ 0 < s.timers ∧ (∃ s', step s .timer = .ok s' [.pollStarts]) ∧
      ∃ s', step s .runNow = .ok s' [.pollStarts]) := by
  obtain ⟨⟨h1, h2, h3, h4⟩, h5⟩ := Inv.run h
  obtain ⟨ins, sch, act, tim, pol⟩ := s
  simp only at *
  have hsch := h3.2 hw
  subst h1 hsch h5
  cases act with
  | true => left; exact ⟨h4.1 rfl, by simp [step, loop, Res.of]⟩
  | false =>
    right
    have := h2 rfl rfl
    refine ⟨by rw [← h4]; simp, this, ?_, ?_⟩
    · have : tim ≠ 0 := by omega
      simp [step, runNow, loop, Res.of, this]
    · simp [step, runNow, loop, Res.of]

/-- C09. While no poll starts and no run happens, at most one timer is set, however often the
future is woken. -/
theorem one_timer_per_quiet_period (s0 s : St) (tr : List Entry) (h : Run s0 tr s)
    (hq : ∀ e ∈ tr, e.1 = .wake ∨ e.1 = .install) :
    (tr.flatMap (·.2)).length ≤ 1 ∧ (s0.scheduled = true → tr.flatMap (·.2) = []) := by
  suffices (tr.flatMap (·.2)).length ≤ 1 ∧ (s0.scheduled = true → tr.flatMap (·.2) = []) ∧
      (tr.flatMap (·.2) ≠ [] → s.scheduled = true) ∧ (s0.scheduled = true → s.scheduled = true) by
    exact ⟨this.1, this.2.1⟩
  induction h with
  | nil => simp
  | @snoc tr s' s'' e o hr hstep ih =>
    obtain ⟨i1, i2, i3, i4⟩ := ih (fun e he => hq e (by simp [he]))
    have he := hq (e, o) (by simp)
    simp only at he
    rcases he with rfl | rfl
    · simp only [step, schedule] at hstep
      split at hstep
      · next hc =>
        simp only [Res.ok.injEq] at hstep
        obtain ⟨rfl, rfl⟩ := hstep
        simp only [Bool.and_eq_true, Bool.not_eq_true'] at hc
        have hnil : tr.flatMap (·.2) = [] := by
          apply Classical.byContradiction
          intro hne
          rw [i3 hne] at hc
          simp at hc
        refine ⟨by simp [hnil], ?_, by simp, by simp⟩
        intro h0
        rw [i4 h0] at hc
        simp at hc
      · simp only [Res.ok.injEq] at hstep
        obtain ⟨rfl, rfl⟩ := hstep
        refine ⟨by simpa using i1, by simpa using i2, by simp, by simp⟩
    · simp only [step] at hstep
      split at hstep
      · cases hstep
      · simp only [Res.ok.injEq] at hstep
        obtain ⟨rfl, rfl⟩ := hstep
        refine ⟨by simpa using i1, by simpa using i2, by simpa using i3, by simpa using i4⟩

/-! ### C10 -/

/-- C10. No event starts a poll (or sets a timer) while the future is being polled. Installing
another future from inside a poll panics, nothing else does. -/
theorem never_reentrant (tr : List Entry) (s : St) (h : Run started tr s) (hp : InPoll tr)
    (e : Event) (he : e ≠ .pollReturns) :
    (∀ s' o, step s e = .ok s' o → o = []) ∧
    (step s e = .panic ↔ e = .install) := by
  obtain ⟨⟨h1, h2, h3, h4⟩, h5⟩ := Inv.run h
  obtain ⟨ins, sch, act, tim, pol⟩ := s
  simp only at *
  have hpol := h4.2 hp
  subst h1 hpol h5
  constructor
  · intro s' o hs
    cases e <;> simp [step, schedule, runNow, Res.of] at hs he ⊢ <;> simp_all
  · cases e <;> simp [step, schedule, runNow, Res.of] at he ⊢

/-- C10. Outside of a poll nothing panics. -/
theorem no_panic (tr : List Entry) (s : St) (h : Run started tr s) (hp : ¬ InPoll tr)
    (e : Event) : step s e ≠ .panic := by
  obtain ⟨⟨h1, h2, h3, h4⟩, h5⟩ := Inv.run h
  obtain ⟨ins, sch, act, tim, pol⟩ := s
  simp only at *
  have hpol : pol = false := by
    cases pol with
    | true => exact absurd (h4.1 rfl) hp
    | false => rfl
  subst h1 hpol h5
  cases e <;> cases sch <;> simp [step, schedule, runNow, loop, Res.of]
  all_goals split <;> simp

/-- C10. A nested request to run does nothing: it is absorbed by the run in progress. -/
theorem nested_run_absorbed (tr : List Entry) (s : St) (h : Run started tr s) (hp : InPoll tr) :
    step s .runNow = .ok s [] := by
  obtain ⟨⟨h1, h2, h3, h4⟩, h5⟩ := Inv.run h
  have hpol := h4.2 hp
  rw [hpol] at h1
  simp [step, runNow, h1, Res.of]

/-- C10. When a run ends (a run request or the end of a poll is not followed by a poll), no
wake-up is outstanding. -/
theorem run_drains (tr : List Entry) (s s' : St) (e : Event) (h : Run started tr s)
    (he : e = .runNow ∨ e = .timer ∨ e = .pollReturns) (hs : step s e = .ok s' [])
    (hend : ¬ InPoll (tr ++ [(e, [])])) : ¬ Outstanding (tr ++ [(e, [])]) := by
  have hr := Run.snoc h hs
  obtain ⟨⟨h1, h2, h3, h4⟩, h5⟩ := Inv.run h
  obtain ⟨⟨k1, k2, k3, k4⟩, k5⟩ := Inv.run hr
  rw [← k3]
  have hpol : s'.polling = false := by
    cases hp : s'.polling with
    | true => exact absurd (k4.1 hp) hend
    | false => rfl
  obtain ⟨ins, sch, act, tim, pol⟩ := s
  simp only at *
  subst h1 h5
  have hsch : s'.scheduled = false ∨ s'.polling = true := by
    rcases he with rfl | rfl | rfl <;> cases act <;> cases sch <;>
      simp [step, runNow, loop, Res.of] at hs <;> grind
  rcases hsch with h | h
  · simp [h]
  · rw [hpol] at h; cases h

/-- A run with a wake-up inside a poll, a nested run request, and a timer left over from before. -/
def exTrace : List Entry :=
  [(.wake, [.setTimeout]), (.runNow, [.pollStarts]), (.wake, []), (.runNow, []),
   (.pollReturns, [.pollStarts]), (.pollReturns, []), (.wake, [.setTimeout])]

example : ∃ s, Run started exTrace s ∧ s.timers = 2 ∧ Outstanding exTrace := by
  refine ⟨⟨true, true, false, 2, false⟩, ?_, rfl,
    ⟨exTrace.take 6, [.setTimeout], [], rfl, by simp⟩⟩
  have r1 := Run.snoc (e := .wake) (Run.nil started) rfl
  have r2 := Run.snoc (e := .runNow) r1 rfl
  have r3 := Run.snoc (e := .wake) r2 rfl
  have r4 := Run.snoc (e := .runNow) r3 rfl
  have r5 := Run.snoc (e := .pollReturns) r4 rfl
  have r6 := Run.snoc (e := .pollReturns) r5 rfl
  exact Run.snoc (e := .wake) r6 rfl

/-! ### C11 -/

/-- C11 refuted: schedule, let the timer fire, then install the future. The wake-up has been
consumed: no timer is queued, and a run does not poll. -/
theorem install_after_timer :
    ∃ tr s, Run init tr s ∧ tr.map (·.1) = [.wake, .timer, .install] ∧ s.timers = 0 ∧
      (∀ e ∈ tr, Effect.pollStarts ∉ e.2) ∧ step s .runNow = .ok s [] := by
  refine ⟨[(.wake, [.setTimeout]), (.timer, []), (.install, [])], ⟨true, false, false, 0, false⟩,
    ?_, rfl, rfl, by simp, by decide⟩
  have r1 := Run.snoc (e := .wake) (Run.nil init) rfl
  have r2 := Run.snoc (e := .timer) r1 rfl
  exact Run.snoc (e := .install) r2 rfl

/-- C11 when the future is installed before the timer fires or anything asks for a run: the
poll starts when the timer fires. (`mount_at` installs the future before it calls `schedule`.) -/
theorem install_before_timer_partial (tr : List Entry) (s : St) (h : Run init tr s)
    (hq : ∀ e ∈ tr, e.1 = .wake ∨ e.1 = .install) (hw : ∃ e ∈ tr, e.1 = .wake)
    (hin : ∃ e ∈ tr, e.1 = .install) :
    s.timers = 1 ∧ ∃ s', step s .timer = .ok s' [.pollStarts] := by
  have key : s.active = false ∧ s.polling = false ∧
      (s.scheduled = true ↔ ∃ e ∈ tr, e.1 = .wake) ∧
      (s.installed = true ↔ ∃ e ∈ tr, e.1 = .install) ∧
      s.timers = if s.scheduled then 1 else 0 := by
    clear hw hin
    generalize hs : init = s0 at h
    induction h with
    | nil => subst hs; simp [init]
    | @snoc tr s' s'' e o hr hstep ih =>
      obtain ⟨i1, i2, i3, i4, i5⟩ := ih (fun e he => hq e (by simp [he]))
      have he := hq (e, o) (by simp)
      simp only at he
      obtain ⟨ins, sch, act, tim, pol⟩ := s'
      simp only at *
      subst i1 i2
      rcases he with rfl | rfl
      · cases sch <;> simp [step, schedule] at hstep <;> obtain ⟨rfl, rfl⟩ := hstep <;>
          simp_all
      · simp [step] at hstep
        obtain ⟨rfl, rfl⟩ := hstep
        simp_all
  obtain ⟨k1, k2, k3, k4, k5⟩ := key
  have hsch := k3.2 hw
  have hins := k4.2 hin
  rw [hsch] at k5
  simp at k5
  refine ⟨k5, ?_⟩
  simp [step, runNow, loop, Res.of, k1, k2, hsch, hins, k5]

example : ∃ s, Run init [(.wake, [.setTimeout]), (.install, []), (.wake, [])] s := by
  have r1 := Run.snoc (e := .wake) (Run.nil init) rfl
  have r2 := Run.snoc (e := .install) r1 rfl
  exact ⟨_, Run.snoc (e := .wake) r2 rfl⟩

end Verif.Exec
