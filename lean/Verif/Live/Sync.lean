import Verif.Live.Every
/-!
# An event is handled before the listener returns (C82)

`async_ui_web_core/src/executor.rs:45-50`: "by then `.preventDefault()` no longer works. So our event handlers call
`run_now` to let the Rust app handle events immediately". The listener of an event stream
(`async_ui_web_html/src/event_handling.rs:106-113`) stores the event, wakes the waker, and calls `run_now`; when it
returns, the browser goes on with the dispatch, and does what the event does by default unless it was prevented.

C51 to C53 and C69 are about the moments when the browser is idle. When `run_now` returns it is not: the timer
that `schedule` has set is still queued. Here the same is shown for the moment when `run_now` returns.
-/
namespace Verif.App
open Verif
section
variable {V S O : Type}

/-- A `run_now` that began when none was running returns in this step. (`run_now` returns at once if nothing is
scheduled; else when a poll of the root future returns.) -/
def Returns (a : App V S O) (e : Event V S O) (a' : App V S O) : Prop :=
  step a e = some a' ∧ a'.ex.active = false ∧ (a.ex.active = true ∨ e = .runNow)

theorem loop_rest {s s' : Exec.St} {o : List Exec.Effect} (h : Exec.loop s = some (s', o)) (ha : s'.active = false)
    (hs : s.active = true) : s'.scheduled = false := by
  simp only [Exec.loop] at h
  split at h
  · split at h
    · cases h
    · split at h
      · cases h; simp only at ha; cases hs.symm.trans ha
      · cases h; rfl
  · next h1 => cases h; simpa using h1

theorem afterExec_some {a a' : App V S O} {r : Exec.Res} (h : afterExec a r = some a') :
    ∃ s o, r = .ok s o ∧ a'.ex = s ∧ a'.sys = a.sys := by
  cases r with
  | ok s o =>
    simp only [afterExec] at h
    split at h <;> cases h <;> exact ⟨_, _, rfl, rfl, rfl⟩
  | _ => cases h

theorem of_some {r : Option (Exec.St × List Exec.Effect)} {s : Exec.St} {o : List Exec.Effect}
    (h : Exec.Res.of r = .ok s o) : r = some (s, o) := by
  cases r with
  | none => cases h
  | some x => cases h; rfl

theorem returned_rest {a a' : App V S O} {m : Prop} {e : Event V S O} (hI : AInv a m) (hr : Returns a e a') :
    a'.ex.scheduled = false ∧ a'.sys.waking = none := by
  obtain ⟨hs, h1, h2⟩ := hr
  have hpush : ∀ (b : App V S O) t, (push b t).ex.active = b.ex.active := fun b t => by
    simp only [push, schedule, Exec.schedule]
    split <;> simp only
    split <;> rfl
  have hwake : ∀ (b : App V S O) t, (wakeTask b t).ex.active = b.ex.active := fun b t => by
    simp only [wakeTask]; split
    · rfl
    · exact hpush _ _
  have hspawn : ∀ (b : App V S O) t, spawn a t = some b → b.ex.active = a.ex.active := fun b t h => by
    simp only [spawn] at h
    split at h
    · cases h
    · split at h
      · cases h; exact hpush _ _
      · split at h
        · next ex o hx =>
          cases h
          rw [hpush]
          simp only [Exec.step] at hx
          split at hx <;> cases hx
          rfl
        · cases h
  have hno : a'.ex.active = a.ex.active → e ≠ .runNow → False := fun h h' => by
    rcases h2 with h2 | h2
    · rw [h, h2] at h1; cases h1
    · exact h' h2
  cases e with
  | mount t =>
    refine (hno ?_ (by simp)).elim
    simp only [step] at hs
    split at hs
    · next b hb =>
      cases hs
      rw [← hspawn b t hb]
      simp only [schedule, Exec.schedule]
      split <;> rfl
    · cases hs
  | spawn t => exact (hno (hspawn _ t hs) (by simp)).elim
  | cancel t => cases hs; exact (hno rfl (by simp)).elim
  | runNow =>
    simp only [step] at hs
    split at hs
    · next hw =>
      obtain ⟨s, o, e1, e2, e3⟩ := afterExec_some hs
      refine ⟨?_, by rw [e3, hw]⟩
      have e1 := of_some e1
      simp only [Exec.runNow] at e1
      split at e1
      · next hx => cases e1; rw [e2] at h1; rw [h1] at hx; cases hx
      · rw [e2] at h1 ⊢; exact loop_rest e1 h1 rfl
    · cases hs
  | timer =>
    simp only [step] at hs
    split at hs
    · next hw =>
      obtain ⟨s, o, e1, e2, e3⟩ := afterExec_some hs
      refine ⟨?_, by rw [e3, hw]⟩
      simp only [Exec.step] at e1
      split at e1
      · cases e1
      · have e1 := of_some e1
        simp only [Exec.runNow] at e1
        split at e1
        · next hx => cases e1; rw [e2] at h1; simp only at h1; rw [h1] at hx; cases hx
        · rw [e2] at h1 ⊢; exact loop_rest e1 h1 rfl
    · cases hs
  | next =>
    refine (hno ?_ (by simp)).elim
    simp only [step] at hs
    split at hs
    · split at hs
      · split at hs
        · cases hs; rfl
        · split at hs <;> cases hs; rfl
      · cases hs
    · cases hs
  | yield =>
    simp only [step] at hs
    split at hs
    · next ht =>
      obtain ⟨s, o, e1, e2, e3⟩ := afterExec_some hs
      simp only [ticking, Bool.and_eq_true, Option.isNone_iff_eq_none] at ht
      refine ⟨?_, by rw [e3]; exact ht.2⟩
      simp only [Exec.step] at e1
      split at e1
      · have e1 := of_some e1
        rw [e2] at h1 ⊢
        refine loop_rest e1 h1 ?_
        have : (schedule a).ex.active = a.ex.active := by simp only [schedule, Exec.schedule]; split <;> rfl
        simp only [this, hI.act, ht.1.1]
      · cases e1
    · cases hs
  | sleep =>
    simp only [step] at hs
    split at hs
    · next ht =>
      obtain ⟨s, o, e1, e2, e3⟩ := afterExec_some hs
      simp only [ticking, Bool.and_eq_true, Option.isNone_iff_eq_none] at ht
      refine ⟨?_, by rw [e3]; exact ht.1.2⟩
      simp only [Exec.step] at e1
      split at e1
      · have e1 := of_some e1
        rw [e2] at h1 ⊢
        refine loop_rest e1 h1 ?_
        simp only [hI.act, ht.1.1.1]
      · cases e1
    · cases hs
  | block b =>
    refine (hno ?_ (by simp)).elim
    cases b with
    | pollTask t => cases hs
    | _ =>
      simp only [step] at hs
      split at hs
      · first
          | (split at hs <;> cases hs <;> first | rfl | exact hwake _ _)
          | (cases hs; rfl)
      · cases hs

/-- The timers that are still queued fire, and nothing happens. -/
theorem timers_fire {n : Nat} : ∀ {a : App V S O}, a.ex.timers = n → a.ex.polling = false → a.ex.active = false →
    a.ex.scheduled = false → a.sys.waking = none →
    run a (List.replicate n .timer) = some { a with ex := { a.ex with timers := 0 } } := by
  induction n with
  | zero =>
    intro a h1 _ _ _ _
    simp only [List.replicate, run, ← h1]
  | succ n ih =>
    intro a h1 h2 h3 h4 h5
    have : step a .timer = some { a with ex := { a.ex with timers := n } } := by
      obtain ⟨⟨i, s, ac, ti, po⟩, f, sl, q, ts, g, sy⟩ := a
      simp only at h1 h2 h3 h4 h5
      subst h1 h2 h3 h4
      simp [step, h5, Exec.step, Exec.runNow, Exec.loop, Exec.Res.of, afterExec]
    simp only [List.replicate_succ, run, this]
    exact ih rfl h2 h3 h4 h5

end
end Verif.App

namespace Verif.Live
open XBow.Data (Data Layer)
section
variable {Z : Source} {V S O : Type}

/-- A `run_now` returns in this step, and the source has called all the wakers it wanted to call. -/
def Returns (w : World Z V S O) (e : App.Event V S O) (w' : World Z V S O) : Prop :=
  step w (.app e) = some w' ∧ App.Returns w.app e w'.app ∧ w'.todo = []

theorem timers_fire {w : World Z V S O} {n : Nat} {a : App.App V S O}
    (h : App.run w.app (List.replicate n .timer) = some a) :
    run w (List.replicate n (.app .timer)) = some { w with app := a } := by
  induction n generalizing w with
  | zero => cases h; rfl
  | succ n ih =>
    simp only [List.replicate_succ, App.run] at h
    simp only [List.replicate_succ, run, step, mayHappen]
    split at h
    · next b hb =>
      simp only [if_true, hb]
      exact ih (w := { w with app := b }) h
    · cases h

/-- When `run_now` returns, the browser is idle but for timers that do nothing. -/
theorem returns_idle {s0 : Z.σ} {es : List (Event Z V S O)} {w w' : World Z V S O} {e : App.Event V S O}
    (h : run (init s0) es = some w) (hr : Returns w e w') :
    ∃ es' w'', run w' es' = some w'' ∧ Idle w'' ∧ w''.hist = w'.hist ∧ w''.src = w'.src ∧
      ∀ k, Awaited w' k → Awaited w'' k := by
  obtain ⟨h1, h2, h3⟩ := hr
  obtain ⟨es', hes', -⟩ := run_app h
  have hI := App.run_ainv App.init_ainv hes'
  obtain ⟨r1, r2⟩ := App.returned_rest hI h2
  have hI' := App.step_ainv hI h2.1
  have hp : w'.app.ex.polling = false := by rw [← hI'.act]; exact h2.2.1
  have ht := timers_fire (App.timers_fire rfl hp h2.2.1 r1 r2)
  refine ⟨List.replicate w'.app.ex.timers (.app .timer), _, ht,
    ⟨⟨hp, rfl, r2⟩, h3⟩, rfl, rfl, ?_⟩
  intro k hk
  exact hk

/-- When `run_now` returns, no future that is awaited has been woken since its latest poll. -/
theorem returns_not_woken {s0 : Z.σ} {es : List (Event Z V S O)} {w w' : World Z V S O} {e : App.Event V S O}
    (h : run (init s0) es = some w) (hm : ∃ t, .app (.mount t) ∈ es) (hr : Returns w e w') {k : Z.Key}
    (hk : Awaited w' k) : Told Z s0 w'.hist w'.src k := by
  obtain ⟨es', w'', r1, r2, r3, r4, r5⟩ := returns_idle h hr
  have := idle_not_woken (run_append (run_append h (es' := [.app e]) (by simp only [run, hr.1])) r1)
    (by obtain ⟨t, ht⟩ := hm; exact ⟨t, by simp [ht]⟩) r2 (r5 k hk)
  rwa [r3, r4] at this

theorem given_kept {w w' : World Z V S O} {es : List (Event Z V S O)} (h : run w es = some w') {m : Nat} {g : Given}
    (hg : w.given[m]? = some g) : w'.given[m]? = some g := by
  induction es generalizing w with
  | nil => cases h; exact hg
  | cons e es ih =>
    simp only [run] at h
    split at h
    · next w1 h1 =>
      refine ih h ?_
      cases e with
      | app e =>
        simp only [step] at h1
        split at h1
        · split at h1 <;> cases h1; exact hg
        · cases h1
      | release k => cases h1; exact hg
      | wake =>
        simp only [step] at h1
        split at h1
        · split at h1
          · split at h1 <;> cases h1; exact hg
          · cases h1; exact hg
        · cases h1
      | op o =>
        simp only [step] at h1
        split at h1
        · cases h1
        · split at h1
          · cases h1; exact hg
          · split at h1
            · split at h1
              · cases h1
                simp only
                rw [List.getElem?_append_left (getElem?_lt hg)]; exact hg
              · cases h1
            · cases h1
    · cases h

end

section
variable {D : Nat → Type} {hash : XBow.Path → BitVec 64} {enc : Layer → XBow.Seg} {V S O : Type}
  {cells : ∀ n, Cell.Sys (D n)} {data : Nat → Data}

/-- A stream that is awaited is still awaited after one more event, unless the event is that it is polled, dropped or
released. -/
theorem step_awaits {w w' : World (fullSource D hash enc) V S O} {e : Event (fullSource D hash enc) V S O}
    (h : step w e = some w') {n i m : Nat}
    (hk : ((⟨.events n, i⟩ : (fullSource D hash enc).Key), m) ∈ w.awaits) (h1 : e ≠ .release ⟨.events n, i⟩)
    (h2 : e ≠ .op ⟨.events n, .drop i⟩) (h3 : ∀ x, e ≠ .op ⟨.events n, .poll i x⟩) :
    ((⟨.events n, i⟩ : (fullSource D hash enc).Key), m) ∈ w'.awaits := by
  cases e with
  | app e =>
    simp only [step] at h
    split at h
    · split at h <;> cases h; exact hk
    · cases h
  | release k => cases h; exact mem_drop.2 ⟨hk, fun hx => h1 (by rw [hx])⟩
  | wake =>
    simp only [step] at h
    split at h
    · split at h
      · split at h <;> cases h; exact hk
      · cases h; exact hk
    · cases h
  | op o =>
    obtain ⟨j, op⟩ := o
    simp only [step] at h
    split at h
    · cases h
    · next s out hs =>
      have hout : ∃ o, out = ⟨j, op, o⟩ := by
        simp only at hs
        split at hs
        · cases hs; exact ⟨_, rfl⟩
        · cases hs
      obtain ⟨o, rfl⟩ := hout
      split at h
      · cases h
        simp only
        split
        · next k' hk' =>
          refine mem_drop.2 ⟨hk, fun hx => ?_⟩
          subst hx
          simp only [Option.map_eq_some_iff] at hk'
          obtain ⟨x, hx1, hx2⟩ := hk'
          cases hx2
          simp only [things] at hx1
          split at hx1
          · cases hx1; exact h2 rfl
          · cases hx1
        · exact hk
      · next k' m' hk' =>
        split at h
        · split at h
          · cases h
            refine List.mem_cons_of_mem _ (mem_drop.2 ⟨hk, fun hx => ?_⟩)
            subst hx
            simp only [Option.map_eq_some_iff] at hk'
            obtain ⟨x, hx1, hx2⟩ := hk'
            cases hx2
            simp only [things] at hx1
            split at hx1
            · cases hx1; exact h3 _ rfl
            · cases hx1
          · cases h
        · cases h

/-- A stream that is awaited is polled, or is given up, or is still awaited. -/
theorem run_awaits {es : List (Event (fullSource D hash enc) V S O)} {w w' : World (fullSource D hash enc) V S O}
    (h : run w es = some w') {n i m : Nat}
    (hk : ((⟨.events n, i⟩ : (fullSource D hash enc).Key), m) ∈ w.awaits) :
    (∃ a x b, es = a ++ .op ⟨.events n, .poll i x⟩ :: b) ∨
    (∃ a e b, es = a ++ e :: b ∧ (e = .release ⟨.events n, i⟩ ∨ e = .op ⟨.events n, .drop i⟩) ∧
      ∀ x, .op ⟨.events n, .poll i x⟩ ∉ a) ∨
    ((⟨.events n, i⟩ : (fullSource D hash enc).Key), m) ∈ w'.awaits := by
  induction es generalizing w with
  | nil => cases h; exact .inr (.inr hk)
  | cons e es ih =>
    by_cases h1 : e = .release ⟨.events n, i⟩
    · exact .inr (.inl ⟨[], e, es, rfl, .inl h1, by simp⟩)
    by_cases h2 : e = .op ⟨.events n, .drop i⟩
    · exact .inr (.inl ⟨[], e, es, rfl, .inr h2, by simp⟩)
    by_cases h3 : ∃ x, e = .op ⟨.events n, .poll i x⟩
    · obtain ⟨x, rfl⟩ := h3
      exact .inl ⟨[], x, es, rfl⟩
    have h3 : ∀ x, e ≠ .op ⟨.events n, .poll i x⟩ := fun x hx => h3 ⟨x, hx⟩
    simp only [run] at h
    split at h
    · next w1 hs =>
      rcases ih h (step_awaits hs hk h1 h2 h3) with ⟨a, x, b, rfl⟩ | ⟨a, e', b, rfl, h4, h5⟩ | h4
      · exact .inl ⟨e :: a, x, b, rfl⟩
      · refine .inr (.inl ⟨e :: a, e', b, rfl, h4, fun x hx => ?_⟩)
        rcases List.mem_cons.1 hx with hx | hx
        · exact h3 x hx.symm
        · exact h5 x hx
      · exact .inr (.inr h4)
    · cases h

theorem run_split {Z : Source} {a b : List (Event Z V S O)} {w w' : World Z V S O} (h : run w (a ++ b) = some w') :
    ∃ w1, run w a = some w1 ∧ run w1 b = some w' := by
  induction a generalizing w with
  | nil => exact ⟨w, rfl, h⟩
  | cons e a ih =>
    simp only [List.cons_append, run] at h ⊢
    split at h
    · next w1 hs => exact ih h
    · cases h

theorem observed_length {H : Events.History} {ops : List Events.Op} : (Events.observed H ops).length = ops.length := by
  induction ops generalizing H with
  | nil => rfl
  | cons op ops ih => simp [Events.observed, ih]

/-- If an unread stream is polled at all, this is what the first poll returns. -/
theorem first_poll {i : Nat} {later : List (Events.Op × Events.Obs)} {H : Events.History} {e : Events.Ev}
    (ho : later.map (·.2) = Events.observed H (later.map (·.1))) (hu : (H.view i).unread = some e)
    {c d : List (Events.Op × Events.Obs)} {x : Nat} {o : Events.Obs} (hl : later = c ++ (.poll i x, o) :: d) :
    ∃ a b k o, later = a ++ (.poll i k, o) :: b ∧ (∀ y ∈ a, ∀ k', y.1 ≠ .poll i k') ∧
      o.polled = some ((e :: Events.delivered i H (a.map (·.1))).getLast?) := by
  have hl' : later = (c ++ [(.poll i x, o)]) ++ d := by simp [hl]
  generalize hc : c ++ [(.poll i x, o)] = c' at hl'
  have ho' : c'.map (·.2) = Events.observed H (c'.map (·.1)) := by
    rw [hl', List.map_append, List.map_append, Events.observed_append] at ho
    exact (List.append_inj ho (by simp [observed_length])).1
  obtain ⟨a, b, k, o', h1, h2, h3⟩ := next_poll ho' hu (by
    subst hc
    simp [Events.History.next, Events.History.upd])
  exact ⟨a, b ++ d, k, o', by rw [hl', h1]; simp, h2, h3⟩

/-- **C82** without events that the app itself dispatches from inside a task (for those it is false,
`nested_event_is_late`): the `run_now` is one that was called while none was running. An event `e` is delivered to the stream `i`, which a block of the task `t` awaits. When a `run_now`
returns after that, as it does before the listener returns and so while the event is still being dispatched: the
stream has been polled, and the first poll returned the event (or the last of those delivered in the meantime), or
it was dropped or left alone without being polled, or the task or the block are gone. -/
theorem event_is_handled_in_time_partial {es1 es2 : List (Event (fullSource D hash enc) V S O)}
    {w1 w2 w3 w4 : World (fullSource D hash enc) V S O} {n i m t : Nat} {g : Given} {l : Events.Listener} {e : Events.Ev}
    {c : App.Event V S O} (h1 : run (init (start cells data)) es1 = some w1) (hm : ∃ t, .app (.mount t) ∈ es1)
    (hk : ((⟨.events n, i⟩ : (fullSource D hash enc).Key), m) ∈ w1.awaits) (hg : w1.given[m]? = some g)
    (h2 : step w1 (.op ⟨.events n, .deliver l e⟩) = some w2)
    (hi : (Events.history (eventOps w1 n)).order[l.callback]? = some i)
    (h3 : run w2 es2 = some w3) (hr : Returns w3 c w4) :
    (∃ a b k o, ofEvents w4 n = ofEvents w2 n ++ (a ++ (.poll i k, o) :: b) ∧ (∀ x ∈ a, ∀ k', x.1 ≠ .poll i k') ∧
      o.polled = some ((e :: Events.delivered i (Events.history (eventOps w2 n)) (a.map (·.1))).getLast?)) ∨
    (∃ a x b, es2 = a ++ x :: b ∧ (x = .release ⟨.events n, i⟩ ∨ x = .op ⟨.events n, .drop i⟩) ∧
      ∀ k, .op ⟨.events n, .poll i k⟩ ∉ a) ∨
    ¬ (App.Alive w4.app t ∧ Nested.PartOf w4.app.sys t g.place) := by
  have hrun2 : run (init (start cells data)) (es1 ++ [.op ⟨.events n, .deliver l e⟩]) = some w2 :=
    run_append h1 (by simp only [run, h2])
  have hrun3 := run_append hrun2 h3
  have h4 : run w2 (es2 ++ [.app c]) = some w4 := run_append h3 (by simp only [run, hr.1])
  have hk2 := step_awaits h2 hk (by simp) (by simp) (by simp)
  have hone : run w1 [.op ⟨.events n, .deliver l e⟩] = some w2 := by simp only [run, h2]
  have hg2 := given_kept hone hg
  rcases run_awaits h3 hk2 with ⟨a, x, b, rfl⟩ | h5 | h5
  · -- it was polled
    obtain ⟨later, hl, hlater, hu⟩ := event_unread h1 h2 hi h4
    obtain ⟨wa, hwa, hb⟩ := run_split (a := a) (b := .op ⟨.events n, .poll i x⟩ :: (b ++ [.app c])) (by simpa using h4)
    simp only [run] at hb
    split at hb
    · next wb hwb =>
      obtain ⟨out, hp⟩ := op_part hwb
      obtain ⟨l1, hl1⟩ := run_part hwa (.events n)
      obtain ⟨l2, hl2⟩ := run_part hb (.events n)
      have hlat : later = l1 ++ (.poll i x, out) :: l2 := by
        have := hl
        simp only [ofEvents] at this
        rw [hl2, hp, hl1] at this
        simpa using this.symm
      obtain ⟨a', b', k, o, e1, e2, e3⟩ := first_poll hlater hu hlat
      exact .inl ⟨a', b', k, o, by rw [hl, e1], e2, e3⟩
    · cases hb
  · exact .inr (.inl h5)
  · -- it is still awaited
    refine or_iff_not_imp_right.2 fun hx => ?_
    have hx := Classical.not_not.1 (not_or.1 hx).2
    have hk4 : Awaited w4 ⟨.events n, i⟩ :=
      ⟨m, g, t, step_awaits hr.1 h5 (by simp) (by simp) (by simp), given_kept h4 hg2, hx.1, hx.2⟩
    obtain ⟨es', w5, r1, r2, r3, -, r5⟩ := returns_idle hrun3 hr
    obtain ⟨a, b, k, o, e1, e2, e3⟩ := event_is_yielded h1 hm h2 hi (run_append h4 r1) r2 (r5 _ hk4)
    refine ⟨a, b, k, o, ?_, e2, e3⟩
    rw [← e1]
    simp only [ofEvents, r3]

end
end Verif.Live
