import Verif.App.Spec
import Verif.Nested.Props
/-!
# Property theorems for C49 and C50
-/
namespace Verif.App
open Verif
variable {V S O : Type}

/-- The invariant, without what concerns the timers; `m`: the app has been mounted. -/
structure Core (a : App V S O) (m : Prop) : Prop where
  inv : ∃ es, Nested.run Nested.init es = some a.sys
  inst : a.tasks ≠ [] → a.ex.installed = true
  unin : a.ex.installed = false → a.fresh = true
  qt : ∀ t ∈ a.queue, t ∈ a.tasks
  freshPoll : a.fresh = true → a.ex.polling = false ∧ a.asleep = false
  sleepy : a.asleep = true → a.queue = [] ∧ a.ex.polling = false
  awake : a.asleep = false → a.ex.polling = false → a.ex.scheduled = true ∨ a.fresh = true
  mounted : m → a.tasks ≠ [] ∧ (a.fresh = true → a.ex.scheduled = true)
  stk : a.sys.stack ≠ [] → a.ex.polling = true
  need : ∀ t, Alive a t → Nested.NeedsPoll (.task t) a.sys.log → t ∈ a.queue

structure AInv (a : App V S O) (m : Prop) : Prop extends Core a m where
  act : a.ex.active = a.ex.polling
  tim : a.ex.scheduled = true → a.ex.polling = false → 0 < a.ex.timers

theorem init_ainv : AInv (init : App V S O) False := by
  refine ⟨⟨⟨[], rfl⟩, ?_, ?_, ?_, ?_, ?_, ?_, ?_, ?_, ?_⟩, rfl, ?_⟩ <;> simp [init, Exec.init, Nested.init, Alive]

theorem schedule_core {a : App V S O} {m : Prop} (h : Core a m) : Core (schedule a) m ∧
    (schedule a).ex.scheduled = true := by
  have e : (Exec.schedule a.ex).1.scheduled = true ∧ (Exec.schedule a.ex).1.polling = a.ex.polling ∧
      (Exec.schedule a.ex).1.installed = a.ex.installed := by
    simp only [Exec.schedule]
    cases a.ex.scheduled <;> cases a.ex.active <;> simp
  obtain ⟨e1, e2, e4⟩ := e
  refine ⟨⟨h.inv, ?_, ?_, h.qt, ?_, ?_, ?_, ?_, ?_, h.need⟩, e1⟩ <;> simp only [schedule, e1, e2, e4]
  · exact h.inst
  · exact h.unin
  · exact h.freshPoll
  · exact h.sleepy
  · intro _ _; exact .inl trivial
  · intro hm; exact ⟨(h.mounted hm).1, fun _ => trivial⟩
  · exact h.stk

theorem schedule_ainv {a : App V S O} {m : Prop} (h : AInv a m) : AInv (schedule a) m ∧
    (schedule a).ex.scheduled = true := by
  obtain ⟨hc, h1⟩ := schedule_core h.toCore
  refine ⟨⟨hc, ?_, ?_⟩, h1⟩
  · have := h.act
    simp only [schedule, Exec.schedule]
    split <;> exact this
  · intro _ hp
    have ha := h.act
    have ht := h.tim
    simp only [schedule, Exec.schedule] at hp ⊢
    cases hs : a.ex.scheduled <;> cases hx : a.ex.active <;> simp_all

/-- What a queued task changes. -/
theorem push_ainv {a : App V S O} {m : Prop} {t : Nat} (h : AInv ({ a with queue := [], tasks := [], gone := [], sys := Nested.init } : App V S O) False)
    (inv : ∃ es, Nested.run Nested.init es = some a.sys) (inst : a.tasks ≠ [] → a.ex.installed = true)
    (mounted : m → a.tasks ≠ [] ∧ (a.fresh = true → a.ex.scheduled = true)) (stk : a.sys.stack ≠ [] → a.ex.polling = true)
    (hq : ∀ t ∈ a.queue, t ∈ a.tasks) (ht : t ∈ a.tasks)
    (hneed : ∀ t', Alive a t' → Nested.NeedsPoll (.task t') a.sys.log → t' ∈ a.queue ++ [t]) :
    AInv (push a t) m := by
  have hqt : ∀ t' ∈ a.queue ++ [t], t' ∈ a.tasks := by
    intro t' ht'
    rcases List.mem_append.1 ht' with h3 | h3
    · exact hq t' h3
    · simp at h3; subst h3; exact ht
  simp only [push]
  split
  · next hs =>
    obtain ⟨h1, h2⟩ := schedule_ainv h
    have e : (Exec.schedule a.ex).1.polling = a.ex.polling ∧ (Exec.schedule a.ex).1.installed = a.ex.installed := by
      simp only [Exec.schedule]
      cases a.ex.scheduled <;> cases a.ex.active <;> simp
    refine ⟨⟨inv, ?_, h1.unin, hqt, ?_, by simp, fun _ _ => .inl h2, ?_, ?_, hneed⟩, h1.act, h1.tim⟩
    · simp only [schedule, e.2]; exact inst
    · intro hf; exact ⟨(h1.freshPoll hf).1, rfl⟩
    · intro hm; exact ⟨(mounted hm).1, fun _ => h2⟩
    · simp only [schedule, e.1]; exact stk
  · next hs =>
    exact ⟨⟨inv, inst, h.unin, hqt, h.freshPoll, fun h' => absurd h' hs, h.awake, mounted, stk, hneed⟩, h.act, h.tim⟩

theorem afterExec_ainv {a a' : App V S O} {m : Prop} {r : Exec.Res} (h : afterExec a r = some a')
    (hr : ∀ ex out, r = .ok ex out → AInv (if .pollStarts ∈ out then { a with ex := ex, fresh := false, asleep := false }
      else { a with ex := ex }) m) : AInv a' m := by
  cases r with
  | ok ex out =>
    have := hr ex out rfl
    simp only [afterExec] at h
    split at h
    · next hp => cases h; rwa [if_pos hp] at this
    · next hp => cases h; rwa [if_neg hp] at this
  | impossible => simp [afterExec] at h
  | panic => simp [afterExec] at h

/-- The loop of the root executor, from its head. -/
theorem loop_ainv {a : App V S O} {m : Prop} {st : Exec.St} (h : Core { a with ex := st } m) (ha : st.active = true)
    (hp : st.polling = false) {r : Exec.Res} (hr : r = Exec.Res.of (Exec.loop st)) (ex : Exec.St) (out : List Exec.Effect)
    (hok : r = .ok ex out) :
    AInv (if .pollStarts ∈ out then { a with ex := ex, fresh := false, asleep := false }
      else { a with ex := ex }) m := by
  obtain ⟨ins, sch, ac, tm, po⟩ := st
  simp only at ha hp
  subst ha hp
  have hstk : a.sys.stack = [] := Classical.byContradiction fun hx => by simpa using h.stk hx
  rw [hr] at hok
  simp only [Exec.loop] at hok
  split at hok
  · next hsc =>
    split at hok
    · next hx => cases hx
    · split at hok
      · next hin =>
        cases hok
        simp only [List.mem_singleton, if_true]
        refine ⟨⟨h.inv, h.inst, ?_, h.qt, by simp, by simp, by simp, ?_, by simp, h.need⟩, rfl, by simp⟩
        · intro hx; simp only at hx hin; rw [hx] at hin; cases hin
        · intro hm; exact ⟨(h.mounted hm).1, by simp⟩
      · next hin =>
        cases hok
        simp only [List.not_mem_nil, if_false]
        have hf := h.unin (by simpa using hin)
        refine ⟨⟨h.inv, h.inst, h.unin, h.qt, ?_, ?_, fun _ _ => .inr hf, ?_, ?_, h.need⟩, rfl, by simp⟩
        · intro _; exact ⟨rfl, (h.freshPoll hf).2⟩
        · intro hs; exact ⟨(h.sleepy hs).1, rfl⟩
        · intro hm
          have := h.inst (h.mounted hm).1
          exact absurd this hin
        · intro hs; exact absurd hstk hs
  · next hsc =>
    cases hok
    simp only [List.not_mem_nil, if_false]
    refine ⟨⟨h.inv, h.inst, h.unin, h.qt, ?_, ?_, ?_, ?_, ?_, h.need⟩, rfl, ?_⟩
    · intro hf; exact ⟨rfl, (h.freshPoll hf).2⟩
    · intro hs; exact ⟨(h.sleepy hs).1, rfl⟩
    · intro hs _; exact h.awake hs rfl
    · intro hm; exact h.mounted hm
    · intro hs; exact absurd hstk hs
    · intro hs; exact absurd hs hsc

theorem Core.congr {a a' : App V S O} {m : Prop} (h : Core a m) (h1 : a'.sys = a.sys) (h2 : a'.tasks = a.tasks)
    (h3 : a'.queue = a.queue) (h4 : a'.gone = a.gone) (h5 : a'.fresh = a.fresh) (h6 : a'.asleep = a.asleep)
    (h7 : a'.ex.installed = a.ex.installed) (h8 : a'.ex.polling = a.ex.polling) (h9 : a'.ex.scheduled = a.ex.scheduled) :
    Core a' m := by
  obtain ⟨⟨ins, sch, ac, tm, po⟩, fr, asl, qu, ta, go, sy⟩ := a
  obtain ⟨⟨ins', sch', ac', tm', po'⟩, fr', asl', qu', ta', go', sy'⟩ := a'
  simp only at h1 h2 h3 h4 h5 h6 h7 h8 h9
  subst h1 h2 h3 h4 h5 h6 h7 h8 h9
  exact ⟨h.inv, h.inst, h.unin, h.qt, h.freshPoll, h.sleepy, h.awake, h.mounted, h.stk, h.need⟩

/-- `run_now`, from the timer or from an event callback. -/
theorem runNow_ainv {a : App V S O} {m : Prop} (h : AInv a m) {st : Exec.St} (hst : st.installed = a.ex.installed)
    (hst2 : st.polling = a.ex.polling) (hst3 : st.scheduled = a.ex.scheduled) (hst4 : st.active = a.ex.active)
    (ht : st.active = true → st.timers = a.ex.timers) (ex : Exec.St) (out : List Exec.Effect)
    (hok : Exec.Res.of (Exec.runNow st) = .ok ex out) :
    AInv (if .pollStarts ∈ out then { a with ex := ex, fresh := false, asleep := false }
      else { a with ex := ex }) m := by
  simp only [Exec.runNow] at hok
  split at hok
  · next hx =>
    cases hok
    simp only [List.not_mem_nil, if_false]
    refine ⟨h.toCore.congr rfl rfl rfl rfl rfl rfl hst hst2 hst3, ?_, ?_⟩
    · simp only [hst4, hst2]; exact h.act
    · simp only [hst3, hst2, ht hx]; exact h.tim
  · next hx =>
    refine loop_ainv (st := { st with active := true }) (h.toCore.congr rfl rfl rfl rfl rfl rfl hst hst2 hst3) rfl ?_ rfl ex out hok
    have := h.act
    rw [← hst4, ← hst2] at this
    simp only
    rw [← this]; simpa using hx

theorem nested_snoc {es : List (Nested.Event V S O)} {s s' : Nested.Sys V S O} {e : Nested.Event V S O}
    (h : Nested.run Nested.init es = some s) (hs : Nested.step s e = some s') :
    ∃ es, Nested.run Nested.init es = some s' :=
  ⟨es ++ [e], by rw [Nested.run_append, h]; simp [Nested.run, hs]⟩

/-- What the events of blocks do to the log and to the stack. -/
theorem block_facts {s s' : Nested.Sys V S O} {e : Nested.Event V S O} (hs : Nested.step s e = some s')
    (he : ∀ t, e ≠ .pollTask t) :
    (∀ t, .returned (.task t) ∈ s.log → .returned (.task t) ∈ s'.log) ∧
    (∀ t, Nested.NeedsPoll (.task t) s'.log → Nested.NeedsPoll (.task t) s.log ∨
      (e = .propagate ∧ s.waking = some (.task t))) ∧
    (s'.stack ≠ [] → s.stack ≠ []) := by
  have hans : ∀ (x : Nested.Sys V S O) id out, ∃ new, (Nested.answer x id out).log = new ++ x.log ∧
      (∀ n ∈ new, (∃ c i, n = .polled (.sub c i)) ∨ ∃ c, n = .yielded c) := by
    intro x id out
    simp only [Nested.answer]
    split
    · exact ⟨[_], rfl, by simp⟩
    · split
      · split
        · exact ⟨[], rfl, by simp⟩
        · split
          · exact ⟨[_], rfl, by simp⟩
          · exact ⟨[], rfl, by simp⟩
      · exact ⟨[], rfl, by simp⟩
  have hobj : ∀ (x x' : Nested.Sys V S O) id ev out, Nested.stepObj x id ev = some (x', out) →
      x'.log = x.log ∧ x'.stack = x.stack := by
    intro x x' id ev out hx
    obtain ⟨o, o', -, -, rfl⟩ := Nested.stepObj_some hx
    exact ⟨rfl, rfl⟩
  have key : ∀ (x x' : Nested.Sys V S O) id ev out, Nested.stepObj x id ev = some (x', out) →
      (∀ t, .returned (.task t) ∈ x.log → .returned (.task t) ∈ (Nested.answer x' id out).log) ∧
      (∀ t, Nested.NeedsPoll (.task t) (Nested.answer x' id out).log → Nested.NeedsPoll (.task t) x.log) := by
    intro x x' id ev out hx
    obtain ⟨h1, h2⟩ := hobj x x' id ev out hx
    obtain ⟨new, h3, h4⟩ := hans x' id out
    rw [h3, h1]
    refine ⟨fun t ht => List.mem_append_right _ ht, ?_⟩
    intro t
    clear h3
    induction new with
    | nil => exact fun h => h
    | cons n new ih =>
      have ih := ih (fun n hn => h4 n (.tail _ hn))
      intro hn
      rcases h4 n (.head _) with ⟨c, i, rfl⟩ | ⟨c, rfl⟩
      · exact ih hn.2
      · exact ih hn
  cases e with
  | pollTask t => exact absurd rfl (he t)
  | create g n =>
    simp only [Nested.step] at hs
    split at hs
    · next f fs hst hw => cases hs; exact ⟨fun _ => id, fun _ => .inl, by simp [hst]⟩
    · cases hs
  | cancel =>
    simp only [Nested.step] at hs
    split at hs
    · next f fs hst hw => cases hs; exact ⟨fun _ => id, fun _ => .inl, id⟩
    · cases hs
  | await =>
    simp only [Nested.step] at hs
    split at hs
    · next f fs hst hw =>
      split at hs
      · split at hs
        · next s1 out h1 =>
          cases hs
          obtain ⟨k1, k2⟩ := key _ _ _ _ _ h1
          exact ⟨k1, fun t ht => .inl (k2 t ht), by simp [hst]⟩
        · cases hs
      · cases hs
    · cases hs
  | ret r =>
    simp only [Nested.step] at hs
    split at hs
    · next f fs hst hw =>
      split at hs
      · generalize hs0 : (if r.isSome = true then
          { s with child := Nested.update s.child f.place none, log := .returned f.place :: s.log } else s) = s0 at hs
        have k0 : (∀ t, .returned (.task t) ∈ s.log → .returned (.task t) ∈ s0.log) ∧
            (∀ t, Nested.NeedsPoll (.task t) s0.log → Nested.NeedsPoll (.task t) s.log) := by
          subst hs0
          cases r.isSome
          · exact ⟨fun _ => id, fun _ => id⟩
          · exact ⟨fun t ht => .tail _ ht, fun t ht => ht⟩
        split at hs
        · split at hs
          · next s1 out h1 =>
            cases hs
            obtain ⟨k1, k2⟩ := key _ _ _ _ _ h1
            exact ⟨fun t ht => k1 t (k0.1 t ht), fun t ht => .inl (k0.2 t (k2 t ht)), by simp [hst]⟩
          · cases hs
        · cases hs
        · cases hs; exact ⟨k0.1, fun t ht => .inl (k0.2 t ht), by simp [hst]⟩
      · cases hs
    · cases hs
  | newList limit =>
    simp only [Nested.step] at hs
    split at hs
    · cases hs; exact ⟨fun _ => id, fun _ => .inl, id⟩
    · cases hs
  | insert c =>
    simp only [Nested.step] at hs
    split at hs
    · cases hs; exact ⟨fun _ h => .tail _ h, fun _ => .inl, id⟩
    · cases hs
  | remove c i =>
    simp only [Nested.step] at hs
    split at hs
    · split at hs
      · split at hs <;> (cases hs; exact ⟨fun _ => id, fun _ => .inl, id⟩)
      · cases hs
    · cases hs
  | render c =>
    simp only [Nested.step] at hs
    split at hs
    · next f fs l hst hw ho =>
      split at hs
      · cases hs; exact ⟨fun _ => id, fun _ => .inl, by simp [hst]⟩
      · cases hs
    · cases hs
  | wake p =>
    simp only [Nested.step] at hs
    split at hs
    · cases hs; exact ⟨fun _ => id, fun _ => .inl, id⟩
    · cases hs
  | propagate =>
    simp only [Nested.step] at hs
    split at hs
    · cases hs
    · next t hw =>
      cases hs
      refine ⟨fun t ht => .tail _ ht, ?_, id⟩
      rintro t' (ht | ht)
      · cases ht; exact .inr ⟨rfl, hw⟩
      · exact .inl ht
    · next id i hw =>
      split at hs
      · next s1 out h1 =>
        cases hs
        obtain ⟨e1, e2⟩ := hobj _ _ _ _ _ h1
        refine ⟨?_, ?_, ?_⟩
        · intro t ht; simp only [e1]; exact .tail _ ht
        · intro t ht
          simp only [e1] at ht
          rcases ht with ht | ht
          · cases ht
          · exact .inl ht
        · simp only [e2]; exact fun h => h
      · cases hs

theorem spawn_ainv {a a' : App V S O} {m : Prop} (h : AInv a m) {t : Nat} (hs : spawn a t = some a') :
    AInv a' m ∧ t ∈ a'.tasks := by
  have key : ∀ ex : Exec.St, ex.installed = true → ex.polling = a.ex.polling → ex.scheduled = a.ex.scheduled →
      ex.active = a.ex.active → ex.timers = a.ex.timers →
      AInv (push { a with ex := ex, tasks := t :: a.tasks } t) m ∧ t ∈ (push { a with ex := ex, tasks := t :: a.tasks } t).tasks := by
    intro ex e1 e2 e3 e4 e5
    refine ⟨?_, ?_⟩
    · refine push_ainv ⟨⟨⟨[], rfl⟩, by simp, ?_, by simp, ?_, ?_, ?_, by simp, by simp [Nested.init], by simp [Alive]⟩, ?_, ?_⟩
        h.inv (fun _ => e1) ?_ ?_ ?_ (.head _) ?_
      · simp [e1]
      · simp only [e2]; exact h.freshPoll
      · simp only [e2]; exact fun hs => ⟨trivial, (h.sleepy hs).2⟩
      · simp only [e2, e3]; exact h.awake
      · simp only [e2, e4]; exact h.act
      · simp only [e2, e3, e5]; exact h.tim
      · intro hm
        simp only [e3]
        exact ⟨by simp, (h.mounted hm).2⟩
      · simp only [e2]; exact h.stk
      · intro t' ht'; exact .tail _ (h.qt t' ht')
      · intro t' ⟨h1, h2, h3⟩ hn
        rcases List.mem_cons.1 h1 with rfl | h1
        · simp
        · exact List.mem_append_left _ (h.need t' ⟨h1, h2, h3⟩ hn)
    · simp only [push]
      split
      · exact .head _
      · exact .head _
  simp only [spawn] at hs
  split at hs
  · cases hs
  · split at hs
    · next hi =>
      cases hs
      exact key a.ex hi rfl rfl rfl rfl
    · split at hs
      · next ex out hx =>
        cases hs
        simp only [Exec.step] at hx
        split at hx
        · cases hx
        · cases hx
          exact key _ rfl rfl rfl rfl rfl
      · cases hs

theorem step_ainv {a a' : App V S O} {m : Prop} (h : AInv a m) {e : Event V S O} (hs : step a e = some a') :
    AInv a' (m ∨ ∃ t, e = .mount t) := by
  have weak : ∀ {x : App V S O}, (∀ t, e ≠ .mount t) → AInv x m → AInv x (m ∨ ∃ t, e = .mount t) := by
    intro x hne hx
    refine ⟨⟨hx.inv, hx.inst, hx.unin, hx.qt, hx.freshPoll, hx.sleepy, hx.awake, ?_, hx.stk, hx.need⟩, hx.act, hx.tim⟩
    rintro (hm | ⟨t, ht⟩)
    · exact hx.mounted hm
    · exact absurd ht (hne t)
  have htick : ticking a = true → a.ex.polling = true ∧ a.sys.stack = [] ∧ a.sys.waking = none := by
    simp only [ticking, Bool.and_eq_true, List.isEmpty_iff, Option.isNone_iff_eq_none]
    exact fun ⟨⟨h1, h2⟩, h3⟩ => ⟨h1, h2, h3⟩
  cases e with
  | mount t =>
    simp only [step] at hs
    split at hs
    · next a1 h1 =>
      cases hs
      obtain ⟨k1, k2⟩ := spawn_ainv h h1
      obtain ⟨k3, k4⟩ := schedule_ainv k1
      refine ⟨⟨k3.inv, k3.inst, k3.unin, k3.qt, k3.freshPoll, k3.sleepy, k3.awake, ?_, k3.stk, k3.need⟩, k3.act, k3.tim⟩
      intro _
      refine ⟨?_, fun _ => k4⟩
      show a1.tasks ≠ []
      exact List.ne_nil_of_mem k2
    · cases hs
  | spawn t => exact weak (by simp) (spawn_ainv h hs).1
  | cancel t =>
    cases hs
    refine weak (by simp) ⟨⟨h.inv, h.inst, h.unin, h.qt, h.freshPoll, h.sleepy, h.awake, h.mounted, h.stk, ?_⟩, h.act, h.tim⟩
    intro t' ⟨h1, h2, h3⟩ hn
    exact h.need t' ⟨h1, fun hm => h2 (.tail _ hm), h3⟩ hn
  | runNow =>
    simp only [step] at hs
    split at hs
    · exact weak (by simp) (afterExec_ainv hs fun ex out hok => runNow_ainv h rfl rfl rfl rfl (fun _ => rfl) ex out hok)
    · cases hs
  | timer =>
    simp only [step] at hs
    split at hs
    · refine weak (by simp) (afterExec_ainv hs fun ex out hok => ?_)
      simp only [Exec.step] at hok
      split at hok
      · cases hok
      · next hc =>
        refine runNow_ainv h (st := { a.ex with timers := a.ex.timers - 1 }) rfl rfl rfl rfl ?_ ex out hok
        intro hac
        simp only [Bool.or_eq_true, not_or, Bool.not_eq_true] at hc
        have := h.act
        simp only at hac
        rw [hac, hc.1] at this
        cases this
    · cases hs
  | next =>
    simp only [step] at hs
    split at hs
    · next hk =>
      obtain ⟨t1, t2, t3⟩ := htick hk
      split at hs
      · next t q hq =>
        split at hs
        · next hg =>
          cases hs
          refine weak (by simp) ⟨⟨h.inv, h.inst, h.unin, ?_, h.freshPoll, ?_, h.awake, h.mounted, h.stk, ?_⟩, h.act, h.tim⟩
          · intro t' ht'; exact h.qt t' (by rw [hq]; exact .tail _ ht')
          · intro hsl
            have := (h.sleepy hsl).2
            rw [t1] at this; cases this
          · intro t' hal hn
            have := h.need t' hal hn
            rw [hq] at this
            rcases List.mem_cons.1 this with rfl | h1
            · exact absurd hg hal.2.1
            · exact h1
        · split at hs
          · next s hst =>
            cases hs
            obtain ⟨es, hes⟩ := h.inv
            have hsnoc := nested_snoc hes hst
            simp only [Nested.step, t2, t3, and_self, if_true] at hst
            cases hst
            refine weak (by simp) ⟨⟨hsnoc, h.inst, h.unin, ?_, h.freshPoll, ?_, h.awake, h.mounted, ?_, ?_⟩, h.act, h.tim⟩
            · intro t' ht'; exact h.qt t' (by rw [hq]; exact .tail _ ht')
            · intro hsl
              have := (h.sleepy hsl).2
              rw [t1] at this; cases this
            · intro _; exact t1
            · intro t' ⟨h1, h2, h3⟩ hn
              have := h.need t' ⟨h1, h2, fun hm => h3 (.tail _ hm)⟩ hn.2
              rw [hq] at this
              rcases List.mem_cons.1 this with rfl | h1
              · exact absurd rfl hn.1
              · exact h1
          · cases hs
      · cases hs
    · cases hs
  | yield =>
    simp only [step] at hs
    split at hs
    · next hk =>
      obtain ⟨t1, t2, t3⟩ := htick hk
      obtain ⟨k1, k2⟩ := schedule_ainv h
      have hpo : (schedule a).ex.polling = true := by
        simp only [schedule, Exec.schedule]; split <;> exact t1
      refine weak (by simp) (afterExec_ainv hs fun ex out hok => ?_)
      simp only [Exec.step, hpo, if_true] at hok
      refine loop_ainv (a := schedule a) (st := { (schedule a).ex with polling := false }) ?_ ?_ rfl rfl ex out hok
      · refine ⟨k1.inv, k1.inst, k1.unin, k1.qt, ?_, ?_, ?_, k1.mounted, ?_, k1.need⟩
        · intro hf; exact ⟨rfl, (k1.freshPoll hf).2⟩
        · intro hsl; exact ⟨(k1.sleepy hsl).1, rfl⟩
        · intro _ _; exact .inl k2
        · intro hx; exact absurd t2 hx
      · simp only; rw [k1.act]; exact hpo
    · cases hs
  | sleep =>
    simp only [step] at hs
    split at hs
    · next hk =>
      simp only [Bool.and_eq_true, List.isEmpty_iff] at hk
      obtain ⟨t1, t2, t3⟩ := htick hk.1
      refine weak (by simp) (afterExec_ainv hs fun ex out hok => ?_)
      simp only [Exec.step, t1, if_true] at hok
      refine loop_ainv (a := { a with asleep := true }) (st := { a.ex with polling := false }) ?_ ?_ rfl rfl ex out hok
      · refine ⟨h.inv, h.inst, h.unin, h.qt, ?_, ?_, by simp, h.mounted, ?_, h.need⟩
        · intro hf
          have := (h.freshPoll hf).1
          rw [t1] at this; cases this
        · intro _; exact ⟨hk.2, rfl⟩
        · intro hx; exact absurd t2 hx
      · simp only; rw [h.act]; exact t1
    · cases hs
  | block e =>
    refine weak (by simp) ?_
    have main : ∀ s, (∀ t, e ≠ .pollTask t) → Nested.step a.sys e = some s →
        ((∀ t, ¬ (e = .propagate ∧ a.sys.waking = some (.task t))) → AInv { a with sys := s } m) ∧
        (∀ t, a.sys.waking = some (.task t) → e = .propagate → AInv (wakeTask { a with sys := s } t) m) := by
      intro s he hst
      obtain ⟨es, hes⟩ := h.inv
      have hsnoc := nested_snoc hes hst
      obtain ⟨b1, b2, b3⟩ := block_facts hst he
      have hstk : s.stack ≠ [] → a.ex.polling = true := fun hx => h.stk (b3 hx)
      refine ⟨fun hno => ⟨⟨hsnoc, h.inst, h.unin, h.qt, h.freshPoll, h.sleepy, h.awake, h.mounted, hstk, ?_⟩, h.act, h.tim⟩, ?_⟩
      · intro t ⟨h1, h2, h3⟩ hn
        rcases b2 t hn with hn | hn
        · exact h.need t ⟨h1, h2, fun hm => h3 (b1 t hm)⟩ hn
        · exact absurd hn (hno t)
      · intro t hw hp
        have hneed : ∀ t', t' ≠ t → Alive { a with sys := s } t' → Nested.NeedsPoll (.task t') s.log → t' ∈ a.queue := by
          intro t' hne ⟨h1, h2, h3⟩ hn
          rcases b2 t' hn with hn | ⟨-, hn⟩
          · exact h.need t' ⟨h1, h2, fun hm => h3 (b1 t' hm)⟩ hn
          · rw [hw] at hn; cases hn; exact absurd rfl hne
        simp only [wakeTask]
        split
        · next hc =>
          refine ⟨⟨hsnoc, h.inst, h.unin, h.qt, h.freshPoll, h.sleepy, h.awake, h.mounted, hstk, ?_⟩, h.act, h.tim⟩
          intro t' hal hn
          by_cases hne : t' = t
          · subst hne
            rcases hc with hc | hc | hc | hc
            · exact hc
            · exact absurd hal.1 hc
            · exact absurd hc hal.2.1
            · exact absurd hc hal.2.2
          · exact hneed t' hne hal hn
        · next hc =>
          simp only [not_or, Classical.not_not] at hc
          refine push_ainv ⟨⟨⟨[], rfl⟩, by simp, h.unin, by simp, h.freshPoll, fun hsl => ⟨rfl, (h.sleepy hsl).2⟩, h.awake,
            by simp, by simp [Nested.init], by simp [Alive]⟩, h.act, h.tim⟩ hsnoc h.inst h.mounted hstk h.qt hc.2.1 ?_
          intro t' hal hn
          by_cases hne : t' = t
          · subst hne; simp
          · exact List.mem_append_left _ (hneed t' hne hal hn)
    cases e with
    | pollTask t => simp [step] at hs
    | propagate =>
      simp only [step] at hs
      split at hs
      · next s hst =>
        obtain ⟨m1, m2⟩ := main s (by simp) hst
        split at hs
        · next t _ hw => cases hs; exact m2 t hw rfl
        · next hno => cases hs; exact m1 (fun t ht => hno t rfl ht.2)
      · cases hs
    | _ =>
      simp only [step] at hs
      split at hs
      · next s hst => cases hs; exact (main s (by simp) hst).1 (by simp)
      · cases hs

theorem run_ainv {a a' : App V S O} {m : Prop} (h : AInv a m) {es : List (Event V S O)} (hs : run a es = some a') :
    AInv a' (m ∨ ∃ t, .mount t ∈ es) := by
  induction es generalizing a m with
  | nil => cases hs; simpa using h
  | cons e es ih =>
    simp only [run] at hs
    split at hs
    · next a1 h1 =>
      have := ih (step_ainv h h1) hs
      have he : ((m ∨ ∃ t, e = .mount t) ∨ ∃ t, .mount t ∈ es) ↔ (m ∨ ∃ t, .mount t ∈ e :: es) := by
        rw [or_assoc]
        refine or_congr_right ?_
        simp only [List.mem_cons, exists_or]
        exact or_congr_left ⟨fun ⟨t, h⟩ => ⟨t, h.symm⟩, fun ⟨t, h⟩ => ⟨t, h.symm⟩⟩
      rwa [he] at this
    · cases hs

/-- **C49.** In an app that has been mounted: whenever the browser is idle, no part of any task, however
deep, waits to be polled. So whatever is woken is polled (or gone) before the browser is idle. -/
theorem app_idle_nothing_waits (es : List (Event V S O)) (a : App V S O) (h : run init es = some a)
    (hm : ∃ t, .mount t ∈ es) (hidle : Idle a) (t : Nat) (ht : Alive a t) (p : Nested.Place)
    (hp : Nested.PartOf a.sys t p) : ¬ Nested.NeedsPoll p a.sys.log := by
  intro hn
  have hI := run_ainv init_ainv h
  obtain ⟨es', hes⟩ := hI.inv
  obtain ⟨i1, i2, i3⟩ := hidle
  have hstk : a.sys.stack = [] := Classical.byContradiction fun hx => by
    have := hI.stk hx
    rw [i1] at this; cases this
  have hq := hI.need t ht (Nested.nested_wake_reaches_task es' a.sys hes ⟨hstk, i3⟩ t p hp hn)
  have hsch : a.ex.scheduled = true := by
    cases hsl : a.asleep with
    | true =>
      have := (hI.sleepy hsl).1
      rw [this] at hq; cases hq
    | false =>
      rcases hI.awake hsl i1 with h1 | h1
      · exact h1
      · exact (hI.mounted (.inr hm)).2 h1
  have := hI.tim hsch i1
  omega

/-- The app never panics by running the executor while it is running, or by installing it twice. -/
theorem app_no_executor_panic (es : List (Event V S O)) (a : App V S O) (h : run init es = some a) :
    Exec.step a.ex .runNow ≠ .panic ∧ Exec.step a.ex .timer ≠ .panic ∧ Exec.step a.ex .pollReturns ≠ .panic ∧
      (a.ex.installed = false → Exec.step a.ex .install ≠ .panic) := by
  have hI := run_ainv init_ainv h
  have ha := hI.act
  have hu := hI.unin
  have hf := hI.freshPoll
  obtain ⟨⟨ins, sch, ac, tm, po⟩, fr, asl, qu, ta, go, sy⟩ := a
  simp only at ha hu hf
  subst ha
  refine ⟨?_, ?_, ?_, ?_⟩
  · cases ins <;> cases sch <;> cases ac <;> simp [Exec.step, Exec.runNow, Exec.loop, Exec.Res.of]
  · simp only [Exec.step]
    split
    · simp
    · next hc =>
      simp only [Bool.or_eq_true, not_or, Bool.not_eq_true] at hc
      obtain ⟨rfl, -⟩ := hc
      cases ins <;> cases sch <;> simp [Exec.runNow, Exec.loop, Exec.Res.of]
  · cases ins <;> cases sch <;> cases ac <;> simp [Exec.step, Exec.loop, Exec.Res.of]
  · intro hi
    have := (hf (hu hi)).1
    simp [Exec.step, this]

/-- Without a mount nothing is ever polled. -/
structure Dead (a : App V S O) : Prop where
  sch : a.ex.scheduled = false
  pol : a.ex.polling = false
  slp : a.asleep = false
  tim : a.ex.timers = 0
  stk : a.sys.stack = []
  log : ∀ p, .polled p ∉ a.sys.log

theorem dead_push {a : App V S O} (h : Dead a) (t : Nat) : Dead (push a t) := by
  simp only [push, h.slp, Bool.false_eq_true, if_false]
  exact ⟨h.sch, h.pol, rfl, h.tim, h.stk, h.log⟩

theorem dead_spawn {a a' : App V S O} (h : Dead a) {t : Nat} (hs : spawn a t = some a') : Dead a' := by
  simp only [spawn] at hs
  split at hs
  · cases hs
  · split at hs
    · cases hs; exact dead_push (a := { a with tasks := t :: a.tasks }) ⟨h.sch, h.pol, h.slp, h.tim, h.stk, h.log⟩ t
    · split at hs
      · next ex out hx =>
        cases hs
        simp only [Exec.step, h.pol, Bool.false_eq_true, if_false] at hx
        cases hx
        refine dead_push ?_ t
        exact ⟨h.sch, rfl, h.slp, h.tim, h.stk, h.log⟩
      · cases hs

theorem dead_runNow {a a' : App V S O} (h : Dead a) (hs : afterExec a (Exec.step a.ex .runNow) = some a') : Dead a' := by
  obtain ⟨⟨ins, sch, ac, tm, po⟩, fr, asl, qu, ta, go, sy⟩ := a
  obtain ⟨h1, h2, h3, h4, h5, h6⟩ := h
  simp only at h1 h2 h3 h4 h5 h6
  subst h1 h2 h3 h4
  cases ac <;> simp [Exec.step, Exec.runNow, Exec.loop, Exec.Res.of, afterExec] at hs <;> subst hs <;>
    exact ⟨rfl, rfl, rfl, rfl, h5, h6⟩

theorem dead_step {a a' : App V S O} (h : Dead a) {e : Event V S O} (he : ∀ t, e ≠ .mount t)
    (hs : step a e = some a') : Dead a' := by
  have htick : ticking a = false := by simp [ticking, h.pol]
  cases e with
  | mount t => exact absurd rfl (he t)
  | spawn t => exact dead_spawn h hs
  | cancel t => cases hs; exact ⟨h.sch, h.pol, h.slp, h.tim, h.stk, h.log⟩
  | runNow =>
    simp only [step] at hs
    split at hs
    · exact dead_runNow h hs
    · cases hs
  | timer => simp [step, Exec.step, h.tim, afterExec] at hs
  | next => simp [step, htick] at hs
  | yield => simp [step, htick] at hs
  | sleep => simp [step, htick] at hs
  | block e =>
    have hwt : ∀ (s : Nested.Sys V S O) t, s.stack = [] → (∀ p, .polled p ∉ s.log) →
        Dead (wakeTask { a with sys := s } t) := by
      intro s t h1 h2
      have : Dead { a with sys := s } := ⟨h.sch, h.pol, h.slp, h.tim, h1, h2⟩
      simp only [wakeTask]
      split
      · exact this
      · exact dead_push this t
    cases e with
    | wake p =>
      simp only [step, Nested.step] at hs
      split at hs
      · next s hst =>
        split at hst
        · cases hst; cases hs; exact ⟨h.sch, h.pol, h.slp, h.tim, h.stk, h.log⟩
        · cases hst
      · cases hs
    | propagate =>
      simp only [step, Nested.step] at hs
      split at hs
      · next s hst =>
        have hss : s.stack = [] ∧ ∀ p, .polled p ∉ s.log := by
          split at hst
          · cases hst
          · cases hst; exact ⟨h.stk, by simpa using h.log⟩
          · split at hst
            · next s1 out h1 =>
              cases hst
              obtain ⟨o, o', -, -, rfl⟩ := Nested.stepObj_some h1
              exact ⟨h.stk, by simpa using h.log⟩
            · cases hst
        split at hs
        · cases hs; exact hwt s _ hss.1 hss.2
        · cases hs; exact ⟨h.sch, h.pol, h.slp, h.tim, hss.1, hss.2⟩
      · cases hs
    | newList limit =>
      simp only [step, Nested.step] at hs
      split at hs
      · next s hst =>
        split at hst
        · cases hst; cases hs; exact ⟨h.sch, h.pol, h.slp, h.tim, h.stk, h.log⟩
        · cases hst
      · cases hs
    | insert c =>
      simp only [step, Nested.step] at hs
      split at hs
      · next s hst =>
        split at hst
        · cases hst; cases hs; exact ⟨h.sch, h.pol, h.slp, h.tim, h.stk, by simpa using h.log⟩
        · cases hst
      · cases hs
    | remove c i =>
      simp only [step, Nested.step] at hs
      split at hs
      · next s hst =>
        split at hst
        · split at hst
          · split at hst <;> (cases hst; cases hs; exact ⟨h.sch, h.pol, h.slp, h.tim, h.stk, h.log⟩)
          · cases hst
        · cases hst
      · cases hs
    | _ => simp [step, Nested.step, h.stk] at hs

/-- **C50, what goes wrong.** As long as nothing has been mounted, tasks spawned with
`get_executor().spawn(..)` are never polled, whatever happens: no wake-up reaches the browser, and no timer
is queued. -/
theorem spawned_without_mount_never_polled (es : List (Event V S O)) (a : App V S O) (h : run init es = some a)
    (hm : ∀ t, .mount t ∉ es) : (∀ p, .polled p ∉ a.sys.log) ∧ a.ex.timers = 0 := by
  have key : ∀ (es : List (Event V S O)) (a0 a : App V S O), Dead a0 → (∀ t, .mount t ∉ es) → run a0 es = some a →
      Dead a := by
    intro es
    induction es with
    | nil => intro a0 a h0 _ h; cases h; exact h0
    | cons e es ih =>
      intro a0 a h0 hm h
      simp only [run] at h
      split at h
      · next a1 h1 =>
        exact ih a1 a (dead_step h0 (fun t ht => hm t (by simp [ht])) h1) (fun t ht => hm t (.tail _ ht)) h
      · cases h
  have := key es init a ⟨rfl, rfl, rfl, rfl, rfl, by simp [init, Nested.init]⟩ hm h
  exact ⟨this.log, this.tim⟩

theorem needs_of_never {p : Nested.Place} {log : List Nested.Note} (h : .polled p ∉ log) : Nested.NeedsPoll p log := by
  induction log with
  | nil => trivial
  | cons n log ih =>
    have ih := ih fun hm => h (.tail _ hm)
    cases n with
    | polled q => exact ⟨fun he => h (he ▸ .head _), ih⟩
    | woken q => exact .inr ih
    | returned q => exact ih
    | yielded c => exact ih
    | inserted c i => exact ih

/-- **C50, with a mount.** In an app that has been mounted every spawned task, before or after the mount, has
been polled when the browser is idle, unless it was cancelled. -/
theorem spawned_polled_partial (es : List (Event V S O)) (a : App V S O) (h : run init es = some a)
    (hm : ∃ t, .mount t ∈ es) (hidle : Idle a) (t : Nat) (ht : Alive a t) : .polled (.task t) ∈ a.sys.log :=
  Classical.byContradiction fun hn =>
    app_idle_nothing_waits es a h hm hidle t ht _ .task (needs_of_never hn)

/-! ### Concrete cases -/

/-- A task is spawned, another is mounted; the timer fires; both run. The second task joins a block and a
leaf; the block races two leaves. All are pending. Then the second leaf of the race is woken. -/
def exWoken : List (Event Nat Nat (List Nat)) :=
  [.spawn 7, .mount 0, .timer, .next, .block (.ret none), .next] ++
  ((Nested.exStart.drop 1).take 9).map .block ++ [.sleep] ++ (Nested.exStart.drop 10).map .block

/-- The browser fires the timer that this wake-up has queued. -/
def exServed : List (Event Nat Nat (List Nat)) :=
  [.timer, .next] ++ (Nested.exPoll.drop 1).map .block ++ [.sleep]

def view (a : App Nat Nat (List Nat)) : Exec.St × List Nat × List Nat × List Nat :=
  (a.ex, a.queue, a.tasks, a.gone)

theorem exWoken_view : (run init exWoken).map (fun a => (view a, Nested.view a.sys)) =
    some (((⟨true, true, false, 1, false⟩ : Exec.St), [0], [0, 7], []), [], none,
      [.woken (.task 0), .woken (.sub 0 0), .woken (.sub 1 1), .polled (.sub 0 1), .polled (.sub 1 1),
      .polled (.sub 1 0), .polled (.sub 0 0), .polled (.task 0), .polled (.task 7)], some 0, some 1, [(2, []), (2, [])]) := by rfl

theorem exServed_view : (run init (exWoken ++ exServed)).map (fun a => (view a, Nested.view a.sys)) =
    some (((⟨true, false, false, 0, false⟩ : Exec.St), [], [0, 7], []), [], none,
      [.polled (.sub 1 1), .polled (.sub 0 0), .polled (.task 0),
      .woken (.task 0), .woken (.sub 0 0), .woken (.sub 1 1), .polled (.sub 0 1), .polled (.sub 1 1),
      .polled (.sub 1 0), .polled (.sub 0 0), .polled (.task 0), .polled (.task 7)], some 0, some 1, [(2, []), (2, [])]) := by rfl

/-- The hypotheses of `app_idle_nothing_waits` are met, with a part that had been woken. -/
example : ∃ a, run init (exWoken ++ exServed) = some a ∧ (∃ t, Event.mount t ∈ exWoken ++ exServed) ∧ Idle a ∧ Alive a 0 ∧
    Nested.PartOf a.sys 0 (.sub 1 1) ∧ .woken (.sub 1 1) ∈ a.sys.log := by
  obtain ⟨a, ha, hv⟩ := Option.map_eq_some_iff.1 exServed_view
  simp only [view, Nested.view, Prod.mk.injEq] at hv
  obtain ⟨⟨a1, a2, a3, a4⟩, b1, b2, b3, b4, b5, b6⟩ := hv
  exact ⟨a, ha, ⟨0, by simp [exWoken]⟩, ⟨by simp [a1], by simp [a1], b2⟩, ⟨by simp [a3], by simp [a4], by simp [b3]⟩,
    Nested.ex_part b4 b5 b6 (by simp [b3]), by simp [b3]⟩

/-- A state in which the part waits: the browser is not idle. -/
example : ∃ a, run init exWoken = some a ∧ Alive a 0 ∧ Nested.PartOf a.sys 0 (.sub 1 1) ∧
    Nested.NeedsPoll (.sub 1 1) a.sys.log ∧ a.ex.timers = 1 := by
  obtain ⟨a, ha, hv⟩ := Option.map_eq_some_iff.1 exWoken_view
  simp only [view, Nested.view, Prod.mk.injEq] at hv
  obtain ⟨⟨a1, a2, a3, a4⟩, b1, b2, b3, b4, b5, b6⟩ := hv
  exact ⟨a, ha, ⟨by simp [a3], by simp [a4], by simp [b3]⟩,
    Nested.ex_part b4 b5 b6 (by simp [b3]), by simp [b3, Nested.NeedsPoll], by simp [a1]⟩

/-- A task that is spawned and never runs, although a waker of it is woken and an event callback calls
`run_now`: the browser is idle, nothing will ever happen. -/
example : ∃ a, run init ([.spawn 7, .block (.wake (.task 7)), .block .propagate, .runNow] :
      List (Event Nat Nat (List Nat))) = some a ∧ Idle a ∧ Alive a 7 ∧ .polled (.task 7) ∉ a.sys.log := by
  have h : (run init ([.spawn 7, .block (.wake (.task 7)), .block .propagate, .runNow] :
      List (Event Nat Nat (List Nat)))).map (fun a => (view a, a.sys.waking, a.sys.log)) =
      some (((⟨true, false, false, 0, false⟩ : Exec.St), [7], [7], []), none, [.woken (.task 7)]) := by rfl
  obtain ⟨a, ha, hv⟩ := Option.map_eq_some_iff.1 h
  simp only [view, Prod.mk.injEq] at hv
  obtain ⟨⟨a1, a2, a3, a4⟩, b1, b2⟩ := hv
  exact ⟨a, ha, ⟨by simp [a1], by simp [a1], b1⟩, ⟨by simp [a3], by simp [a4], by simp [b2]⟩, by simp [b2]⟩

end Verif.App
