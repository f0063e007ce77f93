import Verif.Live.Spec
import Verif.App.Props
/-!
# What a step of the app does to the log and to the stack
-/
namespace Verif.Live
open Verif Nested

section
variable {V S O : Type}

def places (s : Nested.Sys V S O) : List Place := s.stack.map (·.place)

/-- What a step adds to the log, and which polls end. -/
structure Change (s s' : Nested.Sys V S O) (ends : Place → Prop) : Prop where
  log : ∃ new, s'.log = new ++ s.log ∧ ∀ p, .polled p ∈ new → p ∈ places s'
  stk : ∀ p ∈ places s, p ∈ places s' ∨ ends p ∨ .returned p ∈ s'.log
  wak : ∀ p, s.waking = some p → s'.waking = some p ∨ NeedsPoll p s'.log

theorem Change.refl (s : Nested.Sys V S O) (ends) : Change s s ends :=
  ⟨⟨[], rfl, by simp⟩, fun _ h => .inl h, fun _ h => .inl h⟩

theorem answer_change (s : Nested.Sys V S O) (id : Nat) (out) :
    (∃ new, (answer s id out).log = new ++ s.log ∧
      ∀ p, .polled p ∈ new → p ∈ places (answer s id out)) ∧ ∀ p ∈ places s, p ∈ places (answer s id out) := by
  simp only [answer]
  split
  · refine ⟨⟨[_], rfl, ?_⟩, ?_⟩
    · intro p hp
      simp only [List.mem_singleton, Note.polled.injEq] at hp
      subst hp
      simp [places]
    · intro p hp
      simp only [places, List.map_cons, List.mem_cons]
      exact .inr hp
  · split
    · split
      · exact ⟨⟨[], rfl, by simp⟩, fun p h => h⟩
      · split
        · exact ⟨⟨[_], rfl, by simp⟩, fun p h => h⟩
        · exact ⟨⟨[], rfl, by simp⟩, fun p h => h⟩
    · exact ⟨⟨[], rfl, by simp⟩, fun p h => h⟩

/-- The poll that a `ret none` event ends. -/
def endsAt (s : Nested.Sys V S O) (e : Nested.Event V S O) (p : Place) : Prop :=
  e = .ret none ∧ ∃ f fs, s.stack = f :: fs ∧ f.place = p

theorem step_change {s s' : Nested.Sys V S O} {e : Nested.Event V S O} (h : Nested.step s e = some s') :
    Change s s' (endsAt s e) := by
  cases e with
  | pollTask t =>
    simp only [Nested.step] at h
    split at h
    · next hc =>
      cases h
      refine ⟨⟨[_], rfl, ?_⟩, ?_, ?_⟩
      · intro p hp
        simp only [List.mem_singleton, Note.polled.injEq] at hp
        subst hp
        simp [places]
      · intro p hp; simp [places, hc.1] at hp
      · intro p hp; rw [hc.2] at hp; cases hp
    · cases h
  | create g n =>
    simp only [Nested.step] at h
    split at h
    · next f fs hst hw =>
      cases h
      refine ⟨⟨[], rfl, by simp⟩, ?_, ?_⟩
      · intro p hp; left; simp only [places, hst, List.map_cons] at hp ⊢; exact hp
      · intro p hp; rw [hw] at hp; cases hp
    · cases h
  | cancel =>
    simp only [Nested.step] at h
    split at h
    · next f fs hst hw =>
      cases h
      refine ⟨⟨[], rfl, by simp⟩, fun p hp => .inl hp, ?_⟩
      intro p hp; rw [hw] at hp; cases hp
    · cases h
  | await =>
    simp only [Nested.step] at h
    split at h
    · next f fs hst hw =>
      split at h
      · next id hid =>
        split at h
        · next s1 out hso =>
          cases h
          obtain ⟨o, o', -, -, rfl⟩ := Nested.stepObj_some hso
          obtain ⟨⟨new, h2, h3⟩, h4⟩ := answer_change (V := V) { s with stack := ⟨f.place, true⟩ :: fs, objs := s.objs.set id o' } id out
          refine ⟨⟨new, h2, h3⟩, ?_, ?_⟩
          · intro p hp
            left
            apply h4
            simp only [places, hst, List.map_cons] at hp ⊢
            exact hp
          · intro p hp; rw [hw] at hp; cases hp
        · cases h
      · cases h
    · cases h
  | ret r =>
    simp only [Nested.step] at h
    split at h
    · next f fs hst hw =>
      split at h
      · next hc =>
        have hends : ∀ p ∈ places s, p ∈ fs.map (·.place) ∨ p = f.place := by
          intro p hp
          simp only [places, hst, List.map_cons, List.mem_cons] at hp
          exact hp.symm
        -- the log before the combinator answers
        have key : ∀ s1 : Nested.Sys V S O, s1 = (if r.isSome = true then
            { s with child := update s.child f.place none, log := .returned f.place :: s.log } else s) →
            (∃ new, s1.log = new ++ s.log ∧ ∀ p, .polled p ∉ new) ∧
              (endsAt s (.ret r) f.place ∨ .returned f.place ∈ s1.log) := by
          rintro s1 rfl
          cases r with
          | none => exact ⟨⟨[], rfl, by simp⟩, .inl ⟨rfl, f, fs, hst, rfl⟩⟩
          | some v => exact ⟨⟨[.returned f.place], rfl, by simp⟩, .inr (by simp)⟩
        obtain ⟨⟨new, k1, k2⟩, k3⟩ := key _ rfl
        generalize (if r.isSome = true then
          { s with child := update s.child f.place none, log := .returned f.place :: s.log } else s) = s1 at *
        split at h
        · next id i f' fs' hpl =>
          split at h
          · next s2 out hso =>
            cases h
            obtain ⟨o, o', -, -, rfl⟩ := Nested.stepObj_some hso
            obtain ⟨⟨new2, h2, h3⟩, h4⟩ := answer_change (V := V) { s1 with stack := f' :: fs', objs := s1.objs.set id o' } id out
            refine ⟨⟨new2 ++ new, by rw [h2, List.append_assoc]; exact congrArg (new2 ++ ·) k1, ?_⟩, ?_, ?_⟩
            · intro p hp
              rcases List.mem_append.1 hp with hp | hp
              · exact h3 p hp
              · exact (k2 p hp).elim
            · intro p hp
              rcases hends p hp with h5 | rfl
              · exact .inl (h4 p h5)
              · rcases k3 with k3 | k3
                · exact .inr (.inl k3)
                · refine .inr (.inr ?_)
                  rw [h2]
                  exact List.mem_append_right _ k3
            · intro p hp; rw [hw] at hp; cases hp
          · cases h
        · cases h
        · cases h
          refine ⟨⟨new, k1, fun p hp => (k2 p hp).elim⟩, ?_, ?_⟩
          · intro p hp
            rcases hends p hp with h1 | rfl
            · exact .inl h1
            · exact .inr k3
          · intro p hp; rw [hw] at hp; cases hp
      · cases h
    · cases h
  | newList limit =>
    simp only [Nested.step] at h
    split at h
    · next hw => cases h; exact ⟨⟨[], rfl, by simp⟩, fun p hp => .inl hp, fun q hq => by rw [hw] at hq; cases hq⟩
    · cases h
  | insert c =>
    simp only [Nested.step] at h
    split at h
    · next l ho hw => cases h; exact ⟨⟨[_], rfl, by simp⟩, fun p hp => .inl hp, fun q hq => by rw [hw] at hq; cases hq⟩
    · cases h
  | remove c i =>
    simp only [Nested.step] at h
    split at h
    · next l ho hw =>
      split at h
      · split at h <;>
          (cases h; exact ⟨⟨[], rfl, by simp⟩, fun p hp => .inl hp, fun q hq => by rw [hw] at hq; cases hq⟩)
      · cases h
    · cases h
  | render c =>
    simp only [Nested.step] at h
    split at h
    · next f fs l hst hw ho =>
      split at h
      · cases h
        refine ⟨⟨[], rfl, by simp⟩, ?_, fun q hq => by rw [hw] at hq; cases hq⟩
        intro p hp; left; simp only [places, hst, List.map_cons] at hp ⊢; exact hp
      · cases h
    · cases h
  | wake p =>
    simp only [Nested.step] at h
    split at h
    · next hw =>
      cases h
      refine ⟨⟨[], rfl, by simp⟩, fun p hp => .inl hp, ?_⟩
      intro q hq; rw [hw] at hq; cases hq
    · cases h
  | propagate =>
    simp only [Nested.step] at h
    split at h
    · cases h
    · next t hw =>
      cases h
      refine ⟨⟨[_], rfl, by simp⟩, fun p hp => .inl hp, ?_⟩
      intro q hq; rw [hw] at hq; cases hq
      exact .inr (.inl rfl)
    · next id i hw =>
      split at h
      · next s1 out hso =>
        cases h
        obtain ⟨o, o', -, -, rfl⟩ := Nested.stepObj_some hso
        refine ⟨⟨[.woken (.sub id i)], rfl, by simp⟩, fun p hp => .inl hp, ?_⟩
        intro q hq; rw [hw] at hq; cases hq
        exact .inr (.inl rfl)
      · cases h

theorem schedule_sys (a : App.App V S O) : (App.schedule a).sys = a.sys := rfl

theorem push_sys (a : App.App V S O) (t : Nat) : (App.push a t).sys = a.sys := by
  simp only [App.push]
  split <;> rfl

theorem spawn_sys {a a' : App.App V S O} {t : Nat} (h : App.spawn a t = some a') : a'.sys = a.sys := by
  simp only [App.spawn] at h
  split at h
  · cases h
  · split at h
    · cases h; rw [push_sys]
    · split at h
      · cases h; rw [push_sys]
      · cases h

theorem afterExec_sys {a a' : App.App V S O} {r : Exec.Res} (h : App.afterExec a r = some a') : a'.sys = a.sys := by
  simp only [App.afterExec] at h
  split at h
  · split at h <;> (cases h; rfl)
  · cases h

/-- The same for the whole app. -/
theorem app_change {a a' : App.App V S O} {e : App.Event V S O} (h : App.step a e = some a') :
    Change a.sys a'.sys (fun p => ∃ e', e = .block e' ∧ endsAt a.sys e' p) := by
  cases e with
  | mount t =>
    simp only [App.step] at h
    split at h
    · next a1 h1 => cases h; rw [schedule_sys, spawn_sys h1]; exact .refl ..
    · cases h
  | spawn t => rw [spawn_sys h]; exact .refl ..
  | cancel t => cases h; exact .refl ..
  | runNow =>
    simp only [App.step] at h
    split at h
    · rw [afterExec_sys h]; exact .refl ..
    · cases h
  | timer =>
    simp only [App.step] at h
    split at h
    · rw [afterExec_sys h]; exact .refl ..
    · cases h
  | next =>
    simp only [App.step] at h
    split at h
    · split at h
      · next t q hq =>
        split at h
        · cases h; exact .refl ..
        · split at h
          · next s hs =>
            cases h
            obtain ⟨h1, h2, h3⟩ := step_change hs
            refine ⟨h1, fun p hp => ?_, h3⟩
            rcases h2 p hp with h4 | ⟨h4, _⟩ | h4
            · exact .inl h4
            · cases h4
            · exact .inr (.inr h4)
          · cases h
      · cases h
    · cases h
  | yield =>
    simp only [App.step] at h
    split at h
    · rw [afterExec_sys h, schedule_sys]; exact .refl ..
    · cases h
  | sleep =>
    simp only [App.step] at h
    split at h
    · rw [afterExec_sys h]; exact .refl ..
    · cases h
  | block e =>
    have key : ∃ s, Nested.step a.sys e = some s ∧ a'.sys = s := by
      cases e with
      | pollTask t => cases h
      | propagate =>
        simp only [App.step] at h
        split at h
        · next s hs =>
          refine ⟨s, hs, ?_⟩
          split at h
          · cases h
            simp only [App.wakeTask]
            split
            · rfl
            · rw [push_sys]
          · cases h; rfl
        · cases h
      | _ =>
        simp only [App.step] at h
        split at h
        · next s hs => cases h; exact ⟨s, hs, rfl⟩
        · cases h
    obtain ⟨s, hs, hss⟩ := key
    obtain ⟨h1, h2, h3⟩ := step_change hs
    rw [hss]
    refine ⟨h1, fun p hp => ?_, h3⟩
    rcases h2 p hp with h4 | h4 | h4
    · exact .inl h4
    · exact .inr (.inl ⟨e, rfl, h4⟩)
    · exact .inr (.inr h4)

theorem app_wake {a a' : App.App V S O} {p : Place} (h : App.step a (.block (.wake p)) = some a') :
    a'.sys.waking = some p := by
  simp only [App.step, Nested.step] at h
  split at h
  · next s hs =>
    split at hs
    · cases hs; cases h; rfl
    · cases hs
  · cases h

theorem needsPoll_append {p : Place} {new log : List Note} (h : NeedsPoll p log) (hn : .polled p ∉ new) :
    NeedsPoll p (new ++ log) := by
  induction new with
  | nil => exact h
  | cons x new ih =>
    have ih := ih fun hm => hn (.tail _ hm)
    cases x with
    | polled q => exact ⟨fun he => hn (he ▸ .head _), ih⟩
    | woken q => exact .inr ih
    | returned q => exact ih
    | yielded c => exact ih
    | inserted c i => exact ih

end
end Verif.Live
