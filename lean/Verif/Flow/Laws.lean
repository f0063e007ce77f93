import Verif.Flow.Idle
/-!
# C78: programs next to each other

What `meanwhile`, `pend_after`, `join` and a race with a timer make of an arbitrary program.
-/
namespace Verif.Flow

/-! ## A program and something around it, event by event -/

/-- A program around another one. `wrap polled f` is its state when the smaller one is `f`; `fin a` is its state when the smaller
one has finished with `a`, and `out a` is what it returned then. -/
structure Around (α β : Type) where
  wrap : Bool → Fut α → Fut β
  fin : α → Fut β
  out : α → Out β
  pend : ∀ p f w f' w', poll f w = (f', w', .pend) → poll (wrap p f) w = (wrap true f', w', .pend)
  hang : ∀ p f w f' w', poll f w = (f', w', .hang) → ∃ p', poll (wrap p f) w = (wrap p' f', w', .hang)
  ready : ∀ p f w f' w' a, poll f w = (f', w', .ready a) → App.poll ⟨wrap p f, w, .pend⟩ = ⟨fin a, w', out a⟩
  idle : ∀ a w, App.poll ⟨fin a, w, out a⟩ = ⟨fin a, w, out a⟩
  targets : ∀ p f t, (wrap p f).targets t = f.targets t
  targetsFin : ∀ a t, (fin a).targets t = []

/-- Both have the same world; the larger program is in the state that belongs to that of the smaller one. -/
inductive Around.Rel {α β : Type} (R : Around α β) (p : Bool) : App α → App β → Prop
  | pend (f : Fut α) (w : World) : R.Rel p ⟨f, w, .pend⟩ ⟨R.wrap p f, w, .pend⟩
  | hang (f : Fut α) (w : World) (p' : Bool) : R.Rel p ⟨f, w, .hang⟩ ⟨R.wrap p' f, w, .hang⟩
  | fin (a : α) (w : World) : R.Rel p ⟨.pure a, w, .ready a⟩ ⟨R.fin a, w, R.out a⟩

theorem Around.rel_poll {α β : Type} (R : Around α β) {A : App α} {B : App β} (h : R.Rel true A B) : R.Rel true A.poll B.poll := by
  cases h with
  | hang f w p' => exact .hang f w p'
  | fin a w => rw [R.idle]; exact .fin a w
  | pend f w =>
    rcases hp : poll f w with ⟨f', w', o⟩
    cases o with
    | ready a =>
      rw [R.ready _ _ _ _ _ _ hp]
      simp only [App.poll, hp]
      exact .fin a w'
    | pend =>
      simp only [App.poll, hp, R.pend _ _ _ _ _ hp]
      exact .pend f' w'
    | hang =>
      obtain ⟨p', hp'⟩ := R.hang true _ _ _ _ hp
      simp only [App.poll, hp, hp']
      exact .hang f' w' p'

theorem Around.rel_first {α β : Type} (R : Around α β) (f : Fut α) (w : World) :
    R.Rel true (App.poll ⟨f, w, .pend⟩) (App.poll ⟨R.wrap false f, w, .pend⟩) := by
  rcases hp : poll f w with ⟨f', w', o⟩
  cases o with
  | ready a =>
    rw [R.ready _ _ _ _ _ _ hp]
    simp only [App.poll, hp]
    exact .fin a w'
  | pend =>
    simp only [App.poll, hp, R.pend _ _ _ _ _ hp]
    exact .pend f' w'
  | hang =>
    obtain ⟨p', hp'⟩ := R.hang false _ _ _ _ hp
    simp only [App.poll, hp, hp']
    exact .hang f' w' p'

theorem Around.rel_targets {α β : Type} (R : Around α β) {p : Bool} {A : App α} {B : App β} (h : R.Rel p A B) (t : Tag) :
    B.fut.targets t = A.fut.targets t := by
  cases h with
  | pend f w => exact R.targets _ _ _
  | hang f w p' => exact R.targets _ _ _
  | fin a w => exact R.targetsFin _ _

/-- Something happens to the world. -/
theorem Around.rel_world {α β : Type} (R : Around α β) {p : Bool} {A : App α} {B : App β} (h : R.Rel p A B) (g : World → World) :
    R.Rel p { A with world := g A.world } { B with world := g B.world } := by
  cases h with
  | pend f w => exact .pend f _
  | hang f w p' => exact .hang f _ p'
  | fin a w => exact .fin a _

theorem Around.rel_step {α β : Type} (R : Around α β) {A : App α} {B : App β} (h : R.Rel true A B) (e : Event) :
    R.Rel true (A.step e) (B.step e) := by
  have ht := R.rel_targets h
  cases e with
  | type i s =>
    simp only [App.step, ht]
    split
    · rename_i n _
      exact R.rel_world h fun w => { w with prop := fun m k => if m = n ∧ k = .value then s else w.prop m k }
    · exact h
  | click i =>
    simp only [App.step, ht]
    split
    · rename_i n _
      exact R.rel_poll (R.rel_world h fun w => { w with fired := fun h => w.fired h || w.listens h == some n })
    · exact h
  | advance ms => exact R.rel_world h fun w => later w ms
  | poll => exact R.rel_poll h

/-- Once they have been polled, the two stay together. -/
theorem Around.rel_run {α β : Type} (R : Around α β) (f : Fut α) (es : List Event) :
    R.Rel true ((App.mount f).run (.poll :: es)) ((App.mount (R.wrap false f)).run (.poll :: es)) := by
  induction es using List.reverseRecOn with
  | nil => exact R.rel_first f .init
  | append_singleton es e ih =>
    have h : ∀ {γ : Type} (A : App γ), A.run (.poll :: (es ++ [e])) = (A.run (.poll :: es)).step e := by
      intro γ A
      rw [← List.cons_append, App.run, List.foldl_append]
      rfl
    rw [h, h]
    exact R.rel_step ih e

/-! ## `meanwhile` -/

/-- `f.meanwhile(s.render())` -/
def meanwhileText (α : Type) (s : String) : Around α α where
  wrap p f := f.meanwhile (.text s p : Fut Unit)
  fin := .pure
  out := .ready
  pend p f w f' w' h := by simp only [Fut.meanwhile, poll, h]
  hang p f w f' w' h := ⟨p, by simp only [Fut.meanwhile, poll, h]⟩
  ready p f w f' w' a h := by simp only [App.poll, Fut.meanwhile, poll, h]
  idle a w := rfl
  targets p f t := by simp only [Fut.meanwhile, Fut.targets, List.append_nil]
  targetsFin a t := rfl

/-- **C78, meanwhile.** `load().meanwhile("…".render())` behaves like `load()`, for every program `load`: it waits for the same
things and finishes at the same moment with the same result; until then the page shows the text as well, after what `load` shows,
and then nothing. -/
theorem meanwhile_text {α : Type} (f : Fut α) (s : String) (es : List Event) :
    ∃ A B, A = (App.mount f).run (.poll :: es) ∧ B = (App.mount (f.meanwhile (.text s false : Fut Unit))).run (.poll :: es) ∧
      B.out = A.out ∧ B.world = A.world ∧ (A.out = .pend → B.page = A.page ++ [.text s]) ∧
      ∀ a, A.out = .ready a → B.page = [] := by
  refine ⟨_, _, rfl, rfl, ?_⟩
  have h := (meanwhileText α s).rel_run f es
  rw [show (meanwhileText α s).wrap false f = f.meanwhile (.text s false : Fut Unit) from rfl] at h
  generalize (App.mount f).run (.poll :: es) = A at h
  generalize (App.mount (f.meanwhile (.text s false : Fut Unit))).run (.poll :: es) = B at h
  cases h with
  | pend f w => exact ⟨rfl, rfl, fun _ => rfl, fun a h => absurd h (by simp)⟩
  | hang f w p' => exact ⟨rfl, rfl, fun h => absurd h (by simp), fun a h => absurd h (by simp)⟩
  | fin a w => exact ⟨rfl, rfl, fun h => absurd h (by simp), fun _ _ => rfl⟩

/-! ## `pend_after` -/

/-- `f.pend_after()` -/
def pendAfter (α β : Type) : Around α β where
  wrap _ f := .pendAfter f
  fin _ := .pending
  out _ := .pend
  pend p f w f' w' h := by simp only [poll, h]
  hang p f w f' w' h := ⟨p, by simp only [poll, h]⟩
  ready p f w f' w' a h := by simp only [App.poll, poll, h]
  idle a w := rfl
  targets p f t := by simp only [Fut.targets]
  targetsFin a t := rfl

/-- **C78, pend_after.** `f.pend_after()` shows what `f` shows, waits for the same things, and when `f` has finished it shows
nothing and never finishes. -/
theorem pendAfter_page {α β : Type} (f : Fut α) (es : List Event) :
    ∃ A, ∃ B : App β, A = (App.mount f).run (.poll :: es) ∧ B = (App.mount (.pendAfter f)).run (.poll :: es) ∧
      B.world = A.world ∧ B.page = A.page ∧ ∀ b, B.out ≠ .ready b := by
  refine ⟨_, _, rfl, rfl, ?_⟩
  have h := (pendAfter α β).rel_run f es
  rw [show (pendAfter α β).wrap false f = .pendAfter f from rfl] at h
  generalize (App.mount f).run (.poll :: es) = A at h
  generalize (App.mount (.pendAfter f)).run (.poll :: es) = B at h
  cases h with
  | pend f w => exact ⟨rfl, by simp only [App.page, pendAfter, Fut.shown], fun b h => absurd h (by simp)⟩
  | hang f w p' => exact ⟨rfl, by simp only [App.page, pendAfter, Fut.shown], fun b h => absurd h (by simp)⟩
  | fin a w => exact ⟨rfl, rfl, fun b h => absurd h (by simp [pendAfter])⟩

/-! ## `join` with something that stays -/

/-- `join((async { f.await }, s.render()))` -/
def joinText (α : Type) (s : String) : Around α (α × Unit) where
  wrap p f := .join f.await none (.text s p) none
  fin a := .join (.pure a) (some a) (.text s true) none
  out _ := .pend
  pend p f w f' w' h := by simp only [Fut.await, poll, h]
  hang p f w f' w' h := ⟨p, by simp only [Fut.await, poll, h]⟩
  ready p f w f' w' a h := by simp only [App.poll, Fut.await, poll, h]
  idle a w := rfl
  targets p f t := by simp only [Fut.await, Fut.targets, List.append_nil]
  targetsFin a t := rfl

/-- **C78, join.** An `async` block next to a text in a `join` behaves as it does alone, for every block: it waits for the same
things, and the page shows what it shows and then the text. The join does not finish when the block does. -/
theorem join_text {α : Type} (f : Fut α) (s : String) (es : List Event) :
    ∃ A B, A = (App.mount f).run (.poll :: es) ∧ B = (App.mount (Fut.both f.await (.text s false : Fut Unit))).run (.poll :: es) ∧
      B.world = A.world ∧ (A.out ≠ .hang → B.page = A.page ++ [.text s] ∧ B.out = .pend) := by
  refine ⟨_, _, rfl, rfl, ?_⟩
  have h := (joinText α s).rel_run f es
  rw [show (joinText α s).wrap false f = Fut.both f.await (.text s false : Fut Unit) from rfl] at h
  generalize (App.mount f).run (.poll :: es) = A at h
  generalize (App.mount (Fut.both f.await (.text s false : Fut Unit))).run (.poll :: es) = B at h
  cases h with
  | pend f w => exact ⟨rfl, fun _ => ⟨rfl, rfl⟩⟩
  | hang f w p' => exact ⟨rfl, fun h => absurd rfl h⟩
  | fin a w => exact ⟨rfl, fun _ => ⟨rfl, rfl⟩⟩

/-! ## A limit on the time -/

/-- `run_for_3_seconds(f)`, `examples/guide-project/src/dynamicity/dynamic_slot.rs:45-51`, with any number of milliseconds. -/
def runFor (ms : Nat) (f : Fut Unit) : Fut Unit := .timeout ms fun t => .await (.race f (.elapsed t))

theorem Left.used {w : World} {t n : Nat} (h : Left w t n) (hw : Fresh w) : t < w.next := by
  obtain ⟨d, h1, -⟩ := h
  rcases Nat.lt_or_ge t w.next with h | h
  · exact h
  · rw [hw.due t h] at h1; cases h1

theorem Left.grows {w w' : World} {t n : Nat} (h : Left w t n) (hw : Fresh w) (g : Grows w w') : Left w' t n := by
  have hu := h.used hw
  obtain ⟨d, h1, h2, h3⟩ := h
  exact ⟨d, (g.due t hu).trans h1, by rw [g.now]; exact h2, by rw [g.fired, g.now]; exact h3⟩

theorem Left.click {w : World} {t n : Nat} (h : Left w t n) (hw : Fresh w) (m : Nat) :
    Left { w with fired := fun h => w.fired h || w.listens h == some m } t n := by
  obtain ⟨d, h1, h2, h3⟩ := h
  refine ⟨d, h1, h2, ?_⟩
  have : w.listens t ≠ some m := fun hl => by rw [hw.apart t m hl] at h1; cases h1
  simp [h3, this]

/-- The app is in the middle of `run_for` with some time left, or it has finished, or `f` hangs. -/
inductive Running (n : Nat) : App Unit → Prop
  | pend (f : Fut Unit) (t : Nat) (w : World) (h : Left w t n) (hw : Fresh w) :
    Running n ⟨.bind (.race f (.elapsed t)) .pure, w, .pend⟩
  | ready (w : World) : Running n ⟨.pure (), w, .ready ()⟩
  | hang (f : Fut Unit) (w : World) : Running n ⟨f, w, .hang⟩

theorem running_poll {n : Nat} {f : Fut Unit} {t : Nat} {w : World} (h : Left w t n) (hw : Fresh w) :
    Running n (App.poll ⟨.bind (.race f (.elapsed t)) .pure, w, .pend⟩) := by
  have g := poll_grows f w
  rcases hp : poll f w with ⟨f', w', o⟩
  rw [hp] at g
  cases o with
  | ready a => simp only [App.poll, poll, hp]; exact .ready w'
  | hang => simp only [App.poll, poll, hp]; exact .hang _ _
  | pend =>
    cases hf : w'.fired t with
    | true => simp only [App.poll, poll, hp, hf, if_true]; exact .ready w'
    | false =>
      simp only [App.poll, poll, hp, hf, Bool.false_eq_true, if_false]
      exact .pend f' t w' (h.grows hw g) (g.fresh hw)

theorem running_step {n : Nat} {A : App Unit} (h : Running n A) (e : Event) : Running (n - time [e]) (A.step e) := by
  cases e with
  | type i s =>
    simp only [App.step, time, Nat.sub_zero]
    split
    · cases h with
      | pend f t w hl hw => exact .pend f t _ hl (hw.prop _)
      | ready w => exact .ready _
      | hang f w => exact .hang _ _
    · exact h
  | click i =>
    simp only [App.step, time, Nat.sub_zero]
    split
    · cases h with
      | pend f t w hl hw =>
        refine running_poll (hl.click hw _) ⟨fun j hj => ?_, hw.listens, hw.due, hw.apart⟩
        simp [hw.fired j hj, hw.listens j hj]
      | ready w => exact .ready _
      | hang f w => exact .hang _ _
    · exact h
  | advance ms =>
    simp only [time, Nat.add_zero]
    cases h with
    | pend f t w hl hw => exact .pend f t _ (hl.advance ms) (step_fresh ⟨f, w, .pend⟩ (.advance ms) hw)
    | ready w => exact .ready _
    | hang f w => exact .hang _ _
  | poll =>
    simp only [time, Nat.sub_zero]
    cases h with
    | pend f t w hl hw => exact running_poll hl hw
    | ready w => exact .ready _
    | hang f w => exact .hang _ _

theorem running_run {ms : Nat} (hms : 0 < ms) (f : Fut Unit) (es : List Event) :
    Running (ms - time es) ((App.mount (runFor ms f)).run (.poll :: es)) := by
  induction es using List.reverseRecOn with
  | append_singleton es e ih =>
    have h : ∀ A : App Unit, A.run (.poll :: (es ++ [e])) = (A.run (.poll :: es)).step e := by
      intro A
      rw [← List.cons_append, App.run, List.foldl_append]
      rfl
    rw [h, time_append, Nat.sub_add_eq]
    exact running_step ih e
  | nil =>
    have hw : Fresh World.init := ⟨fun _ _ => rfl, fun _ _ => rfl, fun _ _ => rfl, fun _ _ _ => rfl⟩
    have hl : Left { World.init with
        next := 0 + 1, due := fun h => if h = 0 then some (0 + ms) else World.init.due h } 0 (ms - time []) :=
      ⟨0 + ms, by simp, by simp [time, World.init], by simp [World.init]; omega⟩
    have h := running_poll (f := f) hl (hw.timer _)
    have he : (App.mount (runFor ms f)).run [.poll] = App.poll ⟨.bind (.race f (.elapsed 0)) .pure, { World.init with
        next := 0 + 1, due := fun h => if h = 0 then some (0 + ms) else World.init.due h }, .pend⟩ := by
      simp only [App.run, List.foldl_cons, List.foldl_nil, App.step, App.poll, App.mount, runFor]
      rfl
    rw [he]
    exact h

/-- **C78, limit.** `run_for(ms, f)` has finished at the first run of the executor after `ms` milliseconds, whatever `f` does
(unless it is in a loop without end), and then the page shows nothing any more. -/
theorem runFor_ends {ms : Nat} (hms : 0 < ms) (f : Fut Unit) (es : List Event) (ht : ms ≤ time es) :
    ∃ A, A = (App.mount (runFor ms f)).run (.poll :: es ++ [.poll]) ∧ (A.out = .hang ∨ (A.out = .ready () ∧ A.page = [])) := by
  refine ⟨_, rfl, ?_⟩
  have h := running_run hms f es
  rw [Nat.sub_eq_zero_of_le ht] at h
  rw [App.run, List.foldl_append]
  change Running 0 (List.foldl App.step _ _) at h
  generalize List.foldl App.step (App.mount (runFor ms f)) (.poll :: es) = A at h
  simp only [List.foldl_cons, List.foldl_nil, App.step]
  cases h with
  | ready w => exact .inr ⟨rfl, rfl⟩
  | hang f w => exact .inl rfl
  | pend f t w hl hw =>
    have g := poll_grows f w
    rcases hp : poll f w with ⟨f', w', o⟩
    rw [hp] at g
    cases o with
    | ready a => simp only [App.poll, poll, hp]; exact .inr ⟨trivial, rfl⟩
    | hang => simp only [App.poll, poll, hp]; exact .inl trivial
    | pend =>
      have hf : w'.fired t = true := by rw [g.fired]; exact hl.zero
      simp only [App.poll, poll, hp, hf, if_true]
      exact .inr ⟨trivial, rfl⟩

/-! ## Examples -/

/-- A button that is shown until it is clicked. -/
def askOnce : Fut String :=
  .create fun b => .bind (.race (.node .button b false (.text "OK" false)) (.click b none)) fun _ => .pure "done"

example : ((App.mount askOnce).run [.poll]).page = [.elem .button "" "" [.text "OK"]] ∧
    ((App.mount askOnce).run [.poll, .click 0]).out = .ready "done" := ⟨rfl, rfl⟩

/-- The text is there as long as the button is. -/
example : ((App.mount (askOnce.meanwhile (.text "Well?" false : Fut Unit))).run [.poll]).page =
      [.elem .button "" "" [.text "OK"], .text "Well?"] ∧
    ((App.mount (askOnce.meanwhile (.text "Well?" false : Fut Unit))).run [.poll, .click 0]).page = [] := by
  constructor
  · obtain ⟨A, B, rfl, rfl, -, -, h, -⟩ := meanwhile_text askOnce "Well?" []
    exact h rfl
  · obtain ⟨A, B, rfl, rfl, -, -, -, h⟩ := meanwhile_text askOnce "Well?" [.click 0]
    exact h "done" rfl

/-- In a `join` it stays. -/
example : ((App.mount (Fut.both askOnce.await (.text "Well?" false : Fut Unit))).run [.poll, .click 0]).page = [.text "Well?"] := by
  obtain ⟨A, B, rfl, rfl, -, h⟩ := join_text askOnce "Well?" [.click 0]
  exact (h (by intro h; cases h)).1

example : ∀ b, ((App.mount (.pendAfter askOnce : Fut Nat)).run [.poll, .click 0]).out ≠ .ready b := by
  obtain ⟨A, B, rfl, rfl, -, -, h⟩ := pendAfter_page (β := Nat) askOnce [.click 0]
  exact h

/-- The button is gone when nobody clicks it for five seconds. -/
example : ((App.mount (runFor 5000 (.bind askOnce fun _ => .pure ()))).run [.poll, .advance 4999, .poll]).page =
      [.elem .button "" "" [.text "OK"]] ∧
    ((App.mount (runFor 5000 (.bind askOnce fun _ => .pure ()))).run [.poll, .advance 4999, .poll, .advance 1, .poll]).page = [] := by
  refine ⟨rfl, ?_⟩
  obtain ⟨A, rfl, h⟩ := runFor_ends (ms := 5000) (by decide) (.bind askOnce fun _ => .pure ()) [.advance 4999, .poll, .advance 1]
    (by decide)
  rcases h with h | h
  · cases h
  · exact h.2

end Verif.Flow
