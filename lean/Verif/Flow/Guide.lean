import Verif.Flow.Laws
/-!
# C78: the programs of the guide

`examples/guide-project/src`: the countdown and the button that disappears, with the stages they are supposed to go through; and
components without behaviour.
-/
namespace Verif.Flow.Guide
open Verif.Flow

/-! ## The countdown: `dynamicity/js_api.rs:15-39` -/

/-- The loop (`js_api.rs:23-36`), with `n` seconds to go. -/
def counting (text : Nat) : Nat → Fut Unit
  | 0 => .put text .data "boom!" (.pure ())
  | n + 1 =>
    .put text .data (toString (n + 1)) <|
    .timeout 1000 fun t => .bind (.elapsed t) fun _ => counting text n

/-- `countdown(seconds)`, `js_api.rs:15-39`; the loop ends when `seconds` is not positive -/
def countdown (seconds : Int) : Fut (Unit × Unit) :=
  .create fun text => .await (Fut.both (.node .text text false .pending) (counting text seconds.toNat))

/-- Specification: how many seconds it shows and for how long. -/
inductive Count
  | start
  | at (n left : Nat)
  | boom
deriving DecidableEq

def Count.page : Count → List View
  | .start => []
  | .at n _ => [.text (toString n)]
  | .boom => [.text "boom!"]

/-- Showing `n`. -/
def Count.from : Nat → Count
  | 0 => .boom
  | n + 1 => .at (n + 1) 1000

def Count.step (seconds : Int) : Count → Event → Count
  | .start, .poll => .from seconds.toNat
  | .at n left, .advance ms => .at n (left - ms)
  | .at n 0, .poll => .from (n - 1)
  | c, _ => c

def Count.run (seconds : Int) (es : List Event) : Count := es.foldl (Count.step seconds) .start

/-- The state of the program. -/
def countFut (text : Nat) (g : Fut Unit) (b : Option Unit) : Fut (Unit × Unit) :=
  .bind (.join (.node .text text true .pending) none g b) .pure

def CountState (seconds : Int) (w : World) : Count → Fut (Unit × Unit) → Prop
  | .start, f => f = countdown seconds
  | .at n left, f => ∃ text t m, n = m + 1 ∧ f = countFut text (.bind (.elapsed t) fun _ => counting text m) none ∧
      Left w t left ∧ w.prop text .data = toString n
  | .boom, f => ∃ text, f = countFut text (.pure ()) (some ()) ∧ w.prop text .data = "boom!"

structure CountSim (seconds : Int) (c : Count) (A : App (Unit × Unit)) : Prop where
  pend : A.out = .pend
  fresh : Fresh A.world
  state : CountState seconds A.world c A.fut

theorem countSim_poll {seconds : Int} {c : Count} {A : App (Unit × Unit)} (ho : A.out = .pend) (hw : Fresh A.world)
    (h : ∃ f' w', poll A.fut A.world = (f', w', .pend) ∧ CountState seconds w' c f') : CountSim seconds c A.poll := by
  obtain ⟨f', w', h1, h2⟩ := h
  have g := (poll_grows A.fut A.world).fresh hw
  rw [h1] at g
  have e : A.poll = ⟨f', w', .pend⟩ := by simp only [App.poll, ho, h1]
  rw [e]
  exact ⟨rfl, g, h2⟩

/-- One round of the loop. -/
theorem poll_counting (seconds : Int) (text n : Nat) (w : World) (hw : Fresh w) :
    ∃ g b w' , (∀ w0 f0, poll f0 w0 = poll (counting text n) w → 
      poll (countFut text f0 none) w0 = (countFut text g b, w', .pend)) ∧ CountState seconds w' (.from n) (countFut text g b) := by
  cases n with
  | zero =>
    refine ⟨.pure (), some (), { w with prop := fun m l => if m = text ∧ l = .data then "boom!" else w.prop m l }, ?_,
      text, rfl, by simp⟩
    intro w0 f0 h
    simp only [countFut, poll, h, counting]
  | succ n =>
    have hn := fresh_now hw
    refine ⟨.bind (.elapsed w.next) fun _ => counting text n, none, { w with
        next := w.next + 1
        prop := fun m l => if m = text ∧ l = .data then toString (n + 1) else w.prop m l
        due := fun h => if h = w.next then some (w.now + 1000) else w.due h }, ?_, text, w.next, n, rfl, rfl,
      ⟨w.now + 1000, if_pos rfl, by simp, ?_⟩, by simp⟩
    · intro w0 f0 h
      simp only [countFut, poll, h, counting, hn, Bool.false_eq_true, if_false]
    · exact hn.trans (decide_eq_false (by simp only; omega)).symm

theorem countSim_step {seconds : Int} {c : Count} {A : App (Unit × Unit)} (h : CountSim seconds c A) (e : Event) :
    CountSim seconds (c.step seconds e) (A.step e) := by
  have hs := h.state
  have ht : A.fut.targets .input = [] ∧ A.fut.targets .button = [] := by
    cases c with
    | start => rw [show A.fut = countdown seconds from hs]; exact ⟨rfl, rfl⟩
    | «at» n left => obtain ⟨text, t, m, -, hf, -⟩ := hs; rw [hf]; exact ⟨rfl, rfl⟩
    | boom => obtain ⟨text, hf, -⟩ := hs; rw [hf]; exact ⟨rfl, rfl⟩
  cases e with
  | type i s =>
    have : c.step seconds (.type i s) = c := by cases c <;> rfl
    rw [this]
    simpa only [App.step, ht.1, List.getElem?_nil] using h
  | click i =>
    have : c.step seconds (.click i) = c := by cases c <;> rfl
    rw [this]
    simpa only [App.step, ht.2, List.getElem?_nil] using h
  | advance ms =>
    refine ⟨h.pend, step_fresh A _ h.fresh, ?_⟩
    cases c with
    | start => exact hs
    | «at» n left =>
      obtain ⟨text, t, m, hn, hf, hl, hd⟩ := hs
      exact ⟨text, t, m, hn, hf, hl.advance ms, hd⟩
    | boom => exact hs
  | poll =>
    show CountSim seconds (c.step seconds .poll) A.poll
    cases c with
    | start =>
      refine countSim_poll h.pend h.fresh ?_
      rw [show A.fut = countdown seconds from hs]
      obtain ⟨g, b, w', h1, h2⟩ := poll_counting seconds A.world.next seconds.toNat
        { A.world with next := A.world.next + 1, prop := fun n => if n = A.world.next then fun _ => "" else A.world.prop n }
        (h.fresh.element _)
      refine ⟨_, w', ?_, h2⟩
      rw [← h1 _ _ rfl]
      simp only [countdown, poll, Fut.await, Fut.both, countFut]
    | boom =>
      obtain ⟨text, hf, hd⟩ := hs
      refine countSim_poll h.pend h.fresh ⟨_, A.world, ?_, text, rfl, hd⟩
      rw [hf]
      rfl
    | «at» n left =>
      obtain ⟨text, t, m, rfl, hf, hl, hd⟩ := hs
      cases left with
      | succ k =>
        refine countSim_poll h.pend h.fresh ⟨_, A.world, ?_, text, t, m, rfl, rfl, hl, hd⟩
        rw [hf]
        simp [countFut, poll, hl.pos]
      | zero =>
        refine countSim_poll h.pend h.fresh ?_
        obtain ⟨g, b, w', h1, h2⟩ := poll_counting seconds text m A.world h.fresh
        refine ⟨_, w', ?_, h2⟩
        rw [hf]
        refine h1 _ _ ?_
        cases m with
        | zero => simp only [poll, hl.zero, if_true, counting]
        | succ m => simp only [poll, hl.zero, if_true, counting, fresh_now h.fresh, Bool.false_eq_true, if_false]

theorem countSim_run (seconds : Int) (es : List Event) :
    CountSim seconds (Count.run seconds es) ((App.mount (countdown seconds)).run es) := by
  unfold Count.run App.run
  induction es using List.reverseRecOn with
  | nil => exact ⟨rfl, run_fresh _ [], rfl⟩
  | append_singleton es e ih =>
    rw [List.foldl_append, List.foldl_append]
    exact countSim_step ih e

/-- The page of a program after some events. -/
def pageAfter {α : Type} (f : Fut α) (es : List Event) : List View := ((App.mount f).run es).page

/-- **C78, countdown.** The page always shows the number or the text that the specification says, and the app does not end. -/
theorem countdown_page (seconds : Int) (es : List Event) :
    pageAfter (countdown seconds) es = (Count.run seconds es).page ∧ ((App.mount (countdown seconds)).run es).out = .pend := by
  have h := countSim_run seconds es
  refine ⟨?_, h.pend⟩
  have hs := h.state
  rw [pageAfter, App.page]
  cases hc : Count.run seconds es with
  | start => rw [hc] at hs; rw [show _ = countdown seconds from hs]; rfl
  | «at» n left =>
    rw [hc] at hs
    obtain ⟨text, t, m, -, hf, -, hd⟩ := hs
    rw [hf]
    simp [countFut, Fut.shown, Count.page, hd]
  | boom =>
    rw [hc] at hs
    obtain ⟨text, hf, hd⟩ := hs
    rw [hf]
    simp [countFut, Fut.shown, Count.page, hd]

/-- What the countdown shows takes time. -/
def Count.After (N T : Nat) : Count → Prop
  | .start => True
  | .at n left => 1 ≤ n ∧ n ≤ N ∧ left ≤ 1000 ∧ 1000 * N ≤ 1000 * (n - 1) + left + T
  | .boom => 1000 * N ≤ T

theorem count_after (seconds : Int) (es : List Event) : (Count.run seconds es).After seconds.toNat (time es) := by
  have hfrom : ∀ n T, n ≤ seconds.toNat → 1000 * seconds.toNat ≤ 1000 * n + T → (Count.from n).After seconds.toNat T := by
    intro n T h1 h2
    cases n with
    | zero => simp only [Count.from, Count.After]; omega
    | succ n => simp only [Count.from, Count.After]; omega
  unfold Count.run
  induction es using List.reverseRecOn with
  | nil => trivial
  | append_singleton es e ih =>
    rw [List.foldl_append, time_append]
    simp only [List.foldl_cons, List.foldl_nil]
    generalize List.foldl (Count.step seconds) .start es = c at ih
    cases c with
    | start =>
      cases e with
      | poll => exact hfrom _ _ (Nat.le_refl _) (by omega)
      | _ => trivial
    | boom => cases e <;> simp only [Count.step, Count.After] at ih ⊢ <;> omega
    | «at» n left =>
      cases e with
      | poll =>
        cases left with
        | zero =>
          simp only [Count.After] at ih
          exact hfrom _ _ (by omega) (by omega)
        | succ k => simp only [Count.step, Count.After] at ih ⊢; omega
      | advance ms => simp only [Count.step, Count.After, time] at ih ⊢; omega
      | _ => simp only [Count.step, Count.After] at ih ⊢; omega

/-- **C78, countdown, not too early.** As long as less than `seconds` seconds have passed the page shows nothing (before the
first run of the executor) or a number, which is at least the number of seconds that are left. -/
theorem countdown_not_early (seconds : Nat) (es : List Event) (h : time es < 1000 * seconds) :
    pageAfter (countdown seconds) es = [] ∨
      ∃ n, 1 ≤ n ∧ n ≤ seconds ∧ 1000 * seconds ≤ 1000 * n + time es ∧ pageAfter (countdown seconds) es = [.text (toString n)] := by
  have ha := count_after seconds es
  rw [(countdown_page seconds es).1]
  simp only [Int.toNat_natCast] at ha
  cases hc : Count.run seconds es with
  | start => exact .inl rfl
  | boom => rw [hc] at ha; simp only [Count.After] at ha; omega
  | «at» n left =>
    rw [hc] at ha
    simp only [Count.After] at ha
    exact .inr ⟨n, by omega, by omega, by omega, rfl⟩

/-- A second passes and the executor runs, `k` times. -/
def seconds : Nat → List Event
  | 0 => []
  | k + 1 => seconds k ++ [.advance 1000, .poll]

/-- **C78, countdown, not too late.** If the executor runs as soon as a second is over, then after `k` seconds the page shows
`n - k`, and after `n` seconds the end. -/
theorem countdown_on_time (n k : Nat) :
    pageAfter (countdown n) (.poll :: seconds k) = if k < n then [.text (toString (n - k))] else [.text "boom!"] := by
  have key : Count.run n (.poll :: seconds k) = .from (n - k) := by
    induction k with
    | zero => rfl
    | succ k ih =>
      rw [seconds, ← List.cons_append, Count.run, List.foldl_append]
      rw [Count.run] at ih
      rw [ih]
      rcases hm : n - k with _ | m
      · rw [show n - (k + 1) = 0 by omega]; rfl
      · rw [show n - (k + 1) = m by omega]; rfl
  rw [(countdown_page _ _).1, key]
  split
  · obtain ⟨m, hm⟩ : ∃ m, n - k = m + 1 := ⟨n - k - 1, by omega⟩
    rw [hm]; rfl
  · rw [show n - k = 0 by omega]; rfl

example : pageAfter (countdown 3) (.poll :: seconds 2) = [.text "1"] ∧ pageAfter (countdown 3) (.poll :: seconds 3) = [.text "boom!"] ∧
    pageAfter (countdown (-5)) [.poll] = [.text "boom!"] := by
  refine ⟨?_, ?_, ?_⟩ <;> rw [(countdown_page _ _).1] <;> rfl

/-! ## The button that disappears: `dynamicity/dynamic_slot.rs:43-66` -/

/-- `show_button_and_remove_2`, `dynamic_slot.rs:54-66` -/
def showAndRemove : Fut Unit :=
  .create fun b =>
  .bind (runFor 3000 (.node .button b false (.text "I will disappear soon!" false))) fun _ =>
  .bind (runFor 3000 (.text "The button is gone!" false)) .pure

/-- Specification: what is shown and for how long. -/
inductive Show
  | start
  | button (left : Nat)
  | text (left : Nat)
  | gone

def Show.page : Show → List View
  | .start => []
  | .button _ => [.elem .button "" "" [.text "I will disappear soon!"]]
  | .text _ => [.text "The button is gone!"]
  | .gone => []

/-- A click on the button runs the executor. -/
def Show.step : Show → Event → Show
  | .start, .poll => .button 3000
  | .button left, .advance ms => .button (left - ms)
  | .button 0, .poll => .text 3000
  | .button 0, .click 0 => .text 3000
  | .text left, .advance ms => .text (left - ms)
  | .text 0, .poll => .gone
  | s, _ => s

def Show.run (es : List Event) : Show := es.foldl Show.step .start

/-- The state of the program. -/
def ShowState (A : App Unit) : Show → Prop
  | .start => A.fut = showAndRemove ∧ A.out = .pend
  | .button left => A.out = .pend ∧ ∃ b t,
      A.fut = .bind (.bind (.race (.node .button b true (.text "I will disappear soon!" true)) (.elapsed t)) .pure) (fun _ =>
        .bind (runFor 3000 (.text "The button is gone!" false)) .pure) ∧
      Left A.world t left ∧ ∀ k, A.world.prop b k = ""
  | .text left => A.out = .pend ∧ ∃ t,
      A.fut = .bind (.bind (.race (.text "The button is gone!" true) (.elapsed t)) .pure) .pure ∧ Left A.world t left
  | .gone => A.out = .ready () ∧ A.fut = .pure ()

theorem show_step {s : Show} {A : App Unit} (hw : Fresh A.world) (h : ShowState A s) (e : Event) :
    ShowState (A.step e) (s.step e) := by
  obtain ⟨f, w, o⟩ := A
  cases s with
  | start =>
    obtain ⟨rfl, rfl⟩ : f = showAndRemove ∧ o = .pend := h
    cases e with
    | poll =>
      have hn : w.fired (w.next + 1) = false := hw.fired _ (by simp)
      have hp : poll showAndRemove w = (.bind (.bind (.race (.node .button w.next true (.text "I will disappear soon!" true))
          (.elapsed (w.next + 1))) .pure) (fun _ => .bind (runFor 3000 (.text "The button is gone!" false)) .pure),
          { w with
            next := w.next + 1 + 1
            prop := fun n => if n = w.next then fun _ => "" else w.prop n
            due := fun h => if h = w.next + 1 then some (w.now + 3000) else w.due h }, .pend) := by
        simp [showAndRemove, runFor, poll, Fut.await, hn]
      refine ⟨?_, w.next, w.next + 1, ?_, ?_, ?_⟩ <;> simp only [App.step, App.poll, hp]
      · refine ⟨w.now + 3000, if_pos rfl, by simp, ?_⟩
        exact hn.trans (decide_eq_false (by simp only; omega)).symm
      · simp
    | _ => exact ⟨rfl, rfl⟩
  | gone =>
    obtain ⟨rfl, rfl⟩ : o = .ready () ∧ f = .pure () := h
    cases e <;> exact ⟨rfl, rfl⟩
  | text left =>
    obtain ⟨rfl, t, rfl, hl⟩ := h
    cases e with
    | type i x => exact ⟨rfl, t, rfl, hl⟩
    | click i => exact ⟨rfl, t, rfl, hl⟩
    | advance ms => exact ⟨rfl, t, rfl, hl.advance ms⟩
    | poll =>
      cases left with
      | zero =>
        have hp : w.fired t = true := hl.zero
        constructor <;> simp [App.step, App.poll, poll, hp]
      | succ n =>
        have hp : w.fired t = false := hl.pos
        refine ⟨?_, t, ?_, ?_⟩ <;> simp [App.step, App.poll, poll, hp]
        exact hl
  | button left =>
    obtain ⟨rfl, b, t, rfl, hl, hb⟩ := h
    replace hw : Fresh w := hw
    replace hl : Left w t left := hl
    replace hb : ∀ k, w.prop b k = "" := hb
    have go : ∀ w : World, Fresh w → Left w t left → (∀ k, w.prop b k = "") →
        ShowState (App.poll ⟨.bind (.bind (.race (.node .button b true (.text "I will disappear soon!" true)) (.elapsed t)) .pure)
          (fun _ => .bind (runFor 3000 (.text "The button is gone!" false)) .pure), w, .pend⟩)
          (if left = 0 then .text 3000 else .button left) := by
      intro w hw hl hb
      cases left with
      | zero =>
        have hn := fresh_now hw
        have hp := hl.zero
        refine ⟨?_, w.next, ?_, ?_⟩ <;> simp [App.poll, poll, hp, hn, runFor, Fut.await]
        refine ⟨w.now + 3000, if_pos rfl, by simp, ?_⟩
        exact hn.trans (decide_eq_false (by simp only; omega)).symm
      | succ n =>
        have hp := hl.pos
        refine ⟨?_, b, t, ?_, ?_, ?_⟩ <;> simp [App.poll, poll, hp]
        · exact hl
        · exact hb
    cases e with
    | type i x => exact ⟨rfl, b, t, rfl, hl, hb⟩
    | click i =>
      have ht : (Fut.targets .button (.bind (.bind (.race (.node .button b true (.text "I will disappear soon!" true)) (.elapsed t))
          .pure) (fun _ => .bind (runFor 3000 (.text "The button is gone!" false)) .pure) : Fut Unit)) = [b] := rfl
      cases i with
      | succ i =>
        have : (Show.button left).step (.click (i + 1)) = .button left := by cases left <;> rfl
        rw [this]
        exact ⟨rfl, b, t, rfl, hl, hb⟩
      | zero =>
        have : (Show.button left).step (.click 0) = if left = 0 then .text 3000 else .button left := by cases left <;> rfl
        rw [this]
        simp only [App.step, ht, List.getElem?_cons_zero]
        refine go { w with fired := fun h => w.fired h || w.listens h == some b } ⟨fun j hj => ?_, hw.listens, hw.due, hw.apart⟩ (hl.click hw _) hb
        simp [hw.fired j hj, hw.listens j hj]
    | advance ms => exact ⟨rfl, b, t, rfl, hl.advance ms, hb⟩
    | poll =>
      have : (Show.button left).step .poll = if left = 0 then .text 3000 else .button left := by cases left <;> rfl
      rw [this]
      exact go w hw hl hb

/-- **C78, the button that disappears.** The page shows the button, then the text, then nothing, each for at least three seconds
and until the executor runs. -/
theorem showAndRemove_page (es : List Event) : pageAfter showAndRemove es = (Show.run es).page := by
  have h : ShowState ((App.mount showAndRemove).run es) (Show.run es) := by
    unfold Show.run
    induction es using List.reverseRecOn with
    | nil => exact ⟨rfl, rfl⟩
    | append_singleton es e ih =>
      have hr : (App.mount showAndRemove).run (es ++ [e]) = ((App.mount showAndRemove).run es).step e := by
        rw [App.run, List.foldl_append]; rfl
      rw [hr, List.foldl_append]
      exact show_step (run_fresh _ es) ih e
  rw [pageAfter, App.page]
  cases hc : Show.run es with
  | start => rw [hc] at h; rw [h.1]; rfl
  | button left =>
    rw [hc] at h
    obtain ⟨-, b, t, hf, -, hb⟩ := h
    rw [hf]
    simp [Fut.shown, Show.page, hb]
  | text left =>
    rw [hc] at h
    obtain ⟨-, t, hf, -⟩ := h
    rw [hf]; rfl
  | gone => rw [hc] at h; rw [h.2]; rfl

/-- What is shown takes time. -/
def Show.After (T : Nat) : Show → Prop
  | .start => True
  | .button left => 3000 ≤ left + T
  | .text left => 6000 ≤ left + T
  | .gone => 6000 ≤ T

theorem show_after (es : List Event) : (Show.run es).After (time es) := by
  unfold Show.run
  induction es using List.reverseRecOn with
  | nil => trivial
  | append_singleton es e ih =>
    rw [List.foldl_append, time_append]
    simp only [List.foldl_cons, List.foldl_nil]
    generalize List.foldl Show.step .start es = s at ih
    rcases s with _ | left | left | _
    · cases e <;> simp [Show.step, Show.After]
    · cases e with
      | advance ms => simp only [Show.step, Show.After, time] at ih ⊢; omega
      | poll => cases left <;> simp only [Show.step, Show.After] at ih ⊢ <;> omega
      | click i => cases left <;> cases i <;> simp only [Show.step, Show.After] at ih ⊢ <;> omega
      | type i x => cases left <;> simp only [Show.step, Show.After] at ih ⊢ <;> omega
    · cases e with
      | advance ms => simp only [Show.step, Show.After, time] at ih ⊢; omega
      | poll => cases left <;> simp only [Show.step, Show.After] at ih ⊢ <;> omega
      | click i => cases left <;> simp only [Show.step, Show.After] at ih ⊢ <;> omega
      | type i x => cases left <;> simp only [Show.step, Show.After] at ih ⊢ <;> omega
    · cases e <;> simp only [Show.step, Show.After] at ih ⊢ <;> omega

/-- **C78, not too early.** Once the executor has run, the button stays for three seconds and the text is not gone before six. -/
theorem showAndRemove_stays (es : List Event) :
    (time es < 3000 → pageAfter showAndRemove (.poll :: es) = [.elem .button "" "" [.text "I will disappear soon!"]]) ∧
    (time es < 6000 → pageAfter showAndRemove (.poll :: es) ≠ []) := by
  have h := show_after (.poll :: es)
  have hs : ∀ es, Show.run (.poll :: es) ≠ .start := by
    intro es
    unfold Show.run
    induction es using List.reverseRecOn with
    | nil => simp [Show.step]
    | append_singleton es e ih =>
      rw [← List.cons_append, List.foldl_append]
      generalize List.foldl Show.step .start (.poll :: es) = s at ih
      rcases s with _ | left | left | _
      · exact absurd rfl ih
      · rcases e with _ | i | _ | _ <;> cases left <;> try simp [Show.step]
        all_goals cases i <;> simp
      · cases e <;> cases left <;> simp [Show.step]
      · cases e <;> simp [Show.step]
  rw [showAndRemove_page]
  cases hc : Show.run (.poll :: es) with
  | start => exact absurd hc (hs es)
  | button left => exact ⟨fun _ => rfl, fun _ => by simp [Show.page]⟩
  | text left =>
    rw [hc] at h
    have hl : left ≤ 3000 := by
      have key : ∀ es : List Event, match Show.run es with
          | .text left => left ≤ 3000
          | _ => True := by
        intro es
        unfold Show.run
        induction es using List.reverseRecOn with
        | nil => trivial
        | append_singleton es e ih =>
          rw [List.foldl_append]
          generalize List.foldl Show.step .start es = s at ih
          rcases s with _ | left | left | _
          · cases e <;> trivial
          · rcases e with _ | i | _ | _ <;> cases left <;> try simp [Show.step]
            all_goals cases i <;> simp
          · simp only at ih
            cases e <;> cases left <;> simp [Show.step] <;> omega
          · cases e <;> trivial
      have := key (.poll :: es)
      rw [hc] at this
      exact this
    simp only [Show.After, time] at h
    exact ⟨fun _ => by omega, fun _ => by simp [Show.page]⟩
  | gone =>
    rw [hc] at h
    simp only [Show.After, time] at h
    exact ⟨fun _ => by omega, fun _ => by omega⟩

example : pageAfter showAndRemove [.poll, .advance 2999, .poll] = [.elem .button "" "" [.text "I will disappear soon!"]] ∧
    pageAfter showAndRemove [.poll, .advance 3000, .poll, .advance 10] = [.text "The button is gone!"] ∧
    pageAfter showAndRemove [.poll, .advance 3000, .poll, .advance 3000, .poll] = [] := by
  refine ⟨?_, ?_, ?_⟩ <;> rw [showAndRemove_page] <;> rfl

/-! ## Components without behaviour: `building_ui/` -/

/-- A component as in `building_ui/html.rs:6-43` and `building_ui/components.rs:8-44`: a tree of elements and texts. -/
inductive Ui
  | text (s : String)
  | elem (tag : Tag) (h : tag ≠ .text) (kid : Ui)
  /-- `NoChild` -/
  | nothing
  /-- `join((l, r))` -/
  | both (l r : Ui)

/-- What is written. -/
def Ui.view : Ui → List View
  | .text s => [.text s]
  | .elem tag _ kid => [.elem tag "" "" kid.view]
  | .nothing => []
  | .both l r => l.view ++ r.view

/-- The expression that makes the component, `Div::new().render(join((Button::new().render(…), …)))`, and what is done with it. -/
def Ui.build {β : Type} : Ui → ((Σ α : Type, Fut α) → Fut β) → Fut β
  | .text s, rest => rest ⟨Unit, .text s false⟩
  | .elem tag _ kid, rest => .create fun n => kid.build fun f => rest ⟨f.1, .node tag n false f.2⟩
  | .nothing, rest => rest ⟨Unit, .pending⟩
  | .both l r, rest => l.build fun f => r.build fun g => rest ⟨f.1 × g.1, .both f.2 g.2⟩

/-- `async fn component() { ui.await; }` -/
def Ui.component (ui : Ui) : Fut Unit := ui.build fun f => .bind f.2 fun _ => .pure ()

/-- The component has been made, and polled. -/
inductive Built (w : World) : Bool → Ui → (α : Type) → Fut α → Prop
  | text (p : Bool) (s : String) (α : Type) : Built w p (.text s) α (.text s p)
  | elem (p : Bool) (tag : Tag) (h : tag ≠ .text) (kid : Ui) (α : Type) (f : Fut α) (n : Nat) (hn : n < w.next)
    (hp : ∀ k, w.prop n k = "") (hk : Built w p kid α f) : Built w p (.elem tag h kid) α (.node tag n p f)
  | nothing (p : Bool) (α : Type) : Built w p .nothing α .pending
  | both (p : Bool) (l r : Ui) (α β : Type) (f : Fut α) (g : Fut β) (hf : Built w p l α f) (hg : Built w p r β g) :
    Built w p (.both l r) (α × β) (.join f none g none)

theorem Built.mono {w w' : World} {p : Bool} {ui : Ui} {α : Type} {f : Fut α} (h : Built w p ui α f) (hn : w.next ≤ w'.next)
    (hp : ∀ n, n < w.next → w'.prop n = w.prop n) : Built w' p ui α f := by
  induction h with
  | text s α => exact .text p s α
  | nothing α => exact .nothing p α
  | both l r α β f g _ _ ih1 ih2 => exact .both p l r α β f g ih1 ih2
  | elem tag h kid α f n hl hq _ ih => exact .elem p tag h kid α f n (by omega) (by rw [hp n hl]; exact hq) ih

theorem Built.poll {w : World} {ui : Ui} {α : Type} {f : Fut α} {p : Bool} (h : Built w p ui α f) (w' : World) :
    ∃ f', Flow.poll f w' = (f', w', .pend) ∧ Built w true ui α f' := by
  induction h generalizing w' with
  | text s α => exact ⟨_, rfl, .text true s α⟩
  | nothing α => exact ⟨_, rfl, .nothing true α⟩
  | both l r α β f g _ _ ih1 ih2 =>
    obtain ⟨f', h1, h2⟩ := ih1 w'
    obtain ⟨g', h3, h4⟩ := ih2 w'
    exact ⟨_, by simp only [Flow.poll, h1, h3], .both true l r α β f' g' h2 h4⟩
  | elem tag h kid α f n hl hq _ ih =>
    obtain ⟨f', h1, h2⟩ := ih w'
    exact ⟨_, by simp only [Flow.poll, h1], .elem true tag h kid α f' n hl hq h2⟩

theorem Built.shown {w : World} {ui : Ui} {α : Type} {f : Fut α} {p : Bool} (h : Built w p ui α f) (hp : p = true) :
    f.shown w = ui.view := by
  induction h with
  | text s α => subst hp; rfl
  | nothing α => rfl
  | both l r α β f g _ _ ih1 ih2 => simp only [Fut.shown, Ui.view, ih1, ih2]
  | elem tag h kid α f n hl hq _ ih =>
    subst hp
    cases tag with
    | text => exact absurd rfl h
    | _ => simp only [Fut.shown, Ui.view, hq, ih]

theorem Ui.poll_build {β : Type} (ui : Ui) (rest : (Σ α : Type, Fut α) → Fut β) (w : World) :
    ∃ α, ∃ f : Fut α, ∃ w', poll (ui.build rest) w = poll (rest ⟨α, f⟩) w' ∧ Built w' false ui α f ∧ w.next ≤ w'.next ∧
      ∀ n, n < w.next → w'.prop n = w.prop n := by
  induction ui generalizing w rest with
  | text s => exact ⟨_, _, w, rfl, .text false s _, Nat.le_refl _, fun _ _ => rfl⟩
  | nothing => exact ⟨_, _, w, rfl, .nothing false _, Nat.le_refl _, fun _ _ => rfl⟩
  | both l r ih1 ih2 =>
    obtain ⟨α, f, w1, h1, h2, h3, h4⟩ := ih1 (fun f => r.build fun g => rest ⟨f.1 × g.1, .both f.2 g.2⟩) w
    obtain ⟨γ, g, w2, k1, k2, k3, k4⟩ := ih2 (fun g => rest ⟨α × g.1, .both f g.2⟩) w1
    exact ⟨_, _, w2, h1.trans k1, .both false l r α γ f g (h2.mono k3 k4) k2, by omega,
      fun n hn => (k4 n (by omega)).trans (h4 n hn)⟩
  | elem tag h kid ih =>
    obtain ⟨α, f, w1, h1, h2, h3, h4⟩ := ih (fun f => rest ⟨f.1, .node tag w.next false f.2⟩)
      { w with next := w.next + 1, prop := fun n => if n = w.next then fun _ => "" else w.prop n }
    simp only at h3 h4
    refine ⟨_, _, w1, h1, .elem false tag h kid α f w.next (by omega) ?_ h2, by omega, fun n hn => ?_⟩
    · intro k
      rw [h4 w.next (by omega)]; simp
    · rw [h4 n (by omega), if_neg (by omega)]

/-- **C78, components.** A component made of elements, texts and `join` shows exactly what is written, in the order of the source,
from the first run of the executor on and forever (until somebody types something). -/
theorem component_page (ui : Ui) (es : List Event) (h : ∀ e ∈ es, ∀ i s, e ≠ .type i s) :
    pageAfter ui.component (.poll :: es) = ui.view ∧ ((App.mount ui.component).run (.poll :: es)).out = .pend := by
  have key : ∃ α, ∃ f : Fut α, ∃ w, (App.mount ui.component).run (.poll :: es) = ⟨.bind f fun _ => .pure (), w, .pend⟩ ∧
      Built w true ui α f := by
    induction es using List.reverseRecOn with
    | nil =>
      obtain ⟨α, f, w, h1, h2, -⟩ := ui.poll_build (fun f => .bind f.2 fun _ => (.pure () : Fut Unit)) .init
      obtain ⟨f', h3, h4⟩ := h2.poll w
      refine ⟨α, f', w, ?_, h4⟩
      have : poll ui.component .init = (.bind f' fun _ => .pure (), w, .pend) := by
        rw [Ui.component, h1]; simp only [poll, h3]
      simp only [App.run, List.foldl_cons, List.foldl_nil, App.step, App.poll, App.mount, this]
    | append_singleton es e ih =>
      obtain ⟨α, f, w, h1, h2⟩ := ih fun e he => h e (by simp [he])
      have hr : (App.mount ui.component).run (.poll :: (es ++ [e])) = ((App.mount ui.component).run (.poll :: es)).step e := by
        rw [← List.cons_append, App.run, List.foldl_append]; rfl
      rw [hr, h1]
      have hp : ∀ w', w'.next = w.next → w'.prop = w.prop → ∃ f', App.poll ⟨.bind f fun _ => (.pure () : Fut Unit), w', .pend⟩ =
          ⟨.bind f' fun _ => .pure (), w', .pend⟩ ∧ Built w' true ui α f' := by
        intro w' hn hp
        obtain ⟨f', h3, h4⟩ := h2.poll w'
        exact ⟨f', by simp only [App.poll, poll, h3], h4.mono (by omega) fun n _ => by rw [hp]⟩
      cases e with
      | type i s => exact absurd rfl (h _ (by simp) i s)
      | click i =>
        simp only [App.step]
        split
        · obtain ⟨f', h3, h4⟩ := hp { w with fired := fun h => w.fired h || w.listens h == some _ } rfl rfl
          exact ⟨α, f', _, h3, h4⟩
        · exact ⟨α, f, w, rfl, h2⟩
      | advance ms => exact ⟨α, f, _, rfl, h2.mono (Nat.le_refl _) fun _ _ => rfl⟩
      | poll =>
        obtain ⟨f', h3, h4⟩ := hp w rfl rfl
        exact ⟨α, f', w, h3, h4⟩
  obtain ⟨α, f, w, h1, h2⟩ := key
  rw [pageAfter, h1]
  exact ⟨h2.shown rfl, rfl⟩

/-- `lots_of_span`, `building_ui/components.rs:8-23`, with `n` spans (it has 100); the vector and the triple are nested
pairs, and the end of the vector never finishes (which nobody can see, as the button never does). `lots_of_span_2` (27-44) is the same with functions. -/
def spans : Nat → Nat → Ui
  | _, 0 => .nothing
  | i, n + 1 => .both (.elem .span (by decide) (.text (toString i))) (spans (i + 1) n)

def lotsOfSpan (n : Nat) : Ui :=
  .elem .div (by decide) (.both (.elem .button (by decide) (.text "Hello World"))
    (.both (spans 1 n) (.elem .input (by decide) .nothing)))

theorem spans_view (i n : Nat) : (spans i n).view = (List.range' i n).map fun j => .elem .span "" "" [.text (toString j)] := by
  induction n generalizing i with
  | zero => rfl
  | succ n ih => simp [spans, Ui.view, ih, List.range'_succ]

/-- **C78, spans.** A button, the spans with the numbers from 1 to `n` in order, and the input field. -/
theorem lotsOfSpan_page (n : Nat) : pageAfter (lotsOfSpan n).component [.poll] =
    [.elem .div "" "" (.elem .button "" "" [.text "Hello World"] ::
      ((List.range' 1 n).map fun j => .elem .span "" "" [.text (toString j)]) ++ [.elem .input "" "" []])] := by
  rw [(component_page _ [] (by simp)).1]
  simp [lotsOfSpan, Ui.view, spans_view]

/-- `two_inputs`, `building_ui/siblings.rs:18-23`; `quiz`, `building_ui/html.rs:39-43`. -/
example : pageAfter (Ui.both (.elem .input (by decide) .nothing) (.elem .input (by decide) .nothing)).component [.poll, .click 0] =
      [.elem .input "" "" [], .elem .input "" "" []] ∧
    pageAfter (Ui.elem .div (by decide) (.elem .button (by decide) (.text "Hello World"))).component [.poll, .click 0, .poll] =
      [.elem .div "" "" [.elem .button "" "" [.text "Hello World"]]] :=
  ⟨(component_page _ [.click 0] (by simp)).1, (component_page _ [.click 0, .poll] (by simp)).1⟩

end Verif.Flow.Guide
