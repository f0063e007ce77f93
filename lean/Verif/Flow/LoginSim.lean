import Verif.Flow.Idle
import Verif.Flow.Login
/-!
# The login flow does what `Stage` says

The state of the future in each stage, and that every event leads from the state of a stage to that of the next.
-/
namespace Verif.Flow.Login
open Verif.Flow

/-! ## The state of the future in each stage -/

/-- The form while it waits; its input fields, its button and the listener have the numbers from `n` on. -/
def formUi (n : Nat) : Fut Unit :=
  .race (.click (n + 2) (some (n + 3))) (.pendAfter
    (.join (.text "username is 'user' and password is 'asdf'" true : Fut Unit) none
      (.join (.node .input n true .pending : Fut Unit) none
        (.join (.node .input (n + 1) true .pending : Fut Unit) none
          (.node .button (n + 2) true (.text "Login" true) : Fut Unit) none) none) none))

def readForm (n : Nat) : Fut (String × String) :=
  .get n .value fun u => .get (n + 1) .value fun p => .pure (u, p)

def inLoop (now : Fut (Option String)) : Fut Unit := .bind (.bind (.loop attempt now) afterLogin) conclude

def formFut (n : Nat) : Fut (Option String) :=
  .bind (.bind (formUi n) fun _ => readForm n) fun c => .await (login c.1 c.2)

/-- A text while a timer runs. -/
def timerUi (t : Nat) (s : String) : Fut Unit := .race (.elapsed t) (.pendAfter (.text s true : Fut Unit))

/-- What comes after the timer in `login`. -/
def verdict (username password : String) : Fut (Option String) :=
  if username = "user" ∧ password = "asdf" then .pure (some "secrettoken")
  else
    .create fun retry =>
    .bind ((Fut.click retry none).meanwhile
      (Fut.both (.text "incorrect username/password" false : Fut Unit)
        (.node .button retry false (.text "Retry" false) : Fut Unit))) fun _ =>
    .pure none

def checkFut (t : Nat) (u p : String) : Fut (Option String) := .bind (.bind (timerUi t "logging in") fun _ => verdict u p) .pure

def refusedFut (n : Nat) : Fut (Option String) :=
  .bind (.bind (.race (.click n (some (n + 1))) (.pendAfter
    (.join (.text "incorrect username/password" true : Fut Unit) none
      (.node .button n true (.text "Retry" true) : Fut Unit) none))) fun _ => .pure none) .pure

/-- After `fetch_list`. -/
def choose : Option (List Int) → Fut (Option String)
  | none => .pure none
  | some list => .bind (showList list) fun id => .await (getData "secrettoken" id)

def fetchFut (t : Nat) : Fut Unit :=
  .bind (.bind (.bind (timerUi t "fetching list of available data") fun _ => .pure (some [1, 2, 3, 4])) choose) conclude

def choiceUi (n : Nat) (id : Int) : Fut Int :=
  .bind (.race (.click n (some (n + 1)))
    (.pendAfter (.node .button n true (.text s!"data with id {id}" true) : Fut Unit))) fun _ => .pure id

def chooseFut (n : Nat) : Fut Unit :=
  .bind (.bind (.bind (.race (.pendAfter (.text "which one do you want?" true : Fut Unit))
    (.race (choiceUi n 1) (.race (choiceUi (n + 2) 2) (.race (choiceUi (n + 4) 3) (.race (choiceUi (n + 6) 4) .pending)))))
    .pure) fun id => .await (getData "secrettoken" id)) conclude

def loadFut (t : Nat) (id : Int) : Fut Unit :=
  .bind (.bind (.bind (timerUi t "fetching data") fun _ => .pure (some s!"data id={id}: blah blah blah")) .pure) conclude

def doneFut (id : Int) : Fut Unit := .bind (.text s!"the connector returned: data id={id}: blah blah blah" true) .pure

/-- Listener `h` waits for a click on `n`. -/
def Listens (w : World) (n h : Nat) : Prop := w.listens h = some n ∧ w.fired h = false

def State (w : World) : Stage → Fut Unit → Prop
  | .start, f => f = app
  | .form u p, f => ∃ n, f = inLoop (formFut n) ∧ Listens w (n + 2) (n + 3) ∧ w.prop n .value = u ∧ w.prop (n + 1) .value = p ∧
      w.prop n .placeholder = "Username" ∧ w.prop (n + 1) .placeholder = "Password" ∧ ∀ k, w.prop (n + 2) k = ""
  | .checking u p left, f => ∃ t, f = inLoop (checkFut t u p) ∧ Left w t left
  | .refused, f => ∃ n, f = inLoop (refusedFut n) ∧ Listens w n (n + 1) ∧ ∀ k, w.prop n k = ""
  | .fetching left, f => ∃ t, f = fetchFut t ∧ Left w t left
  | .choosing, f => ∃ n, f = chooseFut n ∧ ∀ i < 4, Listens w (n + 2 * i) (n + 2 * i + 1) ∧ ∀ k, w.prop (n + 2 * i) k = ""
  | .loading id left, f => ∃ t, f = loadFut t id ∧ Left w t left
  | .done id, f => f = doneFut id

structure Sim (s : Stage) (A : App Unit) : Prop where
  pend : A.out = .pend
  fresh : Fresh A.world
  state : State A.world s A.fut

/-! ## What the page shows -/

theorem Sim.page {s : Stage} {A : App Unit} (h : Sim s A) : A.page = s.page := by
  have h := h.state
  cases s with
  | start => simp only [State] at h; rw [App.page, h]; rfl
  | form u p =>
    obtain ⟨n, hf, -, hu, hp, hu', hp', hb⟩ := h
    rw [App.page, hf]
    simp [inLoop, formFut, formUi, Fut.shown, Stage.page, hu, hp, hu', hp', hb]
  | checking u p left => obtain ⟨t, hf, -⟩ := h; rw [App.page, hf]; rfl
  | refused =>
    obtain ⟨n, hf, -, hb⟩ := h
    rw [App.page, hf]
    simp [inLoop, refusedFut, Fut.shown, Stage.page, hb]
  | fetching left => obtain ⟨t, hf, -⟩ := h; rw [App.page, hf]; rfl
  | choosing =>
    obtain ⟨n, hf, hb⟩ := h
    have h0 := (hb 0 (by decide)).2
    have h1 := (hb 1 (by decide)).2
    have h2 := (hb 2 (by decide)).2
    have h3 := (hb 3 (by decide)).2
    simp only [Nat.mul_zero, Nat.add_zero, Nat.mul_one, Nat.reduceMul] at h0 h1 h2 h3
    rw [App.page, hf]
    simp only [chooseFut, choiceUi, Fut.shown, Stage.page, h0, h1, h2, h3, List.nil_append, List.append_nil, List.cons_append]
    rfl
  | loading id left => obtain ⟨t, hf, -⟩ := h; rw [App.page, hf]; rfl
  | done id => simp only [State] at h; rw [App.page, h]; rfl

/-! ## Polls that lead to the next stage -/

/-- With a new timer. -/
def withTimer (w : World) : World :=
  { w with next := w.next + 1, due := fun h => if h = w.next then some (w.now + 1500) else w.due h }

theorem left_withTimer {w : World} (hw : Fresh w) : Left (withTimer w) w.next 1500 := by
  refine ⟨w.now + 1500, if_pos rfl, by simp [withTimer], ?_⟩
  exact (fresh_now hw).trans (decide_eq_false (by simp only [withTimer]; omega)).symm

/-- A new round of the loop. -/
theorem poll_attempt (w : World) (hw : Fresh w) :
    ∃ w', poll attempt w = (formFut w.next, w', .pend) ∧ ∀ f, f = inLoop (formFut w.next) → State w' (.form "" "") f := by
  have h3 : w.fired (w.next + 3) = false := hw.fired _ (by omega)
  have e1 : w.next ≠ w.next + 1 + 1 := by omega
  refine ⟨_, rfl, ?_⟩
  rintro f rfl
  refine ⟨w.next, rfl, ⟨by simp, h3⟩, by simp [e1], by simp, by simp [e1], by simp, by simp⟩

theorem poll_start (w : World) (hw : Fresh w) :
    ∃ f' w', poll app w = (f', w', .pend) ∧ State w' (.form "" "") f' := by
  obtain ⟨w', h1, h2⟩ := poll_attempt w hw
  refine ⟨_, w', ?_, h2 _ rfl⟩
  simp only [app, connector, poll, h1, inLoop]

/-- A click on Login. -/
theorem poll_form (w : World) (hw : Fresh w) (n : Nat) (hf : w.fired (n + 3) = true) :
    ∃ f' w', poll (inLoop (formFut n)) w = (f', w', .pend) ∧
      State w' (.checking (w.prop n .value) (w.prop (n + 1) .value) 1500) f' := by
  have hn := fresh_now hw
  refine ⟨_, withTimer w, ?_, w.next, rfl, left_withTimer hw⟩
  simp [withTimer, inLoop, formFut, formUi, readForm, poll, hf, login, Fut.await, Fut.meanwhile, hn, checkFut, timerUi, verdict]

/-- The time for the check is over. -/
theorem poll_check (w : World) (hw : Fresh w) (t : Nat) (u p : String) (hf : w.fired t = true) :
    ∃ f' w', poll (inLoop (checkFut t u p)) w = (f', w', .pend) ∧
      State w' (if u = "user" ∧ p = "asdf" then .fetching 1500 else .refused) f' := by
  have hn := fresh_now hw
  by_cases hc : u = "user" ∧ p = "asdf"
  · rw [if_pos hc]
    refine ⟨_, withTimer w, ?_, w.next, rfl, left_withTimer hw⟩
    simp [withTimer, inLoop, checkFut, timerUi, verdict, hc, poll, hf, afterLogin, fetchList, Fut.meanwhile, hn, fetchFut]
    rfl
  · rw [if_neg hc]
    have h1 : w.fired (w.next + 1) = false := hw.fired _ (by omega)
    refine ⟨_, { w with
        next := w.next + 1 + 1, prop := fun n => if n = w.next then fun _ => "" else w.prop n
        listens := fun h => if h = w.next + 1 then some w.next else w.listens h }, ?_, w.next, rfl, ⟨?_, ?_⟩, ?_⟩
    rotate_left
    · simp
    · exact h1
    · simp
    · simp [inLoop, checkFut, timerUi, verdict, hc, poll, hf, Fut.meanwhile, Fut.both, refusedFut]

/-- A click on Retry. -/
theorem poll_refused (w : World) (hw : Fresh w) (n : Nat) (hf : w.fired (n + 1) = true) :
    ∃ f' w', poll (inLoop (refusedFut n)) w = (f', w', .pend) ∧ State w' (.form "" "") f' := by
  obtain ⟨w', h1, h2⟩ := poll_attempt w hw
  refine ⟨_, w', ?_, h2 _ rfl⟩
  simp [inLoop, refusedFut, poll, hf, h1]

/-- The list has been fetched. -/
theorem poll_fetch (w : World) (hw : Fresh w) (t : Nat) (hf : w.fired t = true) :
    ∃ f' w', poll (fetchFut t) w = (f', w', .pend) ∧ State w' .choosing f' := by
  have h : ∀ i, w.fired (w.next + i) = false := fun i => hw.fired _ (by omega)
  refine ⟨chooseFut w.next, { w with
      next := w.next + 8
      prop := fun n => if n = w.next + 6 then fun _ => "" else if n = w.next + 4 then fun _ => "" else
        if n = w.next + 2 then fun _ => "" else if n = w.next then fun _ => "" else w.prop n
      listens := fun h => if h = w.next + 7 then some (w.next + 6) else if h = w.next + 5 then some (w.next + 4) else
        if h = w.next + 3 then some (w.next + 2) else if h = w.next + 1 then some w.next else w.listens h }, ?_, w.next, rfl, ?_⟩
  · simp [fetchFut, timerUi, poll, hf, choose, showList, Fut.await, choice, Fut.raceAll, Fut.meanwhile]
    rfl
  · intro i hi
    have : i = 0 ∨ i = 1 ∨ i = 2 ∨ i = 3 := by omega
    refine ⟨⟨?_, h (2 * i + 1)⟩, fun k => ?_⟩
    · rcases this with rfl | rfl | rfl | rfl <;> simp
    · rcases this with rfl | rfl | rfl | rfl <;> simp

/-- A click on one of the choices. -/
theorem poll_choose (w : World) (hw : Fresh w) (n i : Nat) (hi : i < 4) (hf : w.fired (n + 2 * i + 1) = true)
    (hn : ∀ j < 4, j ≠ i → w.fired (n + 2 * j + 1) = false) :
    ∃ f' w', poll (chooseFut n) w = (f', w', .pend) ∧ State w' (.loading (i + 1) 1500) f' := by
  have hnx := fresh_now hw
  refine ⟨loadFut w.next (i + 1), withTimer w, ?_, w.next, rfl, left_withTimer hw⟩
  · have : i = 0 ∨ i = 1 ∨ i = 2 ∨ i = 3 := by omega
    have h0 := hn 0 (by decide)
    have h1 := hn 1 (by decide)
    have h2 := hn 2 (by decide)
    rcases this with rfl | rfl | rfl | rfl <;> simp at h0 h1 h2 hf <;>
      simp [chooseFut, choiceUi, poll, hf, h0, h1, h2, Fut.await, getData, Fut.meanwhile, hnx, loadFut, timerUi, withTimer]

/-- The data has been fetched. -/
theorem poll_load (w : World) (t : Nat) (id : Int) (hf : w.fired t = true) :
    ∃ f' w', poll (loadFut t id) w = (f', w', .pend) ∧ State w' (.done id) f' := by
  refine ⟨doneFut id, w, ?_, rfl⟩
  simp only [loadFut, timerUi, poll, hf, conclude, Fut.await, doneFut, if_true]
  have h : "the connector returned: " ++ (("data id=" ++ toString id) ++ ": blah blah blah") =
      ("the connector returned: data id=" ++ toString id) ++ ": blah blah blah" := by
    rw [← String.append_assoc, ← String.append_assoc]
    exact congrArg (· ++ toString id ++ ": blah blah blah") (by decide)
  exact congrArg (fun s => ((.bind (.text s true) .pure : Fut Unit), w, Out.pend)) h

end Verif.Flow.Login
