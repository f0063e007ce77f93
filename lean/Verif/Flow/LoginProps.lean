import Verif.Flow.LoginSim
/-!
# C77: the login flow
-/
namespace Verif.Flow.Login
open Verif.Flow

/-! ## Every event leads to the right stage -/

/-- A poll after which the app is in a stage. -/
theorem sim_poll {s : Stage} {A : App Unit} (ho : A.out = .pend) (hw : Fresh A.world)
    (h : ∃ f' w', poll A.fut A.world = (f', w', .pend) ∧ State w' s f') : Sim s A.poll := by
  obtain ⟨f', w', h1, h2⟩ := h
  have g := (poll_grows A.fut A.world).fresh hw
  rw [h1] at g
  have e : A.poll = ⟨f', w', .pend⟩ := by simp only [App.poll, ho, h1]
  rw [e]
  exact ⟨rfl, g, h2⟩

/-- A poll that finds nothing new. -/
theorem sim_same {s : Stage} {A : App Unit} (h : Sim s A) (hp : poll A.fut A.world = (A.fut, A.world, .pend)) : Sim s A.poll :=
  sim_poll h.pend h.fresh ⟨_, _, hp, h.state⟩

theorem poll_timerUi {w : World} {t : Nat} {s : String} (h : w.fired t = false) :
    poll (timerUi t s) w = (timerUi t s, w, .pend) := by
  simp [timerUi, poll, h]

theorem sim_type {s : Stage} {A : App Unit} (h : Sim s A) (i : Nat) (x : String) : Sim (s.step (.type i x)) (A.step (.type i x)) := by
  have hs := h.state
  cases s with
  | form u p =>
    obtain ⟨n, hf, hl, hu, hp, hu', hp', hb⟩ := hs
    have ht : A.fut.targets .input = [n, n + 1] := by rw [hf]; rfl
    match i with
    | 0 =>
      simp only [App.step, ht, List.getElem?_cons_zero, Stage.step]
      refine ⟨h.pend, h.fresh.prop _, n, hf, hl, ?_, ?_, ?_, ?_, ?_⟩ <;> simp [*]
    | 1 =>
      simp only [App.step, ht, List.getElem?_cons_zero, List.getElem?_cons_succ, Stage.step]
      refine ⟨h.pend, h.fresh.prop _, n, hf, hl, ?_, ?_, ?_, ?_, ?_⟩ <;> simp [*]
    | i + 2 =>
      simp only [App.step, ht, List.getElem?_cons_succ, List.getElem?_nil, Stage.step]
      exact h
  | start =>
    have ht : A.fut.targets .input = [] := by rw [show A.fut = app from hs]; rfl
    simpa only [App.step, ht, List.getElem?_nil, Stage.step] using h
  | done id =>
    have ht : A.fut.targets .input = [] := by rw [show A.fut = doneFut id from hs]; rfl
    simpa only [App.step, ht, List.getElem?_nil, Stage.step] using h
  | _ =>
    obtain ⟨n, hf, -⟩ := hs
    have ht : A.fut.targets .input = [] := by rw [hf]; rfl
    simpa only [App.step, ht, List.getElem?_nil, Stage.step] using h

theorem sim_advance {s : Stage} {A : App Unit} (h : Sim s A) (ms : Nat) :
    Sim (s.step (.advance ms)) (A.step (.advance ms)) := by
  have hfr := step_fresh A (.advance ms) h.fresh
  have hl : ∀ n k, Listens A.world n k → Listens (later A.world ms) n k := by
    intro n k hk
    refine ⟨hk.1, ?_⟩
    simp [later, hk.2, h.fresh.apart k n hk.1]
  have hs := h.state
  refine ⟨h.pend, hfr, ?_⟩
  cases s with
  | form u p => obtain ⟨n, hf, hk, hr⟩ := hs; exact ⟨n, hf, hl _ _ hk, hr⟩
  | start => exact hs
  | done id => exact hs
  | refused => obtain ⟨n, hf, hk, hr⟩ := hs; exact ⟨n, hf, hl _ _ hk, hr⟩
  | choosing => obtain ⟨n, hf, hk⟩ := hs; exact ⟨n, hf, fun i hi => ⟨hl _ _ (hk i hi).1, (hk i hi).2⟩⟩
  | _ => obtain ⟨t, hf, hk⟩ := hs; exact ⟨t, hf, hk.advance ms⟩

theorem sim_poll_step {s : Stage} {A : App Unit} (h : Sim s A) : Sim (s.step .poll) (A.step .poll) := by
  have hs := h.state
  show Sim (s.step .poll) A.poll
  cases s with
  | start =>
    refine sim_poll h.pend h.fresh ?_
    rw [show A.fut = app from hs]
    exact poll_start _ h.fresh
  | form u p =>
    obtain ⟨n, hf, hk, -⟩ := hs
    refine sim_same h ?_
    rw [hf]
    simp [inLoop, formFut, formUi, poll, hk.2]
  | checking u p left =>
    obtain ⟨t, hf, hk⟩ := hs
    cases left with
    | zero =>
      refine sim_poll h.pend h.fresh ?_
      rw [hf]
      exact poll_check _ h.fresh t u p hk.zero
    | succ n =>
      refine sim_same h ?_
      rw [hf]
      simp [inLoop, checkFut, poll, poll_timerUi hk.pos]
  | refused =>
    obtain ⟨n, hf, hk, -⟩ := hs
    refine sim_same h ?_
    rw [hf]
    simp [inLoop, refusedFut, poll, hk.2]
  | fetching left =>
    obtain ⟨t, hf, hk⟩ := hs
    cases left with
    | zero =>
      refine sim_poll h.pend h.fresh ?_
      rw [hf]
      exact poll_fetch _ h.fresh t hk.zero
    | succ n =>
      refine sim_same h ?_
      rw [hf]
      simp [fetchFut, poll, poll_timerUi hk.pos]
  | choosing =>
    obtain ⟨n, hf, hk⟩ := hs
    have h0 := (hk 0 (by decide)).1.2
    have h1 := (hk 1 (by decide)).1.2
    have h2 := (hk 2 (by decide)).1.2
    have h3 := (hk 3 (by decide)).1.2
    simp only [Nat.mul_zero, Nat.add_zero, Nat.mul_one, Nat.reduceMul] at h0 h1 h2 h3
    refine sim_same h ?_
    rw [hf]
    simp [chooseFut, choiceUi, poll, h0, h1, h2, h3]
  | loading id left =>
    obtain ⟨t, hf, hk⟩ := hs
    cases left with
    | zero =>
      refine sim_poll h.pend h.fresh ?_
      rw [hf]
      exact poll_load _ t id hk.zero
    | succ n =>
      refine sim_same h ?_
      rw [hf]
      simp [loadFut, poll, poll_timerUi hk.pos]
  | done id =>
    refine sim_same h ?_
    rw [show A.fut = doneFut id from hs]
    rfl

theorem sim_click {s : Stage} {A : App Unit} (h : Sim s A) (i : Nat) : Sim (s.step (.click i)) (A.step (.click i)) := by
  have hs := h.state
  have fresh : ∀ n, Fresh { A.world with fired := fun k => A.world.fired k || A.world.listens k == some n } := by
    intro n
    refine ⟨fun j hj => ?_, h.fresh.listens, h.fresh.due, h.fresh.apart⟩
    simp [h.fresh.fired j hj, h.fresh.listens j hj]
  have none' : A.fut.targets .button = [] → s.step (.click i) = s → Sim (s.step (.click i)) (A.step (.click i)) := by
    intro h1 h2
    rw [h2]
    simpa only [App.step, h1, List.getElem?_nil] using h
  cases s with
  | start => exact none' (by rw [show A.fut = app from hs]; rfl) rfl
  | done id => exact none' (by rw [show A.fut = doneFut id from hs]; rfl) rfl
  | checking u p left => obtain ⟨t, hf, hk⟩ := hs; exact none' (by rw [hf]; rfl) rfl
  | fetching left => obtain ⟨t, hf, hk⟩ := hs; exact none' (by rw [hf]; rfl) rfl
  | loading id left => obtain ⟨t, hf, hk⟩ := hs; exact none' (by rw [hf]; rfl) rfl
  | form u p =>
    obtain ⟨n, hf, hk, hu, hp, -⟩ := hs
    have ht : A.fut.targets .button = [n + 2] := by rw [hf]; rfl
    cases i with
    | zero =>
      simp only [App.step, ht, List.getElem?_cons_zero, Stage.step]
      refine sim_poll h.pend (fresh _) ?_
      simp only [hf]
      rw [← hu, ← hp]
      exact poll_form _ (fresh _) n (by simp [hk.1])
    | succ i => simpa only [App.step, ht, List.getElem?_cons_succ, List.getElem?_nil, Stage.step] using h
  | refused =>
    obtain ⟨n, hf, hk, -⟩ := hs
    have ht : A.fut.targets .button = [n] := by rw [hf]; rfl
    cases i with
    | zero =>
      simp only [App.step, ht, List.getElem?_cons_zero, Stage.step]
      refine sim_poll h.pend (fresh _) ?_
      simp only [hf]
      exact poll_refused _ (fresh _) n (by simp [hk.1])
    | succ i => simpa only [App.step, ht, List.getElem?_cons_succ, List.getElem?_nil, Stage.step] using h
  | choosing =>
    obtain ⟨n, hf, hk⟩ := hs
    have ht : A.fut.targets .button = [n, n + 2, n + 4, n + 6] := by rw [hf]; rfl
    have go : ∀ i : Nat, i < 4 → Sim (.loading (i + 1) 1500) (App.poll { A with world := { A.world with
        fired := fun k => A.world.fired k || A.world.listens k == some (n + 2 * i) } }) := by
      intro i hi
      refine sim_poll h.pend (fresh _) ?_
      simp only [hf]
      refine poll_choose _ (fresh _) n i hi ?_ ?_
      · simp [(hk i hi).1.1]
      · intro j hj hji
        simp only [(hk j hj).1.1, (hk j hj).1.2, Bool.false_or, beq_eq_false_iff_ne, ne_eq, Option.some.injEq]
        omega
    match i with
    | 0 =>
      simp only [App.step, ht, List.getElem?_cons_zero, Stage.step]
      exact go 0 (by decide)
    | 1 =>
      simp only [App.step, ht, List.getElem?_cons_zero, List.getElem?_cons_succ, Stage.step]
      exact go 1 (by decide)
    | 2 =>
      simp only [App.step, ht, List.getElem?_cons_zero, List.getElem?_cons_succ, Stage.step]
      exact go 2 (by decide)
    | 3 =>
      simp only [App.step, ht, List.getElem?_cons_zero, List.getElem?_cons_succ, Stage.step]
      exact go 3 (by decide)
    | i + 4 => simpa only [App.step, ht, List.getElem?_cons_succ, List.getElem?_nil, Stage.step] using h

theorem sim_step {s : Stage} {A : App Unit} (h : Sim s A) (e : Event) : Sim (s.step e) (A.step e) := by
  cases e with
  | type i x => exact sim_type h i x
  | click i => exact sim_click h i
  | advance ms => exact sim_advance h ms
  | poll => exact sim_poll_step h

theorem sim_run (es : List Event) : Sim (Stage.start.run es) ((App.mount app).run es) := by
  unfold Stage.run App.run
  induction es using List.reverseRecOn with
  | nil => exact ⟨rfl, run_fresh app [], rfl⟩
  | append_singleton es e ih =>
    rw [List.foldl_append, List.foldl_append]
    exact sim_step ih e

/-- The page after some events. -/
def pageAfter (es : List Event) : List View := ((App.mount app).run es).page

/-- **C77, stages.** After any events the page shows exactly what the stage says: nothing of an earlier stage is left over. The
app neither ends nor hangs. -/
theorem login_page (es : List Event) :
    pageAfter es = (Stage.start.run es).page ∧ ((App.mount app).run es).out = .pend :=
  ⟨(sim_run es).page, (sim_run es).pend⟩

/-! ## Who gets to see what -/

theorem Stage.run_snoc (s : Stage) (es : List Event) (e : Event) : s.run (es ++ [e]) = (s.run es).step e := by
  simp [Stage.run, List.foldl_append]

theorem Stage.run_append (s : Stage) (es es' : List Event) : s.run (es ++ es') = (s.run es).run es' := by
  simp [Stage.run, List.foldl_append]

/-- The events end with a click on the button `i` in the stage `s` and `rest`. -/
def Clicked (es : List Event) (s : Stage) (i : Nat) (rest : List Event) : Prop :=
  ∃ pre, es = pre ++ .click i :: rest ∧ Stage.start.run pre = s

theorem Clicked.snoc {es : List Event} {s : Stage} {i : Nat} {rest : List Event} (h : Clicked es s i rest) (e : Event) :
    Clicked (es ++ [e]) s i (rest ++ [e]) := by
  obtain ⟨pre, rfl, hs⟩ := h
  exact ⟨pre, by simp, hs⟩

/-- How the stages behind the login have been reached. -/
def Admitted (es : List Event) : Prop := ∃ rest, Clicked es (.form "user" "asdf") 0 rest ∧ 1500 ≤ time rest

def Chosen (es : List Event) (id : Int) (wait : Nat) : Prop :=
  ∃ i : Nat, ∃ rest, i < 4 ∧ id = i + 1 ∧ Clicked es .choosing i rest ∧ wait ≤ time rest

theorem Admitted.snoc {es : List Event} (h : Admitted es) (e : Event) : Admitted (es ++ [e]) := by
  obtain ⟨rest, h1, h2⟩ := h
  exact ⟨_, h1.snoc e, by rw [time_append]; omega⟩

theorem Chosen.snoc {es : List Event} {id : Int} {n : Nat} (h : Chosen es id n) (e : Event) : Chosen (es ++ [e]) id (n + time [e]) := by
  obtain ⟨i, rest, hi, h1, h2, h3⟩ := h
  exact ⟨i, _, hi, h1, h2.snoc e, by rw [time_append]; omega⟩

/-- What is known about the events when a stage has been reached. -/
def Reached (es : List Event) : Stage → Prop
  | .checking u p left => ∃ rest, Clicked es (.form u p) 0 rest ∧ 1500 ≤ time rest + left
  | .fetching _ => Admitted es
  | .choosing => Admitted es
  | .loading id left => Admitted es ∧ Chosen es id (1500 - left)
  | .done id => Admitted es ∧ Chosen es id 1500
  | _ => True

theorem reached (es : List Event) : Reached es (Stage.start.run es) := by
  induction es using List.reverseRecOn with
  | nil => trivial
  | append_singleton es e ih =>
    rw [Stage.run_snoc]
    have stay : ∀ s, Stage.start.run es = s → Reached (es ++ [e]) s := by
      intro s hs
      rw [hs] at ih
      cases s with
      | checking u p left =>
        obtain ⟨rest, h1, h2⟩ := ih
        exact ⟨_, h1.snoc e, by rw [time_append]; omega⟩
      | fetching left => exact Admitted.snoc ih e
      | choosing => exact Admitted.snoc ih e
      | loading id left =>
        refine ⟨ih.1.snoc e, ?_⟩
        obtain ⟨i, rest, h1, h2, h3, h4⟩ := ih.2.snoc e
        exact ⟨i, rest, h1, h2, h3, by omega⟩
      | done id =>
        refine ⟨ih.1.snoc e, ?_⟩
        obtain ⟨i, rest, h1, h2, h3, h4⟩ := ih.2.snoc e
        exact ⟨i, rest, h1, h2, h3, by omega⟩
      | _ => trivial
    have click : ∀ i, Clicked (es ++ [.click i]) (Stage.start.run es) i [] := fun i => ⟨es, rfl, rfl⟩
    generalize hs : Stage.start.run es = s at *
    cases s with
    | start => cases e <;> trivial
    | form u p =>
      cases e with
      | type i x => match i with
        | 0 => trivial
        | 1 => trivial
        | _ + 2 => trivial
      | click i => cases i with
        | zero => exact ⟨[], click 0, by simp [time]⟩
        | succ => trivial
      | _ => trivial
    | checking u p left =>
      cases e with
      | type i x => exact stay _ rfl
      | click i => exact stay _ rfl
      | advance ms =>
        obtain ⟨rest, h1, h2⟩ := ih
        exact ⟨_, h1.snoc _, by rw [time_append]; simp only [time]; omega⟩
      | poll =>
        cases left with
        | succ n => exact stay _ rfl
        | zero =>
          obtain ⟨rest, h1, h2⟩ := ih
          simp only [Stage.step]
          split
          · rename_i hc
            rw [hc.1, hc.2] at h1
            exact ⟨_, h1.snoc _, by rw [time_append]; omega⟩
          · trivial
    | refused =>
      cases e with
      | click i => cases i <;> trivial
      | _ => trivial
    | fetching left =>
      cases e with
      | poll => cases left <;> exact Admitted.snoc ih _
      | _ => exact Admitted.snoc ih _
    | choosing =>
      have go : ∀ i : Nat, i < 4 → Reached (es ++ [.click i]) (.loading (i + 1) 1500) := fun i hi =>
        ⟨Admitted.snoc ih _, i, [], hi, rfl, click i, by simp⟩
      cases e with
      | click i => match i with
        | 0 => exact go 0 (by decide)
        | 1 => exact go 1 (by decide)
        | 2 => exact go 2 (by decide)
        | 3 => exact go 3 (by decide)
        | _ + 4 => exact stay _ rfl
      | _ => exact stay _ rfl
    | loading id left =>
      cases e with
      | advance ms =>
        refine ⟨ih.1.snoc _, ?_⟩
        obtain ⟨i, rest, h1, h2, h3, h4⟩ := ih.2.snoc (.advance ms)
        exact ⟨i, rest, h1, h2, h3, by simp only [time] at h4; omega⟩
      | poll =>
        cases left with
        | succ n => exact stay _ rfl
        | zero =>
          refine ⟨ih.1.snoc _, ?_⟩
          obtain ⟨i, rest, h1, h2, h3, h4⟩ := ih.2.snoc .poll
          exact ⟨i, rest, h1, h2, h3, by omega⟩
      | _ => exact stay _ rfl
    | done id => cases e <;> exact stay _ rfl

/-! ## In terms of pages -/

theorem page_form {s : Stage} {u p : String} (h : s.page = (Stage.form u p).page) : s = .form u p := by
  cases s <;> simp_all [Stage.page]

theorem page_choosing {s : Stage} (h : s.page = Stage.choosing.page) : s = .choosing := by
  cases s <;> simp_all [Stage.page]

/-- A page that only somebody who is logged in may see. -/
def Secret (page : List View) : Prop :=
  page = [.text "fetching list of available data"] ∨ page = Stage.choosing.page ∨ page = [.text "fetching data"] ∨
    ∃ id : Int, page = [.text s!"the connector returned: data id={id}: blah blah blah"]

theorem text_long (a b c : String) (h : a.length < b.length + c.length) (i : Int) :
    a ≠ toString b ++ toString i ++ toString c := by
  intro he
  have := congrArg String.length he
  simp only [String.length_append, toString] at this
  omega

/-- **C77, password.** If the page shows anything that comes after the login, then at some moment before, the form showed the
user name `user` and the password `asdf` when Login was clicked, and since then at least 1500 ms have passed. -/
theorem login_needs_password (es : List Event) (h : Secret (pageAfter es)) :
    ∃ pre rest, es = pre ++ .click 0 :: rest ∧ pageAfter pre = (Stage.form "user" "asdf").page ∧ 1500 ≤ time rest := by
  have hr := reached es
  rw [(login_page es).1] at h
  have key : Admitted es := by
    cases hs : Stage.start.run es with
    | fetching left => rw [hs] at hr; exact hr
    | choosing => rw [hs] at hr; exact hr
    | loading id left => rw [hs] at hr; exact hr.1
    | done id => rw [hs] at hr; exact hr.1
    | checking u p left =>
      rw [hs] at h
      simp only [Secret, Stage.page, List.cons.injEq, View.text.injEq] at h
      rcases h with h | h | h | ⟨id, h⟩
      · exact absurd h.1 (by decide)
      · exact absurd h.2 (by simp)
      · exact absurd h.1 (by decide)
      · exact absurd h.1 (text_long _ _ _ (by decide) id)
    | _ => rw [hs] at h; simp [Secret, Stage.page] at h
  obtain ⟨rest, ⟨pre, h1, h2⟩, h3⟩ := key
  exact ⟨pre, rest, h1, by rw [(login_page pre).1, h2], h3⟩

/-- **C77, choice.** If the page shows the data with some id, then it is the id of the choice that was clicked, at least 1500 ms
before. -/
theorem login_shows_choice (es : List Event) (id : Int)
    (h : pageAfter es = [.text s!"the connector returned: data id={id}: blah blah blah"]) :
    ∃ id' : Int, pageAfter es = (Stage.done id').page ∧ ∃ (i : Nat) (pre rest : List Event), es = pre ++ .click i :: rest ∧
      pageAfter pre = Stage.choosing.page ∧ i < 4 ∧ id' = i + 1 ∧ 1500 ≤ time rest := by
  have hr := reached es
  rw [(login_page es).1] at h ⊢
  cases hs : Stage.start.run es with
  | done id' =>
    rw [hs] at hr
    obtain ⟨-, i, rest, h1, h2, ⟨pre, h3, h4⟩, h5⟩ := hr
    exact ⟨id', rfl, i, pre, rest, h3, by rw [(login_page pre).1, h4], h1, h2, h5⟩
  | checking u p left =>
    rw [hs] at h
    simp only [Stage.page, List.cons.injEq, View.text.injEq] at h
    exact absurd h.1 (text_long _ _ _ (by decide) id)
  | fetching left =>
    rw [hs] at h
    simp only [Stage.page, List.cons.injEq, View.text.injEq] at h
    exact absurd h.1 (text_long _ _ _ (by decide) id)
  | loading _ left =>
    rw [hs] at h
    simp only [Stage.page, List.cons.injEq, View.text.injEq] at h
    exact absurd h.1 (text_long _ _ _ (by decide) id)
  | _ => rw [hs] at h; simp [Stage.page] at h

/-- **C77, refusal.** With any other user name or password the page says so after 1500 ms, and Retry leads to an empty form. -/
theorem login_refuses (es : List Event) (u p : String) (h : pageAfter es = (Stage.form u p).page)
    (hn : ¬(u = "user" ∧ p = "asdf")) (ms : Nat) (hms : 1500 ≤ ms) :
    pageAfter (es ++ [.click 0, .advance ms, .poll]) = Stage.refused.page ∧
      pageAfter (es ++ [.click 0, .advance ms, .poll, .click 0]) = (Stage.form "" "").page := by
  rw [(login_page es).1] at h
  have h0 : 1500 - ms = 0 := by omega
  simp only [(login_page _).1, Stage.run_append, page_form h]
  simp [Stage.run, Stage.step, h0, hn]

/-- **C77, way through.** With the right ones, the list of choices is shown after two waits, and a choice leads to its data. -/
theorem login_admits (es : List Event) (h : pageAfter es = (Stage.form "user" "asdf").page) (a b c i : Nat) (ha : 1500 ≤ a)
    (hb : 1500 ≤ b) (hc : 1500 ≤ c) (hi : i < 4) :
    pageAfter (es ++ [.click 0, .advance a, .poll, .advance b, .poll]) = Stage.choosing.page ∧
      pageAfter (es ++ [.click 0, .advance a, .poll, .advance b, .poll, .click i, .advance c, .poll]) =
        (Stage.done (i + 1)).page := by
  rw [(login_page es).1] at h
  have h1 : 1500 - a = 0 := by omega
  have h2 : 1500 - b = 0 := by omega
  have h3 : 1500 - c = 0 := by omega
  simp only [(login_page _).1, Stage.run_append, page_form h]
  have : i = 0 ∨ i = 1 ∨ i = 2 ∨ i = 3 := by omega
  rcases this with rfl | rfl | rfl | rfl <;> simp [Stage.run, Stage.step, h1, h2, h3]

/-- **C77, no dead end.** From every situation the user can get to the data. -/
theorem login_no_dead_end (es : List Event) : ∃ es' id, pageAfter (es ++ es') = (Stage.done id).page := by
  have go : ∀ s : Stage, ∃ es' id, s.run es' = .done id := by
    intro s
    have form : ∀ u p, ∃ es' id, (Stage.form u p).run es' = .done id := fun u p =>
      ⟨[.type 0 "user", .type 1 "asdf", .click 0, .advance 1500, .poll, .advance 1500, .poll, .click 0, .advance 1500, .poll], 1,
        by simp [Stage.run, Stage.step]⟩
    cases s with
    | start => obtain ⟨es', id, h⟩ := form "" ""; exact ⟨.poll :: es', id, h⟩
    | form u p => exact form u p
    | checking u p left =>
      by_cases hc : u = "user" ∧ p = "asdf"
      · exact ⟨[.advance left, .poll, .advance 1500, .poll, .click 0, .advance 1500, .poll], 1, by simp [Stage.run, Stage.step, hc]⟩
      · obtain ⟨es', id, h⟩ := form "" ""
        refine ⟨.advance left :: .poll :: .click 0 :: es', id, ?_⟩
        simp only [Stage.run, List.foldl_cons, Stage.step, Nat.sub_self, if_neg hc]
        exact h
    | refused => obtain ⟨es', id, h⟩ := form "" ""; exact ⟨.click 0 :: es', id, h⟩
    | fetching left => exact ⟨[.advance left, .poll, .click 0, .advance 1500, .poll], 1, by simp [Stage.run, Stage.step]⟩
    | choosing => exact ⟨[.click 0, .advance 1500, .poll], 1, by simp [Stage.run, Stage.step]⟩
    | loading id left => exact ⟨[.advance left, .poll], id, by simp [Stage.run, Stage.step]⟩
    | done id => exact ⟨[], id, rfl⟩
  obtain ⟨es', id, h⟩ := go (Stage.start.run es)
  exact ⟨es', id, by rw [(login_page _).1, Stage.run_append, h]⟩

/-! ## Examples -/

/-- A wrong password first, then the right one; the second choice. -/
def exEvents : List Event :=
  [.poll, .type 0 "user", .type 1 "qwer", .click 0, .advance 1500, .poll, .click 0, .type 0 "user", .type 1 "asdf",
    .click 0, .advance 900, .poll, .advance 600, .poll, .advance 2000, .poll, .click 1, .advance 1500, .poll]

example : pageAfter exEvents = [.text "the connector returned: data id=2: blah blah blah"] ∧
    pageAfter (exEvents.take 3) = (Stage.form "user" "qwer").page ∧
    pageAfter (exEvents.take 6) = [.text "incorrect username/password", .elem .button "" "" [.text "Retry"]] ∧
    pageAfter (exEvents.take 9) = (Stage.form "user" "asdf").page ∧
    pageAfter (exEvents.take 12) = [.text "logging in"] := by
  refine ⟨?_, ?_, ?_, ?_, ?_⟩ <;> rw [(login_page _).1] <;> rfl

/-- The hypotheses of the theorems are met on the way. -/
example : Secret (pageAfter exEvents) := .inr (.inr (.inr ⟨2, by rw [(login_page _).1]; rfl⟩))

end Verif.Flow.Login
