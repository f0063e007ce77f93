import Verif.Apps.TodoLemmas

/-!
# TodoMVC: proofs
-/

namespace Verif.Todo

variable {trim : Text → Text}

theorem lag_modify {a : App} {s : State} (h : Lag a s) {i : Nat} {f : Item → Item}
    (h1 : ∀ p ∈ s.items, p.1 = i → toEntry (i, f p.2) = toEntry p)
    (h2 : ∀ p ∈ s.items, p.1 = i → (f p.2).completed = p.2.completed)
    (h3 : ∀ p ∈ s.items, p.1 = i → (f p.2).checkDue = p.2.checkDue)
    (h4 : ∀ p ∈ s.items, p.1 = i → ItemOk s.filter (f p.2)) :
    Lag a { s with items := modify i f s.items } := by
  refine ⟨h.pending, ?_, h.filter, h.next, ?_, ?_, ?_, h.zombies, ?_, ?_, ?_, h.main, h.left, h.clear, h.sel⟩
  · rw [modify_entry s.items h1]; exact h.todos
  · rw [modify_fst]; exact h.nodup
  · intro q hq
    obtain ⟨p, hp, e, -⟩ := mem_modify hq
    rw [e]; exact h.below p hp
  · intro q hq
    obtain ⟨p, hp, -, ⟨e, e'⟩ | ⟨e, e'⟩⟩ := mem_modify hq
    · rw [e']; exact h4 p hp e
    · rw [e']; exact h.ok p hp
  · show s.numActive = _
    rw [activeOf_modify_same h2]; exact h.active
  · show s.numTotal = _
    rw [modify_length]; exact h.total
  · intro hd
    rcases h.toggle hd with ⟨p, hp, hpd⟩ | e | e
    · left
      by_cases hi : p.1 = i
      · exact ⟨(p.1, f p.2), by simp only [modify, List.mem_map]; exact ⟨p, hp, by simp [hi]⟩, by
          rw [← hpd]; exact h3 p hp hi⟩
      · exact ⟨p, by simp only [modify, List.mem_map]; exact ⟨p, hp, by simp [hi]⟩, hpd⟩
    · right; left
      show modify i f s.items = []
      rw [e]; rfl
    · right; right; exact e

theorem lag_reap {a : App} {s : State} (h : Lag a s) : Lag a (reap s) := by
  unfold reap
  split
  · exact h
  · rename_i z zs hz
    have hc : z.2.checked = true := h.zombies z (by rw [hz]; simp)
    have e : (-(asInt (!z.2.checked)) : Int) = 0 := by rw [hc]; rfl
    refine ⟨h.pending, h.todos, h.filter, h.next, h.nodup, h.below, h.ok, ?_, ?_, ?_, ?_, ?_, ?_, ?_, h.sel⟩
    · intro p hp
      exact h.zombies p (by rw [hz]; exact List.mem_cons_of_mem _ hp)
    · show s.numActive + -(asInt (!z.2.checked)) = _
      rw [e]
      have := h.active
      simp only [dropItem, addTotal, addActive]
      omega
    · show s.numTotal + -1 = _
      have := h.total
      rw [hz] at this
      simp only [List.length_cons] at this
      simp only [dropItem, addTotal, addActive]
      omega
    · intro hd; cases hd
    · intro hd; cases hd
    · intro hd; cases hd
    · intro hd; cases hd

theorem lag_check {a : App} {s : State} (h : Lag a s) (i : Nat) : Lag a (pollCheck i s) := by
  unfold pollCheck
  cases hf : find i s.items with
  | none => exact h
  | some t =>
    have hm := find_some hf
    have huniq : ∀ p ∈ s.items, p.1 = i → p.2 = t := fun p hp e => by
      obtain ⟨j, t'⟩ := p
      simp only at e
      subst e
      exact find_unique h.nodup hp hm
    have hok := h.ok _ hm
    simp only []
    split
    · rename_i hst
      rw [if_neg (show Event.check i ∉ s.pending by rw [h.pending]; simp)]
      split
      · rename_i hdue
        simp only [addActive]
        refine ⟨h.pending, ?_, h.filter, h.next, ?_, ?_, ?_, h.zombies, ?_, ?_, ?_, ?_, ?_, ?_, h.sel⟩ <;> try dsimp only
        · rw [modify_entry s.items (fun p _ e => by rw [← e]; rfl)]; exact h.todos
        · rw [modify_fst]; exact h.nodup
        · intro q hq
          obtain ⟨p, hp, e, -⟩ := mem_modify hq
          rw [e]; exact h.below p hp
        · intro q hq
          obtain ⟨p, hp, -, ⟨e, e'⟩ | ⟨e, e'⟩⟩ := mem_modify hq
          · have o := h.ok p hp
            rw [e']
            refine ⟨fun hs => ?_, fun _ => ⟨rfl, rfl⟩, fun hd => (by cases hd), o.vis, o.label⟩
            exact ⟨(o.fresh hs).1, rfl⟩
          · rw [e']; exact h.ok p hp
        · rw [activeOf_modify h.nodup hm, h.active, hok.due hdue]
          simp only []
          cases t.checked <;> simp [asInt] <;> omega
        · rw [h.total, modify_length]
        · intro hd; cases hd
        · exact h.main
        · intro hd; cases hd
        · intro hd; cases hd
      · exact h
    · rename_i hst
      simp only [Bool.not_eq_true] at hst
      refine lag_modify h (fun p _ e => by rw [← e]; rfl) (fun _ _ _ => rfl) (fun p hp e => ?_) (fun p hp e => ?_)
      · rw [huniq p hp e]; exact (hok.fresh hst).2.symm
      · have o := h.ok p hp
        have hp' := huniq p hp e
        have hst' : p.2.checkStarted = false := by rw [hp']; exact hst
        refine ⟨fun hs => (by cases hs), fun _ => o.clean (o.fresh hst').2, fun hd => (by cases hd), o.vis, o.label⟩

theorem lag_poll {a : App} {s : State} (h : Lag a s) (p : Poll) : Lag a (poll trim s p) := by
  have hp := h.pending
  cases p with
  | add text => simp only [poll, pollAdd, hp, List.not_mem_nil, if_false]; exact h
  | toggleAll => simp only [poll, pollToggleAll, hp, List.not_mem_nil, if_false]; exact h
  | clear => simp only [poll, pollClear, hp, List.not_mem_nil, if_false]; exact h
  | reap => exact lag_reap h
  | toggleBox =>
    simp only [poll, pollToggleBox]
    split
    · exact ⟨h.pending, h.todos, h.filter, h.next, h.nodup, h.below, h.ok, h.zombies, h.active, h.total,
        fun _ => Or.inr (Or.inr rfl), h.main, h.left, h.clear, h.sel⟩
    · exact h
  | main =>
    simp only [poll, pollMain]
    split
    · exact ⟨h.pending, h.todos, h.filter, h.next, h.nodup, h.below, h.ok, h.zombies, h.active, h.total,
        h.toggle, fun _ => rfl, h.left, h.clear, h.sel⟩
    · exact h
  | left =>
    simp only [poll, pollLeft]
    split
    · exact ⟨h.pending, h.todos, h.filter, h.next, h.nodup, h.below, h.ok, h.zombies, h.active, h.total,
        h.toggle, h.main, fun _ => rfl, h.clear, h.sel⟩
    · exact h
  | clearShown =>
    simp only [poll, pollClearShown]
    split
    · exact ⟨h.pending, h.todos, h.filter, h.next, h.nodup, h.below, h.ok, h.zombies, h.active, h.total,
        h.toggle, h.main, h.left, fun _ => rfl, h.sel⟩
    · exact h
  | filter m => simp only [poll, pollFilter, hp, List.not_mem_nil, if_false]; exact h
  | selected m =>
    simp only [poll, pollSelected]
    split
    · refine ⟨h.pending, h.todos, h.filter, h.next, h.nodup, h.below, h.ok, h.zombies, h.active, h.total,
        h.toggle, h.main, h.left, h.clear, fun k hk => ?_⟩
      by_cases e : k = m
      · subst e; simp
      · simp only [e, if_false] at hk ⊢
        exact h.sel k hk
    · exact h
  | check i => exact lag_check h i
  | label i =>
    refine lag_modify h (fun p _ e => ?_) (fun p _ _ => ?_) (fun p _ _ => ?_) (fun p hp' _ => ?_)
    · rw [← e]; split <;> rfl
    · split <;> rfl
    · split <;> rfl
    · have o := h.ok p hp'
      split
      · exact ⟨o.fresh, o.clean, o.due, o.vis, fun _ _ => rfl⟩
      · exact o
  | vis i =>
    refine lag_modify h (fun p _ e => ?_) (fun p _ _ => ?_) (fun p _ _ => ?_) (fun p hp' _ => ?_)
    · rw [← e]; split <;> rfl
    · split <;> rfl
    · split <;> rfl
    · have o := h.ok p hp'
      split
      · exact ⟨o.fresh, o.clean, o.due, fun _ _ => rfl, o.label⟩
      · exact o
  | «open» i => simp only [poll, pollOpen, hp, List.not_mem_nil, if_false]; exact h
  | close i text => simp only [poll, pollClose, hp, List.not_mem_nil, if_false]; exact h
  | delete i => simp only [poll, pollDelete, hp, List.not_mem_nil, if_false]; exact h

/-- Nothing waits but perhaps an event. -/
structure Still (s : State) : Prop where
  zombies : s.zombies = []
  toggle : s.toggleDue = false
  main : s.mainDue = false
  left : s.leftDue = false
  clear : s.clearDue = false
  sel : ∀ m, s.selectedDue m = false
  items : ∀ p ∈ s.items, p.2.checkStarted = true ∧ p.2.checkDue = false ∧ p.2.labelStarted = true ∧
    p.2.labelDue = false ∧ p.2.visStarted = true ∧ p.2.visDue = false

/-- The event that a poll takes. -/
def Poll.event : Poll → Option Event
  | .add text => some (.add text)
  | .toggleAll => some .toggleAll
  | .clear => some .clear
  | .filter m => some (.filter m)
  | .check i => some (.check i)
  | .open i => some (.dblclick i)
  | .close i text => some (.edited i text)
  | .delete i => some (.delete i)
  | _ => none

theorem still_poll {s : State} (h : Still s) (p : Poll) (hp : ∀ e, p.event = some e → e ∉ s.pending) :
    poll trim s p = s := by
  cases p with
  | add text => simp only [poll, pollAdd, if_neg (hp _ rfl)]
  | toggleAll => simp only [poll, pollToggleAll, if_neg (hp _ rfl)]
  | clear => simp only [poll, pollClear, if_neg (hp _ rfl)]
  | reap => simp only [poll, reap, h.zombies]
  | toggleBox => simp [poll, pollToggleBox, h.toggle]
  | main => simp [poll, pollMain, h.main]
  | left => simp [poll, pollLeft, h.left]
  | clearShown => simp [poll, pollClearShown, h.clear]
  | filter m => simp only [poll, pollFilter, if_neg (hp _ rfl)]
  | selected m => simp [poll, pollSelected, h.sel]
  | check i =>
    simp only [poll, pollCheck]
    cases hf : find i s.items with
    | none => rfl
    | some t =>
      have := h.items _ (find_some hf)
      simp only at this
      simp [this.1, this.2.1, hp _ rfl]
  | label i =>
    simp only [poll, pollLabel]
    rw [modify_id (fun p hp' _ => by have := h.items p hp'; simp [this.2.2.1, this.2.2.2.1])]
  | vis i =>
    simp only [poll, pollVis]
    rw [modify_id (fun p hp' _ => by have := h.items p hp'; simp [this.2.2.2.2.1, this.2.2.2.2.2])]
  | «open» i => simp only [poll, pollOpen, if_neg (hp _ rfl)]
  | close i text => simp only [poll, pollClose, if_neg (hp _ rfl)]
  | delete i => simp only [poll, pollDelete, if_neg (hp _ rfl)]

theorem modify_fixed {i : Nat} {f : Item → Item} {items : List (Nat × Item)} (h : modify i f items = items) :
    ∀ p ∈ items, p.1 = i → f p.2 = p.2 := by
  induction items with
  | nil => intro p hp; cases hp
  | cons q qs ih =>
    simp only [modify, List.map_cons, List.cons.injEq] at h
    intro p hp e
    rcases List.mem_cons.1 hp with rfl | hp
    · have := h.1
      rw [if_pos e] at this
      exact congrArg Prod.snd this
    · exact ih h.2 p hp e

theorem idle_still {s : State} (h : Idle trim s) {a : App} (hl : Lag a s) : Still s := by
  obtain ⟨h0, h⟩ := h
  have c : ∀ {b : Bool}, ¬ (b = true) → b = false := fun h => by simpa using h
  refine ⟨?_, c fun e => ?_, c fun e => ?_, c fun e => ?_, c fun e => ?_, fun m => c fun e => ?_, fun p hp => ?_⟩
  · have := congrArg (fun s => s.zombies.length) (h .reap)
    simp only [poll, reap] at this
    cases hz : s.zombies with
    | nil => rfl
    | cons z zs =>
      rw [hz] at this
      simp [dropItem, addTotal, addActive] at this
  · have := congrArg State.toggleDue (h .toggleBox)
    simp [poll, pollToggleBox, e] at this
  · have := congrArg State.mainDue (h .main)
    simp [poll, pollMain, e] at this
  · have := congrArg State.leftDue (h .left)
    simp [poll, pollLeft, e] at this
  · have := congrArg State.clearDue (h .clearShown)
    simp [poll, pollClearShown, e] at this
  · have := congrFun (congrArg State.selectedDue (h (.selected m))) m
    simp [poll, pollSelected, e] at this
  · have hlab := congrArg State.items (h (.label p.1))
    simp only [poll, pollLabel] at hlab
    replace hlab := modify_fixed hlab p hp rfl
    have hvis := congrArg State.items (h (.vis p.1))
    simp only [poll, pollVis] at hvis
    replace hvis := modify_fixed hvis p hp rfl
    have h1 : p.2.labelStarted = true ∧ p.2.labelDue = false := by
      split at hlab
      · rename_i hc
        have e1 := congrArg Item.labelStarted hlab
        have e2 := congrArg Item.labelDue hlab
        exact ⟨e1.symm, e2.symm⟩
      · rename_i hc; simpa using hc
    have h2 : p.2.visStarted = true ∧ p.2.visDue = false := by
      split at hvis
      · rename_i hc
        have e1 := congrArg Item.visStarted hvis
        have e2 := congrArg Item.visDue hvis
        exact ⟨e1.symm, e2.symm⟩
      · rename_i hc; simpa using hc
    have h3 : p.2.checkStarted = true ∧ p.2.checkDue = false := by
      have hk := congrArg State.items (h (.check p.1))
      have hki := congrArg State.numActive (h (.check p.1))
      have hf : find p.1 s.items = some p.2 := by
        cases hf : find p.1 s.items with
        | none => exact absurd rfl (find_none hf p hp)
        | some t => rw [find_unique hl.nodup (find_some hf) hp]
      simp only [poll, pollCheck, hf, h0, List.not_mem_nil, if_false] at hk
      by_cases hs : p.2.checkStarted = true
      · refine ⟨hs, c fun hd => ?_⟩
        simp only [hs, hd, if_true, addActive] at hk
        have := congrArg Item.checkDue (modify_fixed hk p hp rfl)
        rw [hd] at this
        cases this
      · rw [if_neg hs] at hk
        dsimp only at hk
        have := congrArg Item.checkStarted (modify_fixed hk p hp rfl)
        exact absurd this.symm hs
    exact ⟨h3.1, h3.2, h1.1, h1.2, h2.1, h2.2⟩

theorem sameStream_self (e : Event) : e.sameStream e = true := by
  cases e <;> simp [Event.sameStream]

theorem take_one {e : Event} {s : State} (h : s.pending = [e]) : (take e s).pending = [] := by
  simp [take, h, sameStream_self]

theorem lag_activeOf {a : App} {s : State} (hl : Lag a s) (hs : Still s) : ∀ p ∈ s.items, p.2.completed = p.2.checked ∧
    p.2.box = p.2.checked := fun p hp => by
  have := (hl.ok p hp).clean (hs.items p hp).2.1
  exact ⟨this.2, this.1⟩

/-- The checkbox for all says whether everything is done. -/
theorem activeOf_zero {items : List (Nat × Item)} (h : ∀ p ∈ items, p.2.completed = p.2.checked) :
    decide (activeOf items = 0) = (items.map toEntry).all (·.done) := by
  induction items with
  | nil => simp [activeOf]
  | cons p ps ih =>
    have ih := ih (fun q hq => h q (List.mem_cons_of_mem _ hq))
    have hp := h p (by simp)
    have hb := activeOf_bounds ps
    rw [activeOf_cons, hp, List.map_cons, List.all_cons, ← ih]
    simp only [toEntry]
    cases p.2.checked <;> simp
    omega

theorem activeOf_count {items : List (Nat × Item)} (h : ∀ p ∈ items, p.2.completed = p.2.checked) :
    activeOf items = ((items.map toEntry).filter fun e => !e.done).length := by
  induction items with
  | nil => simp [activeOf]
  | cons p ps ih =>
    have ih := ih (fun q hq => h q (List.mem_cons_of_mem _ hq))
    have hp := h p (by simp)
    rw [activeOf_cons, hp, List.map_cons, List.filter_cons, ih]
    cases hk : p.2.checked <;> simp [toEntry, hk]
    omega

theorem activeOf_any {items : List (Nat × Item)} (h : ∀ p ∈ items, p.2.completed = p.2.checked) :
    decide ((items.length : Int) > activeOf items) = (items.map toEntry).any (·.done) := by
  induction items with
  | nil => simp [activeOf]
  | cons p ps ih =>
    have ih := ih (fun q hq => h q (List.mem_cons_of_mem _ hq))
    have hp := h p (by simp)
    have hb := activeOf_bounds ps
    rw [activeOf_cons, hp, List.map_cons, List.any_cons, ← ih]
    simp only [toEntry, List.length_cons]
    cases p.2.checked
    · simp only [Bool.false_or, decide_eq_decide, Bool.false_eq_true, if_false]
      omega
    · simp only [Bool.true_or, decide_eq_true_eq, if_true]
      omega

theorem hides_eq (m : Mode) (b : Bool) : m.hides b = !m.shouldShow b := by
  cases m <;> cases b <;> rfl

/-- When nothing is left to do, the screen shows the todos. -/
theorem lag_idle {a : App} {s : State} (hl : Lag a s) (hi : Idle trim s) : s.screen = a.screen := by
  have hs := idle_still hi hl
  have hc := lag_activeOf hl hs
  have hc' : ∀ p ∈ s.items, p.2.completed = p.2.checked := fun p hp => (hc p hp).1
  have hnil : s.items = [] ↔ a.todos = [] := by rw [← hl.todos]; simp
  have hz : s.numTotal = s.items.length := by rw [hl.total, hs.zombies]; simp
  have e1 : s.screen.rows = a.screen.rows := by
    simp only [State.screen, App.screen]
    rw [← hl.todos, List.map_map]
    apply List.map_congr_left
    intro p hp
    have o := hl.ok p hp
    have st := hs.items p hp
    have := hc p hp
    simp only [Function.comp, toEntry, hides_eq]
    rw [o.label st.2.2.1 st.2.2.2.1, o.vis st.2.2.2.2.1 st.2.2.2.2.2, this.1, this.2, hl.filter]
  have e2 : s.screen.left = a.screen.left := by
    simp only [State.screen, App.screen]
    rw [hl.left hs.left, hl.active, activeOf_count hc', hl.todos]
  have e3 : s.screen.toggleBox = a.screen.toggleBox := by
    simp only [State.screen, App.screen]
    by_cases hn : s.items = []
    · rw [if_pos hn, if_pos (hnil.1 hn)]
    · rw [if_neg hn, if_neg (fun h => hn (hnil.2 h))]
      rcases hl.toggle hs.toggle with ⟨p, hp, hd⟩ | h | h
      · rw [(hs.items p hp).2.1] at hd; cases hd
      · exact absurd h hn
      · rw [h, hl.active, activeOf_zero hc', hl.todos]
  have e4 : s.screen.mainHidden = a.screen.mainHidden := by
    simp only [State.screen, App.screen]
    rw [hl.main hs.main, hz, decide_eq_decide, ← hnil]
    cases s.items with
    | nil => simp
    | cons p ps => simp; omega
  have e5 : s.screen.clearHidden = a.screen.clearHidden := by
    simp only [State.screen, App.screen]
    rw [hl.clear hs.clear, hz, hl.active, activeOf_any hc', hl.todos]
  have e6 : s.screen.selected = a.screen.selected := by
    simp only [State.screen, App.screen]
    funext m
    rw [hl.sel m (hs.sel m), hl.filter]
  cases h1 : s.screen with
  | mk r l t m c se =>
    cases h2 : a.screen with
    | mk r' l' t' m' c' se' =>
      rw [h1, h2] at e1 e2 e3 e4 e5 e6
      simp only at e1 e2 e3 e4 e5 e6
      rw [e1, e2, e3, e4, e5, e6]

theorem find_entry {a : App} {s : State} (hl : Lag a s) {i : Nat} (h : find i s.items = none) :
    ∀ e ∈ a.todos, e.id ≠ i := by
  intro e he
  rw [← hl.todos] at he
  obtain ⟨p, hp, rfl⟩ := List.mem_map.1 he
  exact find_none h p hp

theorem step_id {a : App} {f : Entry → Entry} (h : ∀ e ∈ a.todos, f e = e) : { a with todos := a.todos.map f } = a := by
  have : a.todos.map f = a.todos := by
    conv => rhs; rw [← List.map_id a.todos]
    exact List.map_congr_left h
  rw [this]

theorem modify_todos {i : Nat} {f : Item → Item} {g : Entry → Entry} {items : List (Nat × Item)} {es : List Entry}
    (h : items.map toEntry = es)
    (h1 : ∀ p ∈ items, p.1 = i → toEntry (p.1, f p.2) = g (toEntry p))
    (h2 : ∀ p ∈ items, p.1 ≠ i → toEntry p = g (toEntry p)) : (modify i f items).map toEntry = es.map g := by
  rw [← h, modify, List.map_map, List.map_map]
  apply List.map_congr_left
  intro p hp
  simp only [Function.comp]
  split
  · rename_i e; exact h1 p hp e
  · rename_i e; exact h2 p hp e

theorem step_add {a : App} {s : State} (hl : Lag a s) (text : Text) {t : State}
    (ht : t = { s with pending := [.add text] }) :
    Lag (a.step trim (.add text)) (pollAdd trim text t) := by
  subst ht
  have hm : Event.add text ∈ [Event.add text] := by simp
  simp only [pollAdd, App.step, if_pos hm]
  have hp : (take (.add text) { s with pending := [.add text] }).pending = [] := take_one rfl
  by_cases hn : trim text = []
  · rw [if_pos hn, if_pos hn]
    exact ⟨hp, hl.todos, hl.filter, hl.next, hl.nodup, hl.below, hl.ok, hl.zombies, hl.active, hl.total, hl.toggle,
      hl.main, hl.left, hl.clear, hl.sel⟩
  · rw [if_neg hn, if_neg hn]
    refine ⟨hp, ?_, hl.filter, ?_, ?_, ?_, ?_, hl.zombies, ?_, ?_, ?_, ?_, ?_, ?_, hl.sel⟩ <;>
      simp only [addTotal, addActive, take]
    · rw [List.map_append, hl.todos, hl.next]; rfl
    · rw [hl.next]
    · rw [List.map_append, List.nodup_append]
      refine ⟨hl.nodup, by simp, ?_⟩
      intro x hx y hy e
      obtain ⟨p, hp, rfl⟩ := List.mem_map.1 hx
      simp only [List.map_cons, List.map_nil, List.mem_singleton] at hy
      have := hl.below p hp
      omega
    · intro p hp
      rcases List.mem_append.1 hp with hp | hp
      · have := hl.below p hp; omega
      · simp only [List.mem_singleton] at hp
        rw [hp]; simp
    · intro p hp
      rcases List.mem_append.1 hp with hp | hp
      · exact hl.ok p hp
      · simp only [List.mem_singleton] at hp
        rw [hp]
        exact ⟨fun _ => ⟨rfl, rfl⟩, fun _ => ⟨rfl, rfl⟩, (fun h => by cases h), (fun h => by cases h),
          (fun h => by cases h)⟩
    · rw [activeOf_append, hl.active]; simp [activeOf, Item.new]
    · rw [hl.total]; simp; omega
    · intro h; cases h
    · intro h; cases h
    · intro h; cases h
    · intro h; cases h

theorem step_filter {a : App} {s : State} (hl : Lag a s) (hs : Still s) (m : Mode) {t : State}
    (ht : t = { s with pending := [.filter m] }) :
    Lag (a.step trim (.filter m)) (pollFilter m t) := by
  subst ht
  have hm : Event.filter m ∈ [Event.filter m] := by simp
  simp only [pollFilter, App.step, if_pos hm]
  have hp : (take (.filter m) { s with pending := [.filter m] }).pending = [] := take_one rfl
  refine ⟨hp, ?_, rfl, hl.next, ?_, ?_, ?_, hl.zombies, ?_, ?_, ?_, hl.main, hl.left, hl.clear, (fun _ h => by cases h)⟩ <;>
    try simp only [take]
  · rw [← hl.todos, List.map_map]; rfl
  · rw [List.map_map]; exact hl.nodup
  · intro q hq
    obtain ⟨p, hp, rfl⟩ := List.mem_map.1 hq
    exact hl.below p hp
  · intro q hq
    obtain ⟨p, hp, rfl⟩ := List.mem_map.1 hq
    have o := hl.ok p hp
    exact ⟨o.fresh, o.clean, o.due, (fun _ h => by cases h), o.label⟩
  · rw [hl.active, activeOf, activeOf, List.map_map]; rfl
  · rw [hl.total, List.length_map]
  · intro _
    rcases hl.toggle hs.toggle with ⟨p, hp, hd⟩ | h | h
    · rw [(hs.items p hp).2.1] at hd; cases hd
    · right; left; rw [h]; rfl
    · right; right; exact h

theorem step_open {a : App} {s : State} (hl : Lag a s) (i : Nat) {t : State}
    (ht : t = { s with pending := [.dblclick i] }) :
    Lag (a.step trim (.dblclick i)) (pollOpen i t) := by
  subst ht
  have hm : Event.dblclick i ∈ [Event.dblclick i] := by simp
  simp only [pollOpen, App.step, if_pos hm]
  have hp : (take (.dblclick i) { s with pending := [.dblclick i] }).pending = [] := take_one rfl
  refine ⟨hp, ?_, hl.filter, hl.next, ?_, ?_, ?_, hl.zombies, ?_, ?_, ?_, hl.main, hl.left, hl.clear, hl.sel⟩ <;>
    try simp only [take]
  · exact modify_todos hl.todos (fun p _ e => by simp [toEntry, e]) (fun p _ e => by simp [toEntry, e])
  · rw [modify_fst]; exact hl.nodup
  · intro q hq
    obtain ⟨p, hp, e, -⟩ := mem_modify hq
    rw [e]; exact hl.below p hp
  · intro q hq
    obtain ⟨p, hp, -, ⟨e, e'⟩ | ⟨e, e'⟩⟩ := mem_modify hq
    · have o := hl.ok p hp
      rw [e']; exact ⟨o.fresh, o.clean, o.due, o.vis, o.label⟩
    · rw [e']; exact hl.ok p hp
  · rw [activeOf_modify_same (fun _ _ _ => rfl)]; exact hl.active
  · rw [modify_length]; exact hl.total
  · intro hd
    rcases hl.toggle hd with ⟨p, hp, hpd⟩ | e | e
    · left
      by_cases hi : p.1 = i
      · exact ⟨(p.1, { p.2 with editing := true }), by
          simp only [modify, List.mem_map]; exact ⟨p, hp, by simp [hi]⟩, hpd⟩
      · exact ⟨p, by simp only [modify, List.mem_map]; exact ⟨p, hp, by simp [hi]⟩, hpd⟩
    · right; left; rw [e]; rfl
    · right; right; exact e

theorem step_close {a : App} {s : State} (hl : Lag a s) (i : Nat) (text : Text) {t : State}
    (he : ∀ p ∈ s.items, p.1 = i → p.2.editing = true)
    (ht : t = { s with pending := [.edited i text] }) :
    Lag (a.step trim (.edited i text)) (pollClose trim i text t) := by
  subst ht
  have hm : Event.edited i text ∈ [Event.edited i text] := by simp
  simp only [pollClose, App.step, if_pos hm]
  have hp : (take (.edited i text) { s with pending := [.edited i text] }).pending = [] := take_one rfl
  refine ⟨hp, ?_, hl.filter, hl.next, ?_, ?_, ?_, hl.zombies, ?_, ?_, ?_, hl.main, hl.left, hl.clear, hl.sel⟩ <;>
    try simp only [take]
  · exact modify_todos hl.todos (fun p hp e => by simp [toEntry, e, he p hp e]) (fun p _ e => by simp [toEntry, e])
  · rw [modify_fst]; exact hl.nodup
  · intro q hq
    obtain ⟨p, hp, e, -⟩ := mem_modify hq
    rw [e]; exact hl.below p hp
  · intro q hq
    obtain ⟨p, hp, -, ⟨e, e'⟩ | ⟨e, e'⟩⟩ := mem_modify hq
    · have o := hl.ok p hp
      rw [e']; exact ⟨o.fresh, o.clean, o.due, o.vis, (fun _ h => by cases h)⟩
    · rw [e']; exact hl.ok p hp
  · rw [activeOf_modify_same (fun _ _ _ => rfl)]; exact hl.active
  · rw [modify_length]; exact hl.total
  · intro hd
    rcases hl.toggle hd with ⟨p, hp, hpd⟩ | e | e
    · left
      by_cases hi : p.1 = i
      · exact ⟨(p.1, { p.2 with editing := false, text := trim text, labelDue := true }), by
          simp only [modify, List.mem_map]; exact ⟨p, hp, by simp [hi]⟩, hpd⟩
      · exact ⟨p, by simp only [modify, List.mem_map]; exact ⟨p, hp, by simp [hi]⟩, hpd⟩
    · right; left; rw [e]; rfl
    · right; right; exact e

theorem activeOf_filter {items : List (Nat × Item)} {f : Nat × Item → Bool}
    (h : ∀ p ∈ items, f p = false → p.2.completed = true) : activeOf (items.filter f) = activeOf items := by
  induction items with
  | nil => rfl
  | cons p ps ih =>
    have ih := ih (fun q hq => h q (List.mem_cons_of_mem _ hq))
    rw [List.filter_cons]
    by_cases hf : f p = true
    · rw [if_pos hf, activeOf_cons, activeOf_cons, ih]
    · rw [if_neg hf, activeOf_cons, ih, h p (by simp) (by simpa using hf)]
      simp

theorem filter_length (items : List (Nat × Item)) : (items.filter fun p => !p.2.checked).length +
    (items.filter fun p => p.2.checked).length = items.length := by
  induction items with
  | nil => rfl
  | cons p ps ih =>
    rw [List.filter_cons, List.filter_cons]
    cases p.2.checked <;> simp <;> omega

theorem step_clear {a : App} {s : State} (hl : Lag a s) (hs : Still s) {t : State}
    (ht : t = { s with pending := [.clear] }) :
    Lag (a.step trim .clear) (pollClear t) := by
  subst ht
  have hm : Event.clear ∈ [Event.clear] := by simp
  simp only [pollClear, App.step, if_pos hm]
  have hp : (take .clear { s with pending := [.clear] }).pending = [] := take_one rfl
  refine ⟨hp, ?_, hl.filter, hl.next, ?_, ?_, ?_, ?_, ?_, ?_, ?_, hl.main, hl.left, hl.clear, hl.sel⟩ <;>
    try simp only [take]
  · rw [← hl.todos, List.filter_map]; rfl
  · exact hl.nodup.sublist (List.Sublist.map _ List.filter_sublist)
  · intro p hp; exact hl.below p ((List.mem_filter.1 hp).1)
  · intro p hp; exact hl.ok p ((List.mem_filter.1 hp).1)
  · rw [hs.zombies]
    intro p hp
    exact (List.mem_filter.1 hp).2
  · rw [hl.active, activeOf_filter]
    intro p hp h
    rw [(lag_activeOf hl hs p hp).1]
    simpa using h
  · rw [hl.total, hs.zombies, List.nil_append]
    have := filter_length s.items
    simp only [List.length_nil]
    omega
  · intro hd
    rcases hl.toggle hd with ⟨p, hp, hpd⟩ | e | e
    · rw [(hs.items p hp).2.1] at hpd; cases hpd
    · right; left; rw [e]; rfl
    · right; right; exact e

theorem activeOf_remove {items : List (Nat × Item)} {i : Nat} {t : Item} (hn : (items.map Prod.fst).Nodup)
    (h : (i, t) ∈ items) : activeOf (items.filter fun p => p.1 != i) =
      activeOf items - (if t.completed then (0 : Int) else 1) ∧
      (items.filter fun p => p.1 != i).length + 1 = items.length := by
  induction items with
  | nil => cases h
  | cons p ps ih =>
    simp only [List.map_cons, List.nodup_cons] at hn
    rcases List.mem_cons.1 h with e | h1
    · have hps : (ps.filter fun p => p.1 != i) = ps := by
        rw [List.filter_eq_self]
        intro q hq
        simp only [bne_iff_ne, ne_eq]
        intro e'
        exact hn.1 (List.mem_map.2 ⟨q, hq, by rw [e', ← e]⟩)
      subst e
      rw [List.filter_cons, if_neg (by simp), hps, activeOf_cons]
      simp only [List.length_cons, and_true]
      omega
    · have hne : p.1 ≠ i := fun e => hn.1 (List.mem_map.2 ⟨_, h1, e.symm⟩)
      obtain ⟨ih1, ih2⟩ := ih hn.2 h1
      rw [List.filter_cons, if_pos (by simpa using hne), activeOf_cons, activeOf_cons, ih1]
      simp only [List.length_cons]
      omega

theorem step_delete {a : App} {s : State} (hl : Lag a s) (hs : Still s) (i : Nat) {x : Item}
    (hf : find i s.items = some x) {t : State} (ht : t = { s with pending := [.delete i] }) :
    Lag (a.step trim (.delete i)) (pollDelete i t) := by
  subst ht
  have hm : Event.delete i ∈ [Event.delete i] := by simp
  have hx := find_some hf
  simp only [pollDelete, App.step, if_pos hm, hf]
  have hp : (take (.delete i) { s with pending := [.delete i] }).pending = [] := take_one rfl
  obtain ⟨h1, h2⟩ := activeOf_remove hl.nodup hx
  have hc : x.completed = x.checked := (lag_activeOf hl hs _ hx).1
  refine ⟨hp, ?_, hl.filter, hl.next, ?_, ?_, ?_, hl.zombies, ?_, ?_, ?_, ?_, ?_, ?_, hl.sel⟩ <;>
    try simp only [take, dropItem, addTotal, addActive]
  · rw [← hl.todos, List.filter_map]; rfl
  · exact hl.nodup.sublist (List.Sublist.map _ List.filter_sublist)
  · intro p hp; exact hl.below p ((List.mem_filter.1 hp).1)
  · intro p hp; exact hl.ok p ((List.mem_filter.1 hp).1)
  · rw [h1, hl.active, hc]
    cases x.checked <;> simp [asInt] <;> omega
  · rw [hl.total]; omega
  · intro h; cases h
  · intro h; cases h
  · intro h; cases h
  · intro h; cases h

theorem step_check {a : App} {s : State} (hl : Lag a s) (hs : Still s) (i : Nat) {x : Item}
    (hf : find i s.items = some x) {t : State}
    (ht : t = { s with items := modify i (fun t => { t with box := !t.box }) s.items, pending := [.check i] }) :
    Lag (a.step trim (.check i)) (pollCheck i t) := by
  have hx := find_some hf
  have hm : Event.check i ∈ t.pending := by rw [ht]; simp
  have hmem : (i, { x with box := !x.box }) ∈ t.items := by
    rw [ht]
    simp only [modify, List.mem_map]
    exact ⟨_, hx, by simp⟩
  have hnod : (t.items.map Prod.fst).Nodup := by rw [ht]; simp only [modify_fst]; exact hl.nodup
  have hf' : find i t.items = some { x with box := !x.box } := by
    cases hf' : find i t.items with
    | none => exact absurd rfl (find_none hf' _ hmem)
    | some y => rw [find_unique hnod (find_some hf') hmem]
  have hxs := (hs.items _ hx).1
  have hc := lag_activeOf hl hs _ hx
  simp only [] at hxs hc
  have hp : (take (.check i) t).pending = [] := take_one (by rw [ht])
  have hmm : ∀ f : Item → Item, modify i f t.items = modify i (fun t => f { t with box := !t.box }) s.items := by
    intro f
    rw [ht]
    simp only [modify, List.map_map]
    apply List.map_congr_left
    intro p _
    simp only [Function.comp]
    by_cases e : p.1 = i
    · simp [e]
    · simp [e]
  have hbox : ∀ p ∈ s.items, p.2.box = p.2.checked := fun p hp => (lag_activeOf hl hs p hp).2
  simp only [pollCheck, hf', hxs, if_true, if_pos hm, hmm, App.step]
  refine ⟨hp, ?_, ?_, ?_, ?_, ?_, ?_, ?_, ?_, ?_, ?_, ?_, ?_, ?_, ?_⟩ <;> try simp only [take, addActive]
  · exact modify_todos hl.todos (fun p hp e => by simp [toEntry, e, hbox p hp]) (fun p _ e => by simp [toEntry, e])
  · rw [ht]; exact hl.filter
  · rw [ht]; exact hl.next
  · rw [modify_fst]; exact hl.nodup
  · intro q hq
    obtain ⟨p, hp, e, -⟩ := mem_modify hq
    rw [e, ht]; exact hl.below p hp
  · intro q hq
    rw [ht]
    obtain ⟨p, hp, -, ⟨e, e'⟩ | ⟨e, e'⟩⟩ := mem_modify hq
    · have o := hl.ok p hp
      rw [e']
      refine ⟨(fun h => ?_), fun _ => ⟨rfl, rfl⟩, (fun h => by cases h), (fun _ h => by cases h), o.label⟩
      simp only [(hs.items p hp).1] at h
      cases h
    · rw [e']; exact hl.ok p hp
  · rw [ht]; exact hl.zombies
  · rw [activeOf_modify hl.nodup hx, ht]
    simp only [hl.active, hc.1, hc.2]
    cases x.checked <;> simp [asInt] <;> omega
  · rw [modify_length, ht]; exact hl.total
  · intro h; cases h
  · rw [ht]; exact hl.main
  · intro h; cases h
  · intro h; cases h
  · rw [ht]; exact hl.sel

theorem setChecked_spec (c : Bool) (t : Item) : (setChecked c t).checked = c ∧ (setChecked c t).text = t.text ∧
    (setChecked c t).editing = t.editing ∧ (setChecked c t).completed = t.completed ∧
    (t.checked ≠ c → (setChecked c t).checkDue = t.checkStarted) := by
  unfold setChecked
  split
  · exact ⟨rfl, rfl, rfl, rfl, fun _ => rfl⟩
  · rename_i h
    exact ⟨by simpa using h, rfl, rfl, rfl, fun h' => absurd h' h⟩

theorem step_toggle {a : App} {s : State} (hl : Lag a s) (hs : Still s) {t : State}
    (ht : t = { s with toggleBox := !s.toggleBox, pending := [.toggleAll] }) :
    Lag (a.step trim .toggleAll) (pollToggleAll t) := by
  subst ht
  have hm : Event.toggleAll ∈ [Event.toggleAll] := by simp
  simp only [pollToggleAll, App.step, if_pos hm]
  have hp : (take .toggleAll { s with toggleBox := !s.toggleBox, pending := [.toggleAll] }).pending = [] := take_one rfl
  have hc' : ∀ p ∈ s.items, p.2.completed = p.2.checked := fun p hp => (lag_activeOf hl hs p hp).1
  have htb : s.items = [] ∨ s.toggleBox = a.todos.all (·.done) := by
    rcases hl.toggle hs.toggle with ⟨p, hp, hpd⟩ | e | e
    · rw [(hs.items p hp).2.1] at hpd; cases hpd
    · exact Or.inl e
    · right; rw [e, hl.active, activeOf_zero hc', hl.todos]
  refine ⟨hp, ?_, hl.filter, hl.next, ?_, ?_, ?_, hl.zombies, ?_, ?_, ?_, hl.main, hl.left, hl.clear, hl.sel⟩ <;>
    try simp only [take]
  · rw [List.map_map]
    rcases htb with e | e
    · have : a.todos = [] := by rw [← hl.todos, e]; rfl
      rw [e, this]; rfl
    · rw [e]
      conv => rhs; rw [← hl.todos]
      rw [List.map_map, hl.todos]
      apply List.map_congr_left
      intro p _
      have := setChecked_spec (!a.todos.all (·.done)) p.2
      simp only [Function.comp, toEntry, this.1, this.2.1, this.2.2.1]
  · rw [List.map_map]; exact hl.nodup
  · intro q hq
    obtain ⟨p, hp, rfl⟩ := List.mem_map.1 hq
    exact hl.below p hp
  · intro q hq
    obtain ⟨p, hp, rfl⟩ := List.mem_map.1 hq
    have o := hl.ok p hp
    have st := hs.items p hp
    have hc := lag_activeOf hl hs p hp
    simp only [setChecked]
    split
    · rename_i hne
      refine ⟨(fun h => ?_), (fun h => ?_), (fun _ => ?_), (fun _ h => by cases h), o.label⟩
      · simp only [st.1] at h; cases h
      · simp only [st.1] at h; cases h
      · simp only [hc.1]
        revert hne
        cases p.2.checked <;> cases s.toggleBox <;> simp
    · exact o
  · rw [hl.active, activeOf, activeOf, List.map_map]
    congr 1
    apply List.map_congr_left
    intro p _
    simp only [Function.comp, (setChecked_spec _ p.2).2.2.2.1]
  · rw [hl.total, List.length_map]
  · intro _
    by_cases hn : s.items = []
    · right; left; rw [hn]; rfl
    · left
      have htb : s.toggleBox = a.todos.all (·.done) := htb.resolve_left hn
      have : ∃ p ∈ s.items, p.2.checked ≠ !s.toggleBox := by
        rw [htb, ← hl.todos]
        cases hall : (s.items.map toEntry).all (·.done) with
        | true =>
          obtain ⟨p, ps, hps⟩ := List.exists_cons_of_ne_nil hn
          have hpm : p ∈ s.items := by rw [hps]; simp
          have := List.all_eq_true.1 hall _ (List.mem_map.2 ⟨p, hpm, rfl⟩)
          exact ⟨p, hpm, by simpa [toEntry] using this⟩
        | false =>
          rw [List.all_eq_false] at hall
          obtain ⟨e, he, hd⟩ := hall
          obtain ⟨p, hp, rfl⟩ := List.mem_map.1 he
          exact ⟨p, hp, by simpa [toEntry] using hd⟩
      obtain ⟨p, hp, hne⟩ := this
      exact ⟨_, List.mem_map.2 ⟨p, hp, rfl⟩, by
        simp only [(setChecked_spec _ p.2).2.2.2.2 hne]; exact (hs.items p hp).1⟩

theorem App.step_none {a : App} {i : Nat} (h : ∀ e ∈ a.todos, e.id ≠ i) {text : Text} :
    a.step trim (.check i) = a ∧ a.step trim (.delete i) = a ∧ a.step trim (.dblclick i) = a ∧
      a.step trim (.edited i text) = a := by
  refine ⟨step_id fun e he => if_neg (h e he), ?_, step_id fun e he => if_neg (h e he), step_id fun e he => if_neg ?_⟩
  · have : (a.todos.filter fun e => e.id != i) = a.todos := by
      rw [List.filter_eq_self]
      intro e he
      simpa using h e he
    simp only [App.step, this]
  · exact fun hc => h e he hc.1

theorem still_pending {s : State} (h : Still s) (es : List Event) : Still { s with pending := es } :=
  ⟨h.zombies, h.toggle, h.main, h.left, h.clear, h.sel, h.items⟩

/-- An event either changes nothing or waits for its loop, which does what it means. -/
theorem fire_cases {a : App} {s : State} (hl : Lag a s) (hs : Still s) (e : Event) :
    (fire e s = s ∧ a.step trim e = a) ∨
      (Still (fire e s) ∧ (fire e s).pending = [e] ∧ ∀ p, p.event = some e →
        Lag (a.step trim e) (poll trim (fire e s) p)) := by
  have hp := hl.pending
  cases e with
  | add text =>
    right
    rw [show fire (.add text) s = { s with pending := [.add text] } by simp [fire, take, hp]]
    refine ⟨still_pending hs _, rfl, fun p h => ?_⟩
    cases p <;> simp only [Poll.event, Option.some.injEq, reduceCtorEq] at h
    cases h
    exact step_add hl text rfl
  | check i =>
    cases hf : find i s.items with
    | none => left; exact ⟨by simp [fire, hf], (App.step_none (find_entry hl hf) (text := [])).1⟩
    | some x =>
      right
      have hxs : x.checkStarted = true := (hs.items _ (find_some hf)).1
      rw [show fire (.check i) s =
        { s with items := modify i (fun t => { t with box := !t.box }) s.items, pending := [.check i] } by
          simp [fire, hf, hxs, take, hp]]
      refine ⟨⟨hs.zombies, hs.toggle, hs.main, hs.left, hs.clear, hs.sel, ?_⟩, rfl, fun p h => ?_⟩
      · intro q hq
        dsimp only at hq
        obtain ⟨p, hp, -, ⟨e, e'⟩ | ⟨e, e'⟩⟩ := mem_modify hq
        · rw [e']; exact hs.items p hp
        · rw [e']; exact hs.items p hp
      · cases p <;> simp only [Poll.event, Option.some.injEq, reduceCtorEq] at h
        cases h
        exact step_check hl hs i hf rfl
  | toggleAll =>
    right
    rw [show fire .toggleAll s = { s with toggleBox := !s.toggleBox, pending := [.toggleAll] } by
      simp [fire, take, hp]]
    refine ⟨⟨hs.zombies, hs.toggle, hs.main, hs.left, hs.clear, hs.sel, hs.items⟩, rfl, fun p h => ?_⟩
    cases p <;> simp only [Poll.event, Option.some.injEq, reduceCtorEq] at h
    exact step_toggle hl hs rfl
  | clear =>
    right
    rw [show fire .clear s = { s with pending := [.clear] } by simp [fire, take, hp]]
    refine ⟨still_pending hs _, rfl, fun p h => ?_⟩
    cases p <;> simp only [Poll.event, Option.some.injEq, reduceCtorEq] at h
    exact step_clear hl hs rfl
  | delete i =>
    cases hf : find i s.items with
    | none => left; exact ⟨by simp [fire, hf], (App.step_none (find_entry hl hf) (text := [])).2.1⟩
    | some x =>
      right
      rw [show fire (.delete i) s = { s with pending := [.delete i] } by simp [fire, hf, take, hp]]
      refine ⟨still_pending hs _, rfl, fun p h => ?_⟩
      cases p <;> simp only [Poll.event, Option.some.injEq, reduceCtorEq] at h
      cases h
      exact step_delete hl hs i hf rfl
  | dblclick i =>
    cases hf : find i s.items with
    | none => left; exact ⟨by simp [fire, hf], (App.step_none (find_entry hl hf) (text := [])).2.2.1⟩
    | some x =>
      cases he : x.editing with
      | true =>
        left
        refine ⟨by simp [fire, hf, he], step_id fun e hm => ?_⟩
        rw [← hl.todos] at hm
        obtain ⟨⟨j, y⟩, hq, rfl⟩ := List.mem_map.1 hm
        by_cases hj : (toEntry (j, y)).id = i
        · have hy : y.editing = true := by
            have hj' : j = i := hj
            subst hj'
            rw [find_unique hl.nodup hq (find_some hf), he]
          rw [if_pos hj]
          simp [toEntry, hy]
        · rw [if_neg hj]
      | false =>
        right
        rw [show fire (.dblclick i) s = { s with pending := [.dblclick i] } by simp [fire, hf, he, take, hp]]
        refine ⟨still_pending hs _, rfl, fun p h => ?_⟩
        cases p <;> simp only [Poll.event, Option.some.injEq, reduceCtorEq] at h
        cases h
        exact step_open hl i rfl
  | edited i text =>
    cases hf : find i s.items with
    | none => left; exact ⟨by simp [fire, hf], (App.step_none (find_entry hl hf)).2.2.2⟩
    | some x =>
      cases he : x.editing with
      | false =>
        left
        refine ⟨by simp [fire, hf, he], step_id fun e hm => if_neg ?_⟩
        rw [← hl.todos] at hm
        obtain ⟨⟨j, y⟩, hq, rfl⟩ := List.mem_map.1 hm
        simp only [toEntry]
        rintro ⟨hj, hy⟩
        subst hj
        rw [find_unique hl.nodup hq (find_some hf), he] at hy
        cases hy
      | true =>
        right
        rw [show fire (.edited i text) s = { s with pending := [.edited i text] } by simp [fire, hf, he, take, hp]]
        refine ⟨still_pending hs _, rfl, fun p h => ?_⟩
        cases p <;> simp only [Poll.event, Option.some.injEq, reduceCtorEq] at h
        cases h
        refine step_close hl i text (fun q hq e => ?_) rfl
        obtain ⟨j, y⟩ := q
        simp only at e
        subst e
        rw [find_unique hl.nodup hq (find_some hf), he]
  | filter m =>
    right
    rw [show fire (.filter m) s = { s with pending := [.filter m] } by simp [fire, take, hp]]
    refine ⟨still_pending hs _, rfl, fun p h => ?_⟩
    cases p <;> simp only [Poll.event, Option.some.injEq, reduceCtorEq] at h
    cases h
    exact step_filter hl hs m rfl

theorem lag_polls {a : App} {s : State} (h : Lag a s) (ps : List Poll) : Lag a (polls trim s ps) := by
  induction ps generalizing s with
  | nil => exact h
  | cons p ps ih => exact ih (lag_poll h p)

theorem event_polls {a : App} {s : State} {e : Event} (hs : Still s) (hp : s.pending = [e])
    (h : ∀ p, p.event = some e → Lag a (poll trim s p)) (ps : List Poll) :
    polls trim s ps = s ∨ Lag a (polls trim s ps) := by
  induction ps with
  | nil => exact Or.inl rfl
  | cons p ps ih =>
    show polls trim (poll trim s p) ps = s ∨ Lag a (polls trim (poll trim s p) ps)
    by_cases hpe : p.event = some e
    · right; exact lag_polls (h p hpe) ps
    · have : poll trim s p = s := still_poll hs p (fun e' he' hm => by
        rw [hp] at hm
        simp only [List.mem_singleton] at hm
        rw [hm] at he'
        exact hpe he')
      rw [this]; exact ih

/-- A handled event is a step of the todos. -/
theorem lag_handled {a : App} {s s' : State} {e : Event} (hl : Lag a s) (hi : Idle trim s) (h : Handled trim s e s') :
    Lag (a.step trim e) s' := by
  obtain ⟨ps, rfl, hi'⟩ := h
  have hs := idle_still hi hl
  rcases fire_cases (trim := trim) hl hs e with ⟨e1, e2⟩ | ⟨h1, h2, h3⟩
  · rw [e1, e2]; exact lag_polls hl ps
  · rcases event_polls h1 h2 h3 ps with h | h
    · rw [h] at hi'
      rw [hi'.1] at h2
      cases h2
    · exact h

theorem lag_init : Lag App.empty init :=
  ⟨rfl, rfl, rfl, rfl, List.nodup_nil, (fun _ h => by cases h), (fun _ h => by cases h), (fun _ h => by cases h), rfl, rfl,
    fun _ => Or.inr (Or.inl rfl), fun _ => rfl, fun _ => rfl, fun _ => rfl, fun m _ => by
      simp [init, eq_comm]⟩

theorem idle_init : Idle trim init :=
  ⟨rfl, fun p => still_poll ⟨rfl, rfl, rfl, rfl, rfl, fun _ => rfl, (fun _ h => by cases h)⟩ p (fun _ _ h => by cases h)⟩

theorem lag_play {a : App} {s s' : State} {es : List Event} (hl : Lag a s) (hi : Idle trim s) (h : Play trim s es s') :
    Lag (es.foldl (App.step trim) a) s' ∧ Idle trim s' := by
  induction h generalizing a with
  | nil s => exact ⟨hl, hi⟩
  | cons h1 _ ih => exact ih (lag_handled hl hi h1) h1.choose_spec.2

/-- **The screen follows the todos.** Whatever the user does, one thing after the other, and in whatever order the
loops are polled in between: when nothing is left to do, the screen shows the todos that the user's actions amount to. -/
theorem todo_screen {es : List Event} {s : State} (h : Play trim init es s) :
    s.screen = (es.foldl (App.step trim) App.empty).screen := by
  obtain ⟨h1, h2⟩ := lag_play lag_init idle_init h
  exact lag_idle h1 h2

end Verif.Todo
