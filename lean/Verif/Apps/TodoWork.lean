import Verif.Apps.TodoProps

/-!
# TodoMVC: how much is done
-/

namespace Verif.Todo

variable {trim : Text → Text}

def one (b : Bool) : Nat := if b then 1 else 0

/-- What is left to do for an item. -/
def Item.work (t : Item) : Nat :=
  one (!t.checkStarted) + 4 * one t.checkDue + one (!t.visStarted || t.visDue) + one (!t.labelStarted || t.labelDue)

def itemsWork (items : List (Nat × Item)) : Nat := (items.map fun p => p.2.work).sum

/-- What is left to do. -/
def State.work (s : State) : Nat :=
  itemsWork s.items + 5 * s.zombies.length + one s.toggleDue + one s.mainDue + one s.leftDue + one s.clearDue +
    (one (s.selectedDue .all) + one (s.selectedDue .active) + one (s.selectedDue .completed))

theorem one_le (b : Bool) : one b ≤ 1 := by cases b <;> simp [one]

theorem itemsWork_modify {i : Nat} {f : Item → Item} {items : List (Nat × Item)} {t : Item}
    (hn : (items.map Prod.fst).Nodup) (h : (i, t) ∈ items) :
    itemsWork (modify i f items) + t.work = itemsWork items + (f t).work := by
  induction items with
  | nil => cases h
  | cons p ps ih =>
    simp only [List.map_cons, List.nodup_cons] at hn
    rcases List.mem_cons.1 h with e | h1
    · have hps : modify i f ps = ps := modify_id (fun q hq e' => by
        exact absurd (List.mem_map.2 ⟨q, hq, by rw [e', ← e]⟩) hn.1)
      subst e
      rw [show modify i f ((i, t) :: ps) = (i, f t) :: modify i f ps by simp [modify], hps]
      simp only [itemsWork, List.map_cons, List.sum_cons]
      omega
    · have hne : p.1 ≠ i := fun e => hn.1 (List.mem_map.2 ⟨_, h1, e.symm⟩)
      have ih := ih hn.2 h1
      rw [show modify i f (p :: ps) = p :: modify i f ps by simp [modify, hne]]
      simp only [itemsWork, List.map_cons, List.sum_cons] at ih ⊢
      omega

theorem modify_absent {i : Nat} {f : Item → Item} {items : List (Nat × Item)} (h : find i items = none) :
    modify i f items = items := modify_id fun p hp e => absurd e (find_none h p hp)

/-- A poll that does something leaves less to do. -/
theorem poll_work {a : App} {s : State} (h : Lag a s) (p : Poll) :
    poll trim s p = s ∨ (poll trim s p).work < s.work := by
  have hp := h.pending
  have hact : ∀ (d : Int) (s : State), (addActive d s).work ≤ s.work + 3 := by
    intro d s
    have h1 := one_le s.toggleDue
    have h2 := one_le s.leftDue
    have h3 := one_le s.clearDue
    simp only [addActive, State.work]
    have : one true = 1 := rfl
    omega
  cases p with
  | add text => left; simp only [poll, pollAdd, hp, List.not_mem_nil, if_false]
  | toggleAll => left; simp only [poll, pollToggleAll, hp, List.not_mem_nil, if_false]
  | clear => left; simp only [poll, pollClear, hp, List.not_mem_nil, if_false]
  | reap =>
    simp only [poll, reap]
    split
    · exact Or.inl rfl
    · rename_i z zs hz
      right
      have h1 := one_le s.toggleDue
      have h2 := one_le s.leftDue
      have h3 := one_le s.clearDue
      have h4 := one_le s.mainDue
      have : one true = 1 := rfl
      simp only [dropItem, addTotal, addActive, State.work, hz, List.length_cons]
      omega
  | toggleBox =>
    simp only [poll, pollToggleBox]
    split
    · rename_i hd
      right
      simp only [State.work, hd]
      simp [one]
    · exact Or.inl rfl
  | main =>
    simp only [poll, pollMain]
    split
    · rename_i hd
      right
      simp only [State.work, hd]
      simp [one]
    · exact Or.inl rfl
  | left =>
    simp only [poll, pollLeft]
    split
    · rename_i hd
      right
      simp only [State.work, hd]
      simp [one]
    · exact Or.inl rfl
  | clearShown =>
    simp only [poll, pollClearShown]
    split
    · rename_i hd
      right
      simp only [State.work, hd]
      simp [one]
    · exact Or.inl rfl
  | filter m => left; simp only [poll, pollFilter, hp, List.not_mem_nil, if_false]
  | selected m =>
    simp only [poll, pollSelected]
    split
    · rename_i hd
      right
      simp only [State.work]
      cases m <;> simp [hd, one]
    · exact Or.inl rfl
  | check i =>
    simp only [poll, pollCheck]
    cases hf : find i s.items with
    | none => exact Or.inl rfl
    | some t =>
      have hm := find_some hf
      simp only []
      split
      · rw [if_neg (show Event.check i ∉ s.pending by rw [hp]; simp)]
        split
        · rename_i hst hd
          right
          refine Nat.lt_of_le_of_lt (hact _ _) ?_
          have := itemsWork_modify (f := fun t => { t with box := t.checked, completed := t.checked, checkDue := false })
            h.nodup hm
          have e : ({ t with box := t.checked, completed := t.checked, checkDue := false } : Item).work + 4 = t.work := by
            simp only [Item.work, hd]
            have : one true = 1 := rfl
            have : one false = 0 := rfl
            omega
          simp only [State.work]
          omega
        · exact Or.inl rfl
      · rename_i hst
        right
        have := itemsWork_modify (f := fun t => { t with checkStarted := true, checkDue := false }) h.nodup hm
        have e : ({ t with checkStarted := true, checkDue := false } : Item).work < t.work := by
          have hst : t.checkStarted = false := by simpa using hst
          simp only [Item.work, hst]
          simp [one]
          omega
        simp only [State.work]
        omega
  | label i =>
    simp only [poll, pollLabel]
    cases hf : find i s.items with
    | none => left; rw [modify_absent hf]
    | some t =>
      have hm := find_some hf
      by_cases hd : (!t.labelStarted || t.labelDue) = true
      · right
        have := itemsWork_modify (f := fun t => if !t.labelStarted || t.labelDue then
          { t with labelStarted := true, labelDue := false, label := t.text } else t) h.nodup hm
        rw [if_pos hd] at this
        have e : ({ t with labelStarted := true, labelDue := false, label := t.text } : Item).work < t.work := by
          simp only [Item.work, hd]
          simp [one]
        simp only [State.work]
        omega
      · left
        rw [modify_id]
        intro q hq e
        obtain ⟨j, y⟩ := q
        simp only at e
        subst e
        rw [find_unique h.nodup hq hm, if_neg hd]
  | vis i =>
    simp only [poll, pollVis]
    cases hf : find i s.items with
    | none => left; rw [modify_absent hf]
    | some t =>
      have hm := find_some hf
      by_cases hd : (!t.visStarted || t.visDue) = true
      · right
        have := itemsWork_modify (f := fun t => if !t.visStarted || t.visDue then
          { t with visStarted := true, visDue := false, hidden := !s.filter.shouldShow t.checked } else t) h.nodup hm
        rw [if_pos hd] at this
        have e : ({ t with visStarted := true, visDue := false, hidden := !s.filter.shouldShow t.checked } : Item).work <
            t.work := by
          simp only [Item.work, hd]
          simp [one]
        simp only [State.work]
        omega
      · left
        rw [modify_id]
        intro q hq e
        obtain ⟨j, y⟩ := q
        simp only at e
        subst e
        rw [find_unique h.nodup hq hm, if_neg hd]
  | «open» i => left; simp only [poll, pollOpen, hp, List.not_mem_nil, if_false]
  | close i text => left; simp only [poll, pollClose, hp, List.not_mem_nil, if_false]
  | delete i => left; simp only [poll, pollDelete, hp, List.not_mem_nil, if_false]

theorem busy_work {a : App} {s s' : State} {ps : List Poll} (h : Lag a s) (hb : Busy trim s ps s') :
    ps.length + s'.work ≤ s.work := by
  induction hb with
  | nil s => simp
  | cons h1 _ ih =>
    have h2 := ih (lag_poll h _)
    rcases poll_work (trim := trim) h _ with e | e
    · exact absurd e h1
    · simp only [List.length_cons]; omega

theorem lag_settles {a : App} (n : Nat) {s : State} (h : Lag a s) (hn : s.work ≤ n) :
    ∃ ps, Idle trim (polls trim s ps) := by
  induction n generalizing s with
  | zero =>
    refine ⟨[], h.pending, fun p => ?_⟩
    rcases poll_work (trim := trim) h p with e | e
    · exact e
    · omega
  | succ n ih =>
    by_cases hi : ∀ p, poll trim s p = s
    · exact ⟨[], h.pending, hi⟩
    · rw [Classical.not_forall] at hi
      obtain ⟨p, hp⟩ := hi
      rcases poll_work (trim := trim) h p with e | e
      · exact absurd e hp
      · obtain ⟨ps, hps⟩ := ih (lag_poll (trim := trim) h p) (by omega)
        exact ⟨p :: ps, hps⟩

theorem still_item {s : State} (hs : Still s) {p : Nat × Item} (hp : p ∈ s.items) : p.2.work = 0 := by
  have := hs.items p hp
  simp [Item.work, this, one]

theorem work_le {items : List (Nat × Item)} {k : Nat} (h : ∀ p ∈ items, p.2.work ≤ k) :
    itemsWork items ≤ k * items.length := by
  induction items with
  | nil => simp [itemsWork]
  | cons p ps ih =>
    have ih := ih (fun q hq => h q (List.mem_cons_of_mem _ hq))
    have := h p (by simp)
    simp only [itemsWork, List.map_cons, List.sum_cons, List.length_cons, Nat.mul_succ] at ih ⊢
    omega

theorem still_items {s : State} (hs : Still s) : itemsWork s.items = 0 := by
  have := work_le (k := 0) (fun p hp => Nat.le_of_eq (still_item hs hp))
  omega

theorem still_work {s : State} (hs : Still s) : s.work = 0 := by
  simp [State.work, still_items hs, hs.zombies, hs.toggle, hs.main, hs.left, hs.clear, hs.sel, one]

theorem take_work (e : Event) (s : State) : (take e s).work = s.work := rfl

/-- How much an event leaves to do. -/
theorem event_work {s : State} (hn : (s.items.map Prod.fst).Nodup) (hs : Still s) (p : Poll) :
    (poll trim s p).work ≤ 5 * s.items.length + 7 := by
  have hw := still_work hs
  have hiw := still_items hs
  have ht : one true = 1 := rfl
  have hf0 : one false = 0 := rfl
  have hz := hs.zombies
  have base : ∀ t : State, t.zombies = [] → t.selectedDue = s.selectedDue → itemsWork t.items ≤ 3 →
      t.work ≤ 5 * s.items.length + 7 := by
    intro t h1 h2 h3
    simp only [State.work, h1, h2, hs.sel, hf0, List.length_nil]
    have h1 := one_le t.toggleDue
    have h2 := one_le t.leftDue
    have h3 := one_le t.clearDue
    have h4 := one_le t.mainDue
    omega
  have hmod : ∀ (i : Nat) (f : Item → Item), (∀ t : Item, t.work = 0 → (f t).work ≤ 3) →
      itemsWork (modify i f s.items) ≤ 3 := by
    intro i f hf
    cases hfi : find i s.items with
    | none => rw [modify_absent hfi, hiw]; omega
    | some t =>
      have hm := find_some hfi
      have := itemsWork_modify (f := f) hn hm
      have h0 := still_item hs hm
      have := hf t h0
      simp only at h0
      omega
  cases p with
  | add text =>
    simp only [poll, pollAdd]
    split
    · split
      · rw [take_work, hw]; omega
      · refine base _ hz rfl ?_
        simp only [addTotal, addActive, take, itemsWork, List.map_append, List.sum_append]
        simp only [itemsWork] at hiw
        rw [hiw]
        simp [Item.work, Item.new, one]
    · rw [hw]; omega
  | toggleAll =>
    simp only [poll, pollToggleAll]
    split
    · simp only [State.work, take, hz, hs.toggle, hs.main, hs.left, hs.clear, hs.sel, hf0, List.length_nil]
      have : itemsWork (s.items.map fun p => (p.1, setChecked s.toggleBox p.2)) ≤
          5 * (s.items.map fun p => (p.1, setChecked s.toggleBox p.2)).length := by
        apply work_le
        intro q hq
        obtain ⟨p, hp, rfl⟩ := List.mem_map.1 hq
        have h0 := still_item hs hp
        simp only [setChecked]
        split
        · simp only [Item.work] at h0 ⊢
          have h1 := one_le p.2.checkStarted
          have h2 := one_le (!p.2.visStarted || true)
          omega
        · omega
      rw [List.length_map] at this
      omega
    · rw [hw]; omega
  | clear =>
    simp only [poll, pollClear]
    split
    · simp only [State.work, take, hz, hs.toggle, hs.main, hs.left, hs.clear, hs.sel, hf0, List.nil_append]
      have h1 : itemsWork (s.items.filter fun p => !p.2.checked) ≤ 0 * (s.items.filter fun p => !p.2.checked).length :=
        work_le fun p hp => Nat.le_of_eq (still_item hs (List.mem_filter.1 hp).1)
      have h2 := List.length_filter_le (fun p : Nat × Item => p.2.checked) s.items
      omega
    · rw [hw]; omega
  | reap => simp only [poll, reap, hz]; omega
  | toggleBox => simp only [poll, pollToggleBox, hs.toggle]; simp only [Bool.false_eq_true, if_false]; omega
  | main => simp only [poll, pollMain, hs.main]; simp only [Bool.false_eq_true, if_false]; omega
  | left => simp only [poll, pollLeft, hs.left]; simp only [Bool.false_eq_true, if_false]; omega
  | clearShown => simp only [poll, pollClearShown, hs.clear]; simp only [Bool.false_eq_true, if_false]; omega
  | filter m =>
    simp only [poll, pollFilter]
    split
    · simp only [State.work, take, hz, hs.toggle, hs.main, hs.left, hs.clear, hf0, ht, List.length_nil]
      have : ∀ f : Nat × Item → Nat × Item, (∀ p ∈ s.items, (f p).2.work ≤ 5) →
          itemsWork (s.items.map f) ≤ 5 * s.items.length := by
        intro f hf
        have := work_le (items := s.items.map f) (k := 5) fun q hq => by
          obtain ⟨p, hp, rfl⟩ := List.mem_map.1 hq
          exact hf p hp
        rw [List.length_map] at this
        exact this
      have := this (fun p => (p.1, { p.2 with visDue := true })) (by
        intro p hp
        have h0 := still_item hs hp
        simp only [Item.work] at h0 ⊢
        have h2 := one_le (!p.2.visStarted || true)
        omega)
      dsimp only at this
      omega
    · rw [hw]; omega
  | selected m => simp only [poll, pollSelected, hs.sel]; simp only [Bool.false_eq_true, if_false]; omega
  | check i =>
    simp only [poll, pollCheck]
    cases hfi : find i s.items with
    | none => simp only []; rw [hw]; omega
    | some t =>
      have := hs.items _ (find_some hfi)
      simp only at this
      simp only [this.1, this.2.1, if_true, Bool.false_eq_true, if_false]
      split
      · refine base _ hz rfl ?_
        simp only [addActive]
        refine hmod i _ fun t h0 => ?_
        simp only [Item.work] at h0 ⊢
        have h2 := one_le (!t.visStarted || true)
        omega
      · rw [hw]; omega
  | label i =>
    refine base _ hz rfl ?_
    simp only [poll, pollLabel]
    refine hmod i _ fun t h0 => ?_
    split
    · rename_i hc
      simp only [Item.work, hc] at h0
      omega
    · omega
  | vis i =>
    refine base _ hz rfl ?_
    simp only [poll, pollVis]
    refine hmod i _ fun t h0 => ?_
    split
    · rename_i hc
      simp only [Item.work, hc] at h0
      omega
    · omega
  | «open» i =>
    simp only [poll, pollOpen]
    split
    · refine base _ hz rfl ?_
      dsimp only
      refine hmod i _ fun t h0 => ?_
      simp only [Item.work] at h0 ⊢
      omega
    · rw [hw]; omega
  | close i text =>
    simp only [poll, pollClose]
    split
    · refine base _ hz rfl ?_
      dsimp only
      refine hmod i _ fun t h0 => ?_
      simp only [Item.work] at h0 ⊢
      have h2 := one_le (!t.labelStarted || true)
      omega
    · rw [hw]; omega
  | delete i =>
    simp only [poll, pollDelete]
    split
    · split
      · refine base _ hz rfl ?_
        simp only [dropItem, addTotal, addActive]
        have h1 : itemsWork (s.items.filter fun p => p.1 != i) ≤ 0 * (s.items.filter fun p => p.1 != i).length :=
          work_le fun p hp => Nat.le_of_eq (still_item hs (List.mem_filter.1 hp).1)
        omega
      · rw [take_work, hw]; omega
    · rw [hw]; omega

theorem fire_length (e : Event) (s : State) : (fire e s).items.length = s.items.length := by
  cases e <;> simp only [fire] <;> (repeat' split) <;> simp [take, modify_length]

theorem settles {a : App} {s : State} (hl : Lag a s) (hi : Idle trim s) (e : Event) {ps : List Poll} {s' : State}
    (hb : Busy trim (fire e s) ps s') :
    ps.length ≤ 5 * s.items.length + 8 ∧ ∃ qs, Handled trim s e (polls trim s' qs) := by
  have hs := idle_still hi hl
  have polls_busy : ∀ {s ps s'}, Busy trim s ps s' → polls trim s ps = s' := by
    intro s ps s' hb
    induction hb with
    | nil s => rfl
    | cons _ _ ih => exact ih
  have happ : ∀ s ps qs, polls trim s (ps ++ qs) = polls trim (polls trim s ps) qs := fun s ps qs => by
    simp [polls, List.foldl_append]
  rcases fire_cases (trim := trim) hl hs e with ⟨e1, e2⟩ | ⟨h1, h2, h3⟩
  · rw [e1] at hb
    have hw := busy_work hl hb
    rw [still_work hs] at hw
    refine ⟨by omega, ?_⟩
    have hlag : Lag a s' := by rw [← polls_busy hb]; exact lag_polls hl ps
    obtain ⟨qs, hq⟩ := lag_settles (trim := trim) _ hlag (Nat.le_refl _)
    exact ⟨qs, ps ++ qs, by rw [e1, happ, polls_busy hb], hq⟩
  · have hlen := fire_length e s
    have hnod : ((fire e s).items.map Prod.fst).Nodup := by
      have : (fire e s).items.map Prod.fst = s.items.map Prod.fst := by
        cases e <;> simp only [fire] <;> (repeat' split) <;> simp [take, modify_fst]
      rw [this]; exact hl.nodup
    have hcase : ps.length ≤ 5 * s.items.length + 8 ∧ ∃ qs, Idle trim (polls trim s' qs) := by
      cases hb with
      | nil _ =>
        refine ⟨by simp, ?_⟩
        have hp : ∃ p : Poll, p.event = some e := by
          cases e with
          | add text => exact ⟨.add text, rfl⟩
          | check i => exact ⟨.check i, rfl⟩
          | toggleAll => exact ⟨.toggleAll, rfl⟩
          | clear => exact ⟨.clear, rfl⟩
          | delete i => exact ⟨.delete i, rfl⟩
          | dblclick i => exact ⟨.open i, rfl⟩
          | edited i text => exact ⟨.close i text, rfl⟩
          | filter m => exact ⟨.filter m, rfl⟩
        obtain ⟨p, hp⟩ := hp
        obtain ⟨qs, hq⟩ := lag_settles (trim := trim) _ (h3 p hp) (Nat.le_refl _)
        exact ⟨p :: qs, hq⟩
      | @cons _ _ p ps hne hb =>
        have hpe : p.event = some e := Classical.byContradiction fun hpe => by
          exact hne (still_poll h1 p (fun e' he' hm => by
            rw [h2] at hm
            simp only [List.mem_singleton] at hm
            rw [hm] at he'
            exact hpe he'))
        have hlag := h3 p hpe
        have hw := busy_work hlag hb
        have := event_work (trim := trim) hnod h1 p
        rw [hlen] at this
        refine ⟨by simp only [List.length_cons]; omega, ?_⟩
        have hlag' : Lag (a.step trim e) s' := by
          rw [← polls_busy hb]; exact lag_polls hlag ps
        exact lag_settles (trim := trim) _ hlag' (Nat.le_refl _)
    obtain ⟨hle, qs, hq⟩ := hcase
    exact ⟨hle, qs, ps ++ qs, by rw [happ, polls_busy hb], hq⟩

/-- **Every event is handled.** After an event, whatever is polled, at most `5 · n + 8` polls have something to do,
where `n` is the number of todos; and however it was polled so far, the event can be handled to the end. -/
theorem todo_settles {es : List Event} {s : State} (h : Play trim init es s) (e : Event) {ps : List Poll} {s' : State}
    (hb : Busy trim (fire e s) ps s') :
    ps.length ≤ 5 * (es.foldl (App.step trim) App.empty).todos.length + 8 ∧
      ∃ qs, Handled trim s e (polls trim s' qs) := by
  obtain ⟨hl, hi⟩ := lag_play lag_init idle_init h
  have := settles hl hi e hb
  rw [← hl.todos, List.length_map]
  exact this

/-- Every sequence of events can be played. -/
theorem todo_plays (trim : Text → Text) (es : List Event) : ∃ s, Play trim init es s := by
  have : ∀ (es : List Event) (a : App) (s : State), Lag a s → Idle trim s → ∃ s', Play trim s es s' := by
    intro es
    induction es with
    | nil => intro _ s _ _; exact ⟨s, .nil s⟩
    | cons e es ih =>
      intro a s hl hi
      obtain ⟨-, qs, hq⟩ := settles hl hi e (.nil _)
      obtain ⟨s', hs'⟩ := ih _ _ (lag_handled hl hi hq) hq.choose_spec.2
      exact ⟨s', .cons hq hs'⟩
  exact this es _ _ lag_init idle_init

/-- Two clicks on the same checkbox that arrive before the program is polled are taken for one, and the program counts
a todo too many: that the events are handled one by one is needed. -/
theorem todo_double_click (trim : Text → Text) {text : Text} (h : trim text ≠ []) :
    ∃ s s' : State, Play trim init [.add text] s ∧
      (∃ ps, polls trim (fire (.check 0) (fire (.check 0) s)) ps = s') ∧ Idle trim s' ∧
      s'.screen.left = 2 ∧ s'.screen.rows.length = 1 := by
  have hm : Event.add text ∈ [Event.add text] := by simp
  have hidle : ∀ {s : State}, Still s → s.pending = [] → Idle trim s := fun hs hp =>
    ⟨hp, fun p => still_poll hs p (fun e _ he => by rw [hp] at he; cases he)⟩
  let t : Item := { Item.new (trim text) with
    label := trim text, checkStarted := true, labelStarted := true, visStarted := true }
  let s : State := { init with
    items := [(0, t)], next := 1, numActive := 1, numTotal := 1, left := 1, mainHidden := false }
  let s' : State := { s with numActive := 2, left := 2 }
  have hst : Still s := ⟨rfl, rfl, rfl, rfl, rfl, fun _ => rfl, fun p hp => by
    simp only [s, List.mem_singleton] at hp
    rw [hp]
    exact ⟨rfl, rfl, rfl, rfl, rfl, rfl⟩⟩
  have hst' : Still s' := ⟨rfl, rfl, rfl, rfl, rfl, fun _ => rfl, hst.items⟩
  refine ⟨s, s', .cons ⟨[.add text, .check 0, .label 0, .vis 0, .toggleBox, .main, .left, .clearShown], ?_,
    hidle hst rfl⟩ (.nil _), ⟨[.check 0, .vis 0, .toggleBox, .left, .clearShown], ?_⟩, hidle hst' rfl, rfl, rfl⟩
  · have h1 : poll trim (fire (.add text) init) (.add text) =
        { init with items := [(0, Item.new (trim text))], next := 1, numActive := 1, numTotal := 1, toggleDue := true,
                    mainDue := true, leftDue := true, clearDue := true } := by
      simp [poll, pollAdd, fire, take, init, h, addTotal, addActive, Event.sameStream]
    simp only [polls, List.foldl_cons, List.foldl_nil, h1]
    rfl
  · rfl

end Verif.Todo
