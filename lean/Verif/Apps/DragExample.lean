import Verif.Apps.DragProps

/-!
# Drag and drop: every drag can be played, examples, and where the report is wrong
-/

namespace Verif.Drag

variable {Id : Type} [DecidableEq Id]

/-- Every event is handled at once: the item is polled and then the reader of `until_move`. -/
def playNow (s : State Id) (es : List (Id × Event)) : State Id :=
  es.foldl (fun s p => pollMove (pollItem p.1 (fire p.1 p.2 s))) s

theorem poll_over_idle {s : State Id} {i : Id} {p b : Int} (hc : Clean (s.items i))
    (hm : (s.items i).mounted = true) (hi : ∀ f z, s.inner ≠ .dragStarted f z) :
    pollItem i (fire i (.over p b) s) = s := by
  obtain ⟨h1, h2, h3, h4, h5⟩ := hc
  have hf : fire i (.over p b) s = s.setItem i { s.items i with over := some (p, b) } := by simp [fire, hm]
  rw [hf, pollItem, setItem_same, if_pos hm, poll_startEnd_id (by simpa using h1) (by simpa using h2)]
  have ho : pollOver i (s.setItem i { s.items i with over := some (p, b) }) = s := by
    simp only [pollOver, setItem_same]
    rw [show (s.setItem i { s.items i with over := some (p, b) }).inner = s.inner from rfl]
    split
    · rename_i e; exact absurd e (hi _ _)
    · rw [setItem_setItem]
      rw [show ({ mounted := (s.items i).mounted, waitingEnd := (s.items i).waitingEnd, start := (s.items i).start, stop := (s.items i).stop, over := none, leave := (s.items i).leave, drop := (s.items i).drop, spacer := (s.items i).spacer, padding := (s.items i).padding } : Item) = s.items i from by
        have := h3
        cases hk : s.items i
        simp_all]
      exact setItem_self s i
  rw [ho]
  simp [pollLeave, h4, pollDrop, h5]

/-- The events an item expects. -/
def Fits (s : State Id) (i : Id) : Event → Prop
  | .start _ => (s.items i).waitingEnd = false
  | .stop => (s.items i).waitingEnd = true
  | _ => True

theorem clean_after {s : State Id} {i : Id} {e : Event} (hc : ∀ j, Clean (s.items j))
    (hm : (s.items i).mounted = true) (hf : Fits s i e) : ∀ j, Clean ((pollItem i (fire i e s)).items j) := by
  have one : ∀ (t : Item) (j : Id), Clean t → Clean ((s.setItem i t).items j) := fun t j ht => by
    by_cases h : j = i
    · subst h; rw [setItem_same]; exact ht
    · rw [setItem_other _ h]; exact hc j
  intro j
  cases e with
  | start z => rw [poll_start (hc i) hm hf]; exact one { s.items i with waitingEnd := true } j (hc i)
  | stop => rw [poll_stop (hc i) hm hf]; exact one { s.items i with waitingEnd := false } j (hc i)
  | over p b =>
    cases hi : s.inner with
    | dragStarted f z =>
      by_cases hfi : f = i
      · subst hfi; rw [poll_over_self (hc f) hm hi]; exact hc j
      · obtain ⟨sp, pd, e, -⟩ := poll_over_other (p := p) (b := b) (hc i) hm hi hfi
        rw [e]; exact one { s.items i with spacer := sp, padding := pd } j (hc i)
    | notDragging => rw [poll_over_idle (hc i) hm (by simp [hi])]; exact hc j
    | dropped f t b' => rw [poll_over_idle (hc i) hm (by simp [hi])]; exact hc j
  | leave self =>
    rw [poll_leave (hc i) hm]
    cases self
    · exact hc j
    · exact one { s.items i with spacer := .none, padding := (0, 0) } j (hc i)
  | drop => rw [poll_drop (hc i) hm]; exact one { s.items i with spacer := .none, padding := (0, 0) } j (hc i)

theorem handled_now {s : State Id} {i : Id} {e : Event} (hc : ∀ j, Clean (s.items j))
    (hm : (s.items i).mounted = true) (hf : Fits s i e) :
    Handled s i e (pollMove (pollItem i (fire i e s))) := by
  refine ⟨[.pollItem i, .pollMove], ?_, rfl, fun j => pollItem_clean ?_, pollMove_again _⟩
  · intro a ha
    simp at ha
    rcases ha with rfl | rfl <;> trivial
  · rw [pollMove_items]
    exact clean_after hc hm hf j

theorem ways_play {s0 : State Id} {item : Id} {size : Int} :
    ∀ (ws done : List (Way Id)) {s : State Id}, Mid s0 s item size done →
      (∀ w ∈ ws, (s0.items (Way.event w).1).mounted = true) →
      Play s (ws.map Way.event) (playNow s (ws.map Way.event)) ∧
        Mid s0 (playNow s (ws.map Way.event)) item size (done ++ ws) := by
  intro ws
  induction ws with
  | nil => intro done s h _; exact ⟨.nil s, by simpa [playNow] using h⟩
  | cons w ws ih =>
    intro done s h hm
    have hmw : (s.items w.event.1).mounted = true := by rw [h.mounted]; exact hm w (by simp)
    have hh : Handled s w.event.1 w.event.2 _ := handled_now h.clean hmw (by cases w <;> trivial)
    have h1 := mid_way (w := w) h hmw hh
    obtain ⟨p, m⟩ := ih (done ++ [w]) h1 (fun w' hw' => hm w' (by simp [hw']))
    refine ⟨.cons hh p, ?_⟩
    simpa [playNow] using m

theorem play_append {s s' s'' : State Id} {es fs : List (Id × Event)} (h : Play s es s') (h' : Play s' fs s'') :
    Play s (es ++ fs) s'' := by
  induction h with
  | nil s => exact h'
  | cons a _ ih => exact .cons a (ih h')

/-- **C62.** Every drag over items that are there can be played: the hypotheses of the theorems are met by all drags. -/
theorem drag_plays {s : State Id} {g : Gesture Id} (hs : Rest s)
    (hm : ∀ p ∈ g.events, (s.items p.1).mounted = true) : Play s g.events (playNow s g.events) := by
  obtain ⟨item, size, way, drop⟩ := g
  have hmi : (s.items item).mounted = true := hm (item, .start size) (by simp [Gesture.events])
  have hmw : ∀ w ∈ way, (s.items (Way.event w).1).mounted = true := fun w hw =>
    hm w.event (by simp only [Gesture.events, List.mem_cons, List.mem_append, List.mem_map]; exact Or.inr (Or.inl (Or.inl ⟨w, hw, rfl⟩)))
  have h1 : Handled s item (.start size) _ := handled_now (fun j => (hs.1 j).1) hmi (hs.1 item).2
  have m1 := mid_start hs hmi h1
  obtain ⟨p2, m2⟩ := ways_play way [] m1 hmw
  simp only [List.nil_append] at m2
  have hw : ((playNow (pollMove (pollItem item (fire item (.start size) s))) (way.map Way.event)).items item).waitingEnd
      = true := by rw [m2.waiting]; simp
  cases drop with
  | none =>
    have h3 : Handled _ item .stop _ := handled_now m2.clean (by rw [m2.mounted]; exact hmi) hw
    have := Play.cons h1 (play_append p2 (Play.cons h3 (Play.nil _)))
    simpa [Gesture.events, playNow] using this
  | some j =>
    have hmj : (s.items j).mounted = true := hm (j, .drop) (by simp [Gesture.events])
    have h3 : Handled _ j .drop _ := handled_now m2.clean (by rw [m2.mounted]; exact hmj) trivial
    have c3 := clean_after (e := .drop) m2.clean (by rw [m2.mounted]; exact hmj) trivial
    have p3 := poll_drop (m2.clean j) (by rw [m2.mounted]; exact hmj)
    have i3 : ∀ k, ((pollMove (pollItem j (fire j .drop
        (playNow (pollMove (pollItem item (fire item (.start size) s))) (way.map Way.event))))).items k).waitingEnd =
        decide (k = item) ∧ ((pollMove (pollItem j (fire j .drop
        (playNow (pollMove (pollItem item (fire item (.start size) s))) (way.map Way.event))))).items k).mounted =
        (s.items k).mounted := by
      intro k
      rw [pollMove_items, p3]
      by_cases hk : k = j
      · subst hk
        simp only [setItem_same]
        exact ⟨m2.waiting k, m2.mounted k⟩
      · simp only [setItem_other _ hk]
        exact ⟨m2.waiting k, m2.mounted k⟩
    have h4 : Handled _ item .stop _ := handled_now (fun k => by rw [pollMove_items]; exact c3 k)
      (by rw [(i3 item).2]; exact hmi) (show _ = true by rw [(i3 item).1]; simp)
    have := Play.cons h1 (play_append p2 (Play.cons h3 (Play.cons h4 (Play.nil _))))
    simpa [Gesture.events, playNow] using this

theorem session_append {s s' s'' : State Id} {as bs : List (Act Id)} (h : Session s as s') (h' : Session s' bs s'') :
    Session s (as ++ bs) s'' := by
  induction h with
  | nil s => exact h'
  | mount _ ih => exact .mount (ih h')
  | unmount _ ih => exact .unmount (ih h')
  | drag hm hp _ ih => exact .drag hm hp (ih h')

/-- Two items, `0` and `1`. -/
def two : State Nat := run init [.mount 0, .mount 1]

theorem two_rest : Rest two :=
  rest_setItem (rest_setItem rest_init ⟨rfl, rfl, rfl, rfl, rfl⟩ rfl) ⟨rfl, rfl, rfl, rfl, rfl⟩ rfl

/-- `0` is dragged over `1`, to its far side, and dropped there. -/
def there : Gesture Nat := ⟨0, 10, [.over 1 3 0, .over 1 8 0], some 1⟩

/-- `0` is dragged over `1`, to its far side, and away again. -/
def away : Gesture Nat := ⟨0, 10, [.over 1 8 0, .leave 1 true], none⟩

/-- `0` is taken up and dropped on itself. -/
def onItself : Gesture Nat := ⟨0, 10, [.over 0 8 0], some 0⟩

theorem mounted_two {s : State Nat} {g : Gesture Nat} (h : ∀ p ∈ g.events, p.1 = 0 ∨ p.1 = 1)
    (h0 : (s.items 0).mounted = true) (h1 : (s.items 1).mounted = true) :
    ∀ p ∈ g.events, (s.items p.1).mounted = true := fun p hp => by
  rcases h p hp with e | e <;> rw [e] <;> assumption

/-- `drag_reports_partial` applied: a session with two drags, of which one is reported. -/
example : ∃ s : State Nat, Session init [.mount 0, .mount 1, .drag away, .drag there] s ∧
    s.moves = [⟨0, 1, true⟩] ∧ List.Forall₂ Reports [there] s.moves := by
  have p1 := drag_plays (g := away) two_rest (mounted_two (by decide) rfl rfl)
  have r1 := drag_gesture two_rest (mounted_two (by decide) rfl rfl) p1
  have p2 := drag_plays (g := there) r1.1 (mounted_two (by decide) (by rw [r1.2.1]; rfl) (by rw [r1.2.1]; rfl))
  have hs : Session init [.mount 0, .mount 1, .drag away, .drag there] _ :=
    .mount (.mount (.drag (mounted_two (by decide) rfl rfl) p1
      (.drag (mounted_two (by decide) (by rw [r1.2.1]; rfl) (by rw [r1.2.1]; rfl)) p2 (.nil _))))
  exact ⟨_, hs, by rfl, drag_reports_partial hs⟩

/-- **C62.** The side of a drop of an item on itself is left over from an earlier drag: two sessions end with the same
drag and report it differently. -/
theorem drag_self_stale : ∃ s s' : State Nat,
    Session init [.mount 0, .mount 1, .drag onItself] s ∧ s.moves = [⟨0, 0, false⟩] ∧
    Session init [.mount 0, .mount 1, .drag away, .drag onItself] s' ∧ s'.moves = [⟨0, 0, true⟩] := by
  have p0 := drag_plays (g := onItself) two_rest (mounted_two (by decide) rfl rfl)
  have p1 := drag_plays (g := away) two_rest (mounted_two (by decide) rfl rfl)
  have r1 := drag_gesture two_rest (mounted_two (by decide) rfl rfl) p1
  have p2 := drag_plays (g := onItself) r1.1 (mounted_two (by decide) (by rw [r1.2.1]; rfl) (by rw [r1.2.1]; rfl))
  exact ⟨_, _, .mount (.mount (.drag (mounted_two (by decide) rfl rfl) p0 (.nil _))), by rfl,
    .mount (.mount (.drag (mounted_two (by decide) rfl rfl) p1
      (.drag (mounted_two (by decide) (by rw [r1.2.1]; rfl) (by rw [r1.2.1]; rfl)) p2 (.nil _)))), by rfl⟩

/-- `drag_no_gap` applied: the pointer came over `1` and left it. -/
example : ∃ s : State Nat, Play two away.events s ∧ (s.items 1).padding = (0, 0) :=
  ⟨_, drag_plays two_rest (mounted_two (by decide) rfl rfl),
    drag_no_gap two_rest (mounted_two (by decide) rfl rfl) (drag_plays two_rest (mounted_two (by decide) rfl rfl)) 1 rfl
      (Or.inr (fun pre post p b e => by
        have h2 := congrArg List.length e
        rcases pre with _ | ⟨x, _ | ⟨y, pre⟩⟩
        · simp [away] at e; simp [← e.2]
        · simp [away] at e
        · simp [away] at h2))⟩

/-- `drag_room` applied: there is room on the far side while the pointer is there. -/
example : ∃ s : State Nat, Play two [(0, .start 10), (1, .over 8 0)] s ∧ (s.items 1).padding = (0, 10) := by
  have h1 : Handled two 0 (.start 10) _ := handled_now (fun j => (two_rest.1 j).1) rfl (two_rest.1 0).2
  have m1 := mid_start two_rest rfl h1
  have h2 : Handled _ 1 (.over 8 0) _ := handled_now m1.clean (by rw [m1.mounted]; rfl) trivial
  have hp := Play.cons h1 (.cons h2 (.nil _))
  exact ⟨_, hp, drag_room (way := []) two_rest rfl (by simp) rfl (by decide) ⟨rfl, rfl⟩ hp⟩

/-- **C62.** If the item that is being dragged is removed, its drag never ends: something else dropped on `1` later, for
instance a file, is reported as a move of the item that is gone. -/
theorem drag_ghost : ∃ as : List (Action Nat),
    as = [.mount 0, .mount 1, .fire 0 (.start 10), .pollItem 0, .pollMove, .unmount 0, .fire 0 .stop, .pollMove,
      .fire 1 .drop, .pollItem 1, .pollMove] ∧
    ((run init as).items 0).mounted = false ∧ (run init as).moves = [⟨0, 1, false⟩] := ⟨_, rfl, by rfl, by rfl⟩

/-- **C62.** The reports depend on the events being handled one by one: if a whole drag arrives before the items are
polled, it is not reported. -/
theorem drag_batch_lost : (run init [.mount 0, .mount 1, .fire 0 (.start 10), .fire 1 .drop, .fire 0 .stop,
    .pollItem 0, .pollItem 1, .pollMove] : State Nat).moves = [] := by rfl

/-- `drag_sound` applied: the bound is met. -/
example : movesTo 1 (run init [.mount 0, .mount 1, .fire 0 (.start 10), .pollItem 0, .pollMove, .fire 1 .drop,
    .pollItem 1, .pollMove] : State Nat).moves = 1 := by rfl

end Verif.Drag
