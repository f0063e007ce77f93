import Verif.Apps.TodoSpec

/-!
# TodoMVC: lemmas
-/

namespace Verif.Todo

def toEntry (p : Nat × Item) : Entry := ⟨p.1, p.2.text, p.2.checked, p.2.editing⟩

/-- How many items the program has counted as active. -/
def activeOf (items : List (Nat × Item)) : Int := (items.map fun p => if p.2.completed then (0 : Int) else 1).sum

/-- An item while the screen may lag behind its cells. -/
structure ItemOk (m : Mode) (t : Item) : Prop where
  fresh : t.checkStarted = false → t.checked = false ∧ t.checkDue = false
  clean : t.checkDue = false → t.box = t.checked ∧ t.completed = t.checked
  due : t.checkDue = true → t.completed = !t.checked
  vis : t.visStarted = true → t.visDue = false → t.hidden = !m.shouldShow t.checked
  label : t.labelStarted = true → t.labelDue = false → t.label = t.text

/-- The state while the screen may lag behind the todos. -/
structure Lag (a : App) (s : State) : Prop where
  pending : s.pending = []
  todos : s.items.map toEntry = a.todos
  filter : s.filter = a.filter
  next : s.next = a.next
  nodup : (s.items.map Prod.fst).Nodup
  below : ∀ p ∈ s.items, p.1 < s.next
  ok : ∀ p ∈ s.items, ItemOk s.filter p.2
  zombies : ∀ p ∈ s.zombies, p.2.checked = true
  active : s.numActive = activeOf s.items
  total : s.numTotal = s.items.length + s.zombies.length
  toggle : s.toggleDue = false → (∃ p ∈ s.items, p.2.checkDue = true) ∨ s.items = [] ∨
    s.toggleBox = decide (s.numActive = 0)
  main : s.mainDue = false → s.mainHidden = decide (s.numTotal = 0)
  left : s.leftDue = false → s.left = s.numActive
  clear : s.clearDue = false → s.clearHidden = !decide (s.numTotal > s.numActive)
  sel : ∀ m, s.selectedDue m = false → s.selected m = decide (s.filter = m)

theorem find_some {i : Nat} {items : List (Nat × Item)} {t : Item} (h : find i items = some t) : (i, t) ∈ items := by
  unfold find at h
  cases hf : items.find? (fun p => p.1 == i) with
  | none => rw [hf] at h; cases h
  | some p =>
    rw [hf] at h
    cases h
    have h1 := List.mem_of_find?_eq_some hf
    have h2 := List.find?_some hf
    simp at h2
    obtain ⟨j, t⟩ := p
    simp only at h2
    subst h2
    exact h1

theorem find_none {i : Nat} {items : List (Nat × Item)} (h : find i items = none) : ∀ p ∈ items, p.1 ≠ i := by
  unfold find at h
  simp only [Option.map_eq_none_iff, List.find?_eq_none] at h
  intro p hp e
  exact h p hp (by simp [e])

theorem find_unique {i : Nat} {items : List (Nat × Item)} {t t' : Item} (hn : (items.map Prod.fst).Nodup)
    (h : (i, t) ∈ items) (h' : (i, t') ∈ items) : t = t' := by
  induction items with
  | nil => cases h
  | cons p ps ih =>
    simp only [List.map_cons, List.nodup_cons] at hn
    rcases List.mem_cons.1 h with rfl | h1
    · rcases List.mem_cons.1 h' with e | h2
      · cases e; rfl
      · exact absurd (List.mem_map.2 ⟨_, h2, rfl⟩) hn.1
    · rcases List.mem_cons.1 h' with e | h2
      · cases e; exact absurd (List.mem_map.2 ⟨_, h1, rfl⟩) hn.1
      · exact ih hn.2 h1 h2

theorem modify_fst (i : Nat) (f : Item → Item) (items : List (Nat × Item)) :
    (modify i f items).map Prod.fst = items.map Prod.fst := by
  simp only [modify, List.map_map]
  apply List.map_congr_left
  intro p _
  simp only [Function.comp]
  split <;> rfl

theorem mem_modify {i : Nat} {f : Item → Item} {items : List (Nat × Item)} {q : Nat × Item}
    (h : q ∈ modify i f items) : ∃ p ∈ items, q.1 = p.1 ∧ ((p.1 = i ∧ q.2 = f p.2) ∨ (p.1 ≠ i ∧ q.2 = p.2)) := by
  simp only [modify, List.mem_map] at h
  obtain ⟨p, hp, rfl⟩ := h
  refine ⟨p, hp, ?_⟩
  split
  · rename_i e; exact ⟨rfl, Or.inl ⟨e, rfl⟩⟩
  · rename_i e; exact ⟨rfl, Or.inr ⟨e, rfl⟩⟩

theorem modify_entry {i : Nat} {f : Item → Item} (items : List (Nat × Item))
    (h : ∀ p ∈ items, p.1 = i → toEntry (i, f p.2) = toEntry p) :
    (modify i f items).map toEntry = items.map toEntry := by
  simp only [modify, List.map_map]
  apply List.map_congr_left
  intro p hp
  simp only [Function.comp]
  split
  · rename_i e
    rw [e]; exact h p hp e
  · rfl

theorem modify_length (i : Nat) (f : Item → Item) (items : List (Nat × Item)) :
    (modify i f items).length = items.length := by simp [modify]

theorem modify_id {i : Nat} {f : Item → Item} {items : List (Nat × Item)} (h : ∀ p ∈ items, p.1 = i → f p.2 = p.2) :
    modify i f items = items := by
  simp only [modify]
  conv => rhs; rw [← List.map_id items]
  apply List.map_congr_left
  intro p hp
  split
  · rename_i e; rw [h p hp e]; rfl
  · rfl

theorem activeOf_cons (p : Nat × Item) (ps : List (Nat × Item)) :
    activeOf (p :: ps) = (if p.2.completed then (0 : Int) else 1) + activeOf ps := by
  simp [activeOf]

theorem activeOf_modify_same {i : Nat} {f : Item → Item} {items : List (Nat × Item)}
    (h : ∀ p ∈ items, p.1 = i → (f p.2).completed = p.2.completed) : activeOf (modify i f items) = activeOf items := by
  simp only [activeOf, modify, List.map_map]
  congr 1
  apply List.map_congr_left
  intro p hp
  simp only [Function.comp]
  split
  · rename_i e; rw [h p hp e]
  · rfl

theorem activeOf_modify {i : Nat} {f : Item → Item} {items : List (Nat × Item)} {t : Item}
    (hn : (items.map Prod.fst).Nodup) (h : (i, t) ∈ items) :
    activeOf (modify i f items) = activeOf items - (if t.completed then (0 : Int) else 1) +
      (if (f t).completed then (0 : Int) else 1) := by
  induction items with
  | nil => cases h
  | cons p ps ih =>
    simp only [List.map_cons, List.nodup_cons] at hn
    rcases List.mem_cons.1 h with e | h1
    · have hps : modify i f ps = ps := modify_id (fun q hq e' => by
        exact absurd (List.mem_map.2 ⟨q, hq, by rw [e', ← e]⟩) hn.1)
      subst e
      rw [show modify i f ((i, t) :: ps) = (i, f t) :: modify i f ps by simp [modify], hps, activeOf_cons, activeOf_cons]
      simp only []
      omega
    · have hne : p.1 ≠ i := fun e => hn.1 (List.mem_map.2 ⟨_, h1, e.symm⟩)
      rw [show modify i f (p :: ps) = p :: modify i f ps by simp [modify, hne], activeOf_cons, activeOf_cons, ih hn.2 h1]
      omega

theorem activeOf_append (xs ys : List (Nat × Item)) : activeOf (xs ++ ys) = activeOf xs + activeOf ys := by
  simp [activeOf]

theorem activeOf_bounds (items : List (Nat × Item)) : 0 ≤ activeOf items ∧ activeOf items ≤ items.length := by
  induction items with
  | nil => simp [activeOf]
  | cons p ps ih =>
    rw [activeOf_cons]
    simp only [List.length_cons]
    split <;> omega

end Verif.Todo
