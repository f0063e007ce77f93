import Verif.Arena.Inv
/-!
# Every call keeps the invariant
-/
namespace Verif.Arena
variable {W : Type}

theorem Inv.nodup {dummy : W} {a : Arena W} {s : Book W} {free : List Nat}
    (h : Inv dummy a s free) : (allNodes s).Nodup := by
  apply nodup_of_count
  intro i; have := h.count i; split at this <;> omega

theorem lists_append (s t : Book W) : Book.lists (s ++ t) = s.lists ++ t.lists := by
  simp [Book.lists]

theorem slot_split {s : Book W} {x : Nat} (hm : x ∈ s.slots) :
    ∃ s1 h l1 w l2 s2, s = s1 ++ (h, l1 ++ (x, w) :: l2) :: s2 := by
  simp only [Book.slots, List.mem_flatMap, List.mem_map] at hm
  obtain ⟨⟨h, l⟩, he, ⟨⟨y, w⟩, hy, e⟩⟩ := hm
  cases e
  obtain ⟨s1, s2, e⟩ := List.append_of_mem he
  obtain ⟨l1, l2, e'⟩ := List.append_of_mem hy
  exact ⟨s1, h, l1, w, l2, s2, by rw [e]; simp only at e'; rw [e']⟩

theorem map_id_of {α : Type} {f : α → α} {l : List α} (h : ∀ x ∈ l, f x = x) : l.map f = l := by
  induction l with
  | nil => rfl
  | cons a l ih =>
    rw [List.map_cons, h a (by simp), ih (fun x hx => h x (by simp [hx]))]

/-- Nodes of the rest of the book differ from those of an entry. -/
theorem rest_ne {s1 s2 : Book W} {e : Nat × List (Nat × W)} (hd : (allNodes (s1 ++ e :: s2)).Nodup)
    {i : Nat} (hi : i ∈ nodes e) {e' : Nat × List (Nat × W)} (he : e' ∈ s1 ∨ e' ∈ s2) :
    i ∉ nodes e' := by
  intro hj
  rw [allNodes_append, allNodes_cons] at hd
  have hc := List.nodup_iff_count.1 hd i
  rw [List.count_append, List.count_append] at hc
  have h1 := count_pos hi
  rcases he with he | he
  · have := count_pos (mem_allNodes_of he hj); omega
  · have := count_pos (mem_allNodes_of he hj); omega

theorem note_add {dummy : W} {s1 s2 : Book W} {h x : Nat} {l : List (Nat × W)}
    (hd : (allNodes (s1 ++ (h, l) :: s2)).Nodup) :
    Book.note dummy (s1 ++ (h, l) :: s2) (.add h) (.handle x) = s1 ++ (h, l ++ [(x, dummy)]) :: s2 := by
  have hne : ∀ e : Nat × List (Nat × W), e ∈ s1 ∨ e ∈ s2 → e.1 ≠ h := by
    intro e he hh
    exact rest_ne hd (i := h) (by simp [nodes]) he (by simp [nodes, hh])
  simp only [Book.note, List.map_append, List.map_cons, if_true]
  rw [map_id_of (fun e he => if_neg (hne e (.inl he))), map_id_of (fun e he => if_neg (hne e (.inr he)))]

theorem note_remove {dummy : W} {s1 s2 : Book W} {h x : Nat} {w : W} {l1 l2 : List (Nat × W)} (r : Res)
    (hd : (allNodes (s1 ++ (h, l1 ++ (x, w) :: l2) :: s2)).Nodup) :
    Book.note dummy (s1 ++ (h, l1 ++ (x, w) :: l2) :: s2) (.remove x) r = s1 ++ (h, l1 ++ l2) :: s2 := by
  have hx : x ∈ nodes (h, l1 ++ (x, w) :: l2) := by simp [nodes]
  have hne : ∀ e : Nat × List (Nat × W), e ∈ s1 ∨ e ∈ s2 →
      (e.1, e.2.filter fun y => decide (y.1 ≠ x)) = e := by
    intro e he
    have : e.2.filter (fun y => decide (y.1 ≠ x)) = e.2 := by
      rw [List.filter_eq_self]
      intro y hy
      simp only [decide_eq_true_eq]
      rintro rfl
      exact rest_ne hd hx he (by simp only [nodes, List.mem_cons, List.mem_map]; exact .inr ⟨y, hy, rfl⟩)
    rw [this]
  have hself : ∀ y ∈ l1 ++ l2, y.1 ≠ x := by
    rintro y hy rfl
    rw [allNodes_append, allNodes_cons] at hd
    have hc := List.nodup_iff_count.1 hd y.1
    simp only [List.count_append, nodes, List.map_append, List.map_cons, List.count_cons,
      beq_self_eq_true, if_true] at hc
    rcases List.mem_append.1 hy with hy | hy
    · have := count_pos (List.mem_map.2 ⟨y, hy, rfl⟩ : y.1 ∈ l1.map (·.1)); omega
    · have := count_pos (List.mem_map.2 ⟨y, hy, rfl⟩ : y.1 ∈ l2.map (·.1)); omega
  simp only [Book.note, List.map_append, List.map_cons]
  rw [map_id_of (fun e he => hne e (.inl he)), map_id_of (fun e he => hne e (.inr he))]
  have : (l1 ++ (x, w) :: l2).filter (fun y => decide (y.1 ≠ x)) = l1 ++ l2 := by
    rw [List.filter_append, List.filter_cons]
    simp only [ne_eq, not_true_eq_false, decide_false, Bool.false_eq_true, if_false]
    rw [← List.filter_append, List.filter_eq_self]
    intro y hy; simpa using hself y hy
  rw [this]

theorem note_update {dummy : W} {s1 s2 : Book W} {h x : Nat} {w v : W} {l1 l2 : List (Nat × W)} (r : Res)
    (hd : (allNodes (s1 ++ (h, l1 ++ (x, w) :: l2) :: s2)).Nodup) :
    Book.note dummy (s1 ++ (h, l1 ++ (x, w) :: l2) :: s2) (.update x v) r =
      s1 ++ (h, l1 ++ (x, v) :: l2) :: s2 := by
  have hx : x ∈ nodes (h, l1 ++ (x, w) :: l2) := by simp [nodes]
  have hne : ∀ e : Nat × List (Nat × W), e ∈ s1 ∨ e ∈ s2 →
      (e.1, e.2.map fun y => if y.1 = x then (x, v) else y) = e := by
    intro e he
    rw [map_id_of]
    intro y hy
    rw [if_neg]
    rintro rfl
    exact rest_ne hd hx he (by simp only [nodes, List.mem_cons, List.mem_map]; exact .inr ⟨y, hy, rfl⟩)
  have hself : ∀ y ∈ l1 ++ l2, y.1 ≠ x := by
    rintro y hy rfl
    rw [allNodes_append, allNodes_cons] at hd
    have hc := List.nodup_iff_count.1 hd y.1
    simp only [List.count_append, nodes, List.map_append, List.map_cons, List.count_cons,
      beq_self_eq_true, if_true] at hc
    rcases List.mem_append.1 hy with hy | hy
    · have := count_pos (List.mem_map.2 ⟨y, hy, rfl⟩ : y.1 ∈ l1.map (·.1)); omega
    · have := count_pos (List.mem_map.2 ⟨y, hy, rfl⟩ : y.1 ∈ l2.map (·.1)); omega
  simp only [Book.note, List.map_append, List.map_cons, if_true]
  rw [map_id_of (fun e he => hne e (.inl he)), map_id_of (fun e he => hne e (.inr he)),
    map_id_of (l := l1) (fun y hy => if_neg (hself y (by simp [hy]))),
    map_id_of (l := l2) (fun y hy => if_neg (hself y (by simp [hy])))]

theorem note_removeIfEmpty {dummy : W} {s1 s2 : Book W} {h : Nat} {l : List (Nat × W)}
    (hd : (allNodes (s1 ++ (h, l) :: s2)).Nodup) :
    Book.note dummy (s1 ++ (h, l) :: s2) (.removeIfEmpty h) (.bool true) = s1 ++ s2 := by
  have hne : ∀ e : Nat × List (Nat × W), e ∈ s1 ∨ e ∈ s2 → e.1 ≠ h := by
    intro e he hh
    exact rest_ne hd (i := h) (by simp [nodes]) he (by simp [nodes, hh])
  simp only [Book.note, List.filter_append, List.filter_cons, ne_eq, not_true_eq_false,
    decide_false, Bool.false_eq_true, if_false]
  rw [List.filter_eq_self.2 (fun e he => by simpa using hne e (.inl he)),
    List.filter_eq_self.2 (fun e he => by simpa using hne e (.inr he))]

theorem step_ok [DecidableEq W] {dummy : W} {a : Arena W} {s : Book W} {free : List Nat}
    (h : Inv dummy a s free) (op : Op W) (ha : s.allows op) :
    ∃ a' r free', step dummy a op = some (a', r) ∧ s.expects op r ∧
      Inv dummy a' (s.note dummy op r) free' := by
  have hd := h.nodup
  cases op with
  | addSublist =>
    obtain ⟨a', x, free', e, h1, h2, hi⟩ := addSublist_ok h
    exact ⟨a', .handle x, free', by simp [step, e], ⟨x, rfl, h1, h2⟩, hi⟩
  | add k =>
    obtain ⟨s1, l, s2, e⟩ := split_of_mem ha
    subst e
    obtain ⟨a', x, free', e, h1, hi⟩ := add_ok h
    rw [mem_allNodes] at h1
    exact ⟨a', .handle x, free', by simp [step, e],
      ⟨x, rfl, fun c => h1 (.inl c), fun c => h1 (.inr c)⟩, by rw [note_add hd]; exact hi⟩
  | remove x =>
    obtain ⟨s1, k, l1, w, l2, s2, e⟩ := slot_split ha
    subst e
    obtain ⟨a', e, hi⟩ := remove_ok h
    exact ⟨a', .unit, _, by simp [step, e], rfl, by rw [note_remove _ hd]; exact hi⟩
  | update x v =>
    obtain ⟨s1, k, l1, w, l2, s2, e⟩ := slot_split ha
    subst e
    obtain ⟨a', e, hi⟩ := update_ok (v := v) h
    exact ⟨a', .unit, _, by simp [step, e], rfl, by rw [note_update _ hd]; exact hi⟩
  | removeIfEmpty k =>
    obtain ⟨s1, l, s2, e⟩ := split_of_mem ha
    subst e
    obtain ⟨a', free', e, hi⟩ := removeIfEmpty_ok h
    have hme : (k, ([] : List (Nat × W))) ∈ s1 ++ (k, l) :: s2 ↔ l = [] := by
      constructor
      · intro hm
        simp only [List.mem_append, List.mem_cons] at hm
        rcases hm with hm | hm | hm
        · exact (rest_ne hd (i := k) (by simp [nodes]) (.inl hm) (by simp [nodes])).elim
        · cases hm; rfl
        · exact (rest_ne hd (i := k) (by simp [nodes]) (.inr hm) (by simp [nodes])).elim
      · rintro rfl; simp
    refine ⟨a', .bool (decide (l = [])), free', by simp [step, e],
      ⟨_, rfl, by rw [hme]; simp⟩, ?_⟩
    by_cases hl : l = []
    · simp only [hl, decide_true, if_true] at hi ⊢
      subst hl
      rw [note_removeIfEmpty hd]; exact hi
    · simp only [hl, decide_false, if_false] at hi ⊢
      exact hi

theorem run_inv [DecidableEq W] {dummy : W} {a : Arena W} {s : Book W} (h : Run dummy a s) :
    ∃ free, Inv dummy a s free := by
  induction h with
  | nil => exact ⟨_, inv_new dummy⟩
  | cons _ ha hs ih =>
    obtain ⟨free, hi⟩ := ih
    obtain ⟨a', r, free', e, _, hi'⟩ := step_ok hi _ ha
    rw [hs] at e; cases e
    exact ⟨free', hi'⟩

end Verif.Arena
