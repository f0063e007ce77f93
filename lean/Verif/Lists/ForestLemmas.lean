import Verif.Lists.Forest
/-! # Lemmas about forests -/
namespace Verif.Lists
open Verif.Dom
namespace Forest

@[simp] theorem nil_append (q : Forest) : (nil : Forest) ++ q = q := rfl
@[simp] theorem node_append (n : NodeId) (r q : Forest) : node n r ++ q = node n (r ++ q) := rfl
@[simp] theorem item_append (k : Key) (x y : NodeId) (m r q : Forest) :
    item k x y m r ++ q = item k x y m (r ++ q) := rfl
@[simp] theorem list_append (i : Nat) (x y : NodeId) (m r q : Forest) :
    list i x y m r ++ q = list i x y m (r ++ q) := rfl

@[simp] theorem append_nil (f : Forest) : f ++ (nil : Forest) = f := by
  induction f with
  | nil => rfl
  | node n r ih => simp [ih]
  | item k x y m r _ ih => simp [ih]
  | list i x y m r _ ih => simp [ih]

theorem append_assoc (f g h : Forest) : f ++ g ++ h = f ++ (g ++ h) := by
  induction f with
  | nil => rfl
  | node n r ih => simp [ih]
  | item k x y m r _ ih => simp [ih]
  | list i x y m r _ ih => simp [ih]

@[simp] theorem flat_append (f g : Forest) : (f ++ g).flat = f.flat ++ g.flat := by
  induction f with
  | nil => rfl
  | node n r ih => simp [flat, ih]
  | item k x y m r _ ih => simp [flat, ih]
  | list i x y m r _ ih => simp [flat, ih]

@[simp] theorem entries_append (f g : Forest) : (f ++ g).entries = f.entries ++ g.entries := by
  induction f with
  | nil => rfl
  | node n r ih => simp [entries, ih]
  | item k x y m r _ ih => simp [entries, ih]
  | list i x y m r _ ih => simp [entries, ih]

theorem keys_append (f g : Forest) : (f ++ g).keys = f.keys ++ g.keys := by
  simp [keys]

@[simp] theorem has_append (i : Nat) (x y : NodeId) (f g m : Forest) :
    (f ++ g).Has i x y m ↔ f.Has i x y m ∨ g.Has i x y m := by
  induction f with
  | nil => simp [Has]
  | node n r ih => simp [Has, ih]
  | item k x y m r _ ih => simp [Has, ih, or_assoc]
  | list i x y m r _ ih => simp [Has, ih, or_assoc]

/-- no item directly inside an item -/
def Clean : Forest → Prop
  | nil => True
  | node _ r => r.Clean
  | item _ _ _ m r => m.entries = [] ∧ m.Clean ∧ r.Clean
  | list _ _ _ m r => m.Clean ∧ r.Clean

@[simp] theorem clean_append (f g : Forest) : (f ++ g).Clean ↔ f.Clean ∧ g.Clean := by
  induction f with
  | nil => simp [Clean]
  | node n r ih => simp [Clean, ih]
  | item k x y m r _ ih => simp [Clean, ih, and_assoc]
  | list i x y m r _ ih => simp [Clean, ih, and_assoc]

/-! ## the calls -/

/-- the item with a key -/
theorem split {k : Key} {f : Forest} (h : k ∈ f.keys) :
    ∃ p x y m q, f = p ++ item k x y m q ∧ k ∉ p.keys := by
  induction f with
  | nil => simp [keys, entries] at h
  | node n r ih =>
    obtain ⟨p, x, y, m, q, e, hp⟩ := ih (by simpa [keys, entries] using h)
    exact ⟨node n p, x, y, m, q, by rw [e]; rfl, by simpa [keys, entries] using hp⟩
  | item k' x y m r _ ih =>
    by_cases hk : k = k'
    · exact ⟨nil, x, y, m, r, by rw [hk]; rfl, by simp [keys, entries]⟩
    · obtain ⟨p, x', y', m', q, e, hp⟩ := ih (by
        simp only [keys, entries, List.map_cons, List.mem_cons] at h
        exact h.resolve_left hk)
      refine ⟨item k' x y m p, x', y', m', q, by rw [e]; rfl, ?_⟩
      simp only [keys, entries, List.map_cons, List.mem_cons, not_or]
      exact ⟨hk, hp⟩
  | list i x y m r _ ih =>
    obtain ⟨p, x', y', m', q, e, hp⟩ := ih (by simpa [keys, entries] using h)
    exact ⟨list i x y m p, x', y', m', q, by rw [e]; rfl, by simpa [keys, entries] using hp⟩

theorem put_none (p f : Forest) : put p none f = f ++ p := by
  induction f with
  | nil => rfl
  | node n r ih => simp [put, ih]
  | item k x y m r _ ih => simp [put, ih]
  | list i x y m r _ ih => simp [put, ih]

theorem put_some {k : Key} (p s : Forest) (x y : NodeId) (m q : Forest) (h : k ∉ s.keys) :
    put p (some k) (s ++ item k x y m q) = s ++ (p ++ item k x y m q) := by
  induction s with
  | nil => simp [put]
  | node n r ih => simp only [node_append, put]; rw [ih (by simpa [keys, entries] using h)]
  | item k' x' y' m' r _ ih =>
    simp only [keys, entries, List.map_cons, List.mem_cons, not_or] at h
    simp only [item_append, put, Option.some.injEq]
    rw [if_neg h.1, ih h.2]
  | list i x' y' m' r _ ih => simp only [list_append, put]; rw [ih (by simpa [keys, entries] using h)]

theorem unwrap_append (keep : Key → Bool) (f g : Forest) :
    (f ++ g).unwrap keep = f.unwrap keep ++ g.unwrap keep := by
  induction f with
  | nil => rfl
  | node n r ih => simp [unwrap, ih]
  | item k x y m r _ ih =>
    simp only [item_append, unwrap]
    split
    · simp [ih]
    · rw [ih, append_assoc]
  | list i x y m r _ ih => simp [unwrap, ih]

theorem unwrap_id {keep : Key → Bool} {f : Forest} (h : ∀ k ∈ f.keys, keep k = true) : f.unwrap keep = f := by
  induction f with
  | nil => rfl
  | node n r ih => simp only [unwrap]; rw [ih (by simpa [keys, entries] using h)]
  | item k x y m r _ ih =>
    simp only [keys, entries, List.map_cons, List.forall_mem_cons] at h
    simp only [unwrap]
    rw [if_pos h.1, ih h.2]
  | list i x y m r _ ih => simp only [unwrap]; rw [ih (by simpa [keys, entries] using h)]

theorem unwrap_ne {k : Key} {f : Forest} (h : k ∉ f.keys) : f.unwrap (· != k) = f :=
  unwrap_id fun k' hk' => by
    simp only [bne_iff_ne, ne_eq]
    rintro rfl; exact h hk'

theorem unwrap_split {k : Key} {p q : Forest} (x y : NodeId) (m : Forest) (hp : k ∉ p.keys) (hq : k ∉ q.keys) :
    (p ++ item k x y m q).unwrap (· != k) = p ++ (m ++ q) := by
  rw [unwrap_append, unwrap_ne hp]
  simp only [unwrap, bne_self_eq_false, Bool.false_eq_true, if_false]
  rw [unwrap_ne hq]

theorem pick_split {k : Key} {p : Forest} (x y : NodeId) (m q : Forest) (hp : k ∉ p.keys) :
    (p ++ item k x y m q).pick k = item k x y m nil := by
  induction p with
  | nil => simp [pick]
  | node n r ih => simp only [node_append, pick]; exact ih (by simpa [keys, entries] using hp)
  | item k' x' y' m' r _ ih =>
    simp only [keys, entries, List.map_cons, List.mem_cons, not_or] at hp
    simp only [item_append, pick]
    rw [if_neg (fun e => hp.1 e.symm)]
    exact ih hp.2
  | list i x' y' m' r _ ih => simp only [list_append, pick]; exact ih (by simpa [keys, entries] using hp)

theorem replace_append (p : Key → Option Forest) (f g : Forest) :
    (f ++ g).replace p = f.replace p ++ g.replace p := by
  induction f with
  | nil => rfl
  | node n r ih => simp [replace, ih]
  | item k x y m r _ ih =>
    simp only [item_append, replace]
    split
    · rw [ih, append_assoc]
    · simp [ih]
  | list i x y m r _ ih => simp [replace, ih]

theorem replace_id {p : Key → Option Forest} {f : Forest} (h : ∀ k ∈ f.keys, p k = none) : f.replace p = f := by
  induction f with
  | nil => rfl
  | node n r ih => simp only [replace]; rw [ih (by simpa [keys, entries] using h)]
  | item k x y m r _ ih =>
    simp only [keys, entries, List.map_cons, List.forall_mem_cons] at h
    simp only [replace]
    rw [h.1]
    simp only
    rw [ih h.2]
  | list i x y m r _ ih => simp only [replace]; rw [ih (by simpa [keys, entries] using h)]

/-! ## anywhere -/

theorem has_mem {i : Nat} {x y : NodeId} {f m : Forest} (h : f.Has i x y m) : x ∈ f.flat ∧ y ∈ f.flat := by
  induction f with
  | nil => cases h
  | node n r ih => simp only [flat, List.mem_cons]; exact ⟨Or.inr (ih h).1, Or.inr (ih h).2⟩
  | item k x' y' m' r ih1 ih2 =>
    simp only [flat, List.mem_cons, List.mem_append]
    rcases h with h | h
    · have := ih1 h; grind
    · have := ih2 h; grind
  | list j x' y' m' r ih1 ih2 =>
    simp only [flat, List.mem_cons, List.mem_append]
    rcases h with ⟨_, rfl, rfl, _⟩ | h | h
    · grind
    · have := ih1 h; grind
    · have := ih2 h; grind

theorem marker_mem {n : NodeId} {f : Forest} (h : f.Marker n) : n ∈ f.flat := by
  induction f with
  | nil => cases h
  | node n r ih => simp only [flat, List.mem_cons]; exact Or.inr (ih h)
  | item k x' y' m' r ih1 ih2 =>
    simp only [flat, List.mem_cons, List.mem_append]
    rcases h with h | h | h | h
    · simp [h]
    · simp [h]
    · have := ih1 h; grind
    · have := ih2 h; grind
  | list j x' y' m' r ih1 ih2 =>
    simp only [flat, List.mem_cons, List.mem_append]
    rcases h with h | h | h | h
    · simp [h]
    · simp [h]
    · have := ih1 h; grind
    · have := ih2 h; grind

theorem atList_none {i : Nat} {g : Forest → Forest} {f : Forest} (h : ∀ x y m, ¬ f.Has i x y m) :
    f.atList i g = f := by
  induction f with
  | nil => rfl
  | node n r ih => simp only [atList]; rw [ih h]
  | item k x y m r ih1 ih2 =>
    simp only [atList]
    rw [ih1 (fun a b c hh => h a b c (Or.inl hh)), ih2 (fun a b c hh => h a b c (Or.inr hh))]
  | list j x y m r ih1 ih2 =>
    simp only [atList]
    have hj : j ≠ i := fun e => h x y m (Or.inl ⟨e, rfl, rfl, rfl⟩)
    rw [if_neg hj, ih1 (fun a b c hh => h a b c (Or.inr (Or.inl hh))),
      ih2 (fun a b c hh => h a b c (Or.inr (Or.inr hh)))]

theorem cutList_none {i : Nat} {f : Forest} (h : ∀ x y m, ¬ f.Has i x y m) :
    f.cutList i = f ∧ f.pickList i = nil := by
  induction f with
  | nil => exact ⟨rfl, rfl⟩
  | node n r ih => simp only [cutList, pickList]; rw [(ih h).1, (ih h).2]; exact ⟨rfl, rfl⟩
  | item k x y m r ih1 ih2 =>
    have h1 := ih1 (fun a b c hh => h a b c (Or.inl hh))
    have h2 := ih2 (fun a b c hh => h a b c (Or.inr hh))
    simp only [cutList, pickList, h1.1, h1.2, h2.1, h2.2]
    exact ⟨trivial, rfl⟩
  | list j x y m r ih1 ih2 =>
    have hj : j ≠ i := fun e => h x y m (Or.inl ⟨e, rfl, rfl, rfl⟩)
    have h1 := ih1 (fun a b c hh => h a b c (Or.inr (Or.inl hh)))
    have h2 := ih2 (fun a b c hh => h a b c (Or.inr (Or.inr hh)))
    simp only [cutList, pickList, if_neg hj, h1.1, h1.2, h2.1, h2.2]
    exact ⟨trivial, rfl⟩

/-- the list, and what is around it -/
theorem frame {i : Nat} {x y : NodeId} {f m : Forest} (hm : f.Has i x y m) (hnd : f.flat.Nodup)
    (hu : ∀ x' y' m', f.Has i x' y' m' → x' = x) :
    ∃ A B, f.flat = A ++ x :: (m.flat ++ y :: B) ∧
      (∀ g, (f.atList i g).flat = A ++ x :: ((g m).flat ++ y :: B)) ∧
      (f.cutList i).flat = A ++ B ∧ f.pickList i = list i x y m nil := by
  induction f with
  | nil => cases hm
  | node n r ih =>
    simp only [flat, List.nodup_cons] at hnd
    obtain ⟨A, B, h1, h2, h3, h4⟩ := ih hm hnd.2 hu
    refine ⟨n :: A, B, ?_, ?_, ?_, h4⟩
    · simp [flat, h1]
    · intro g; simp [atList, flat, h2]
    · simp [cutList, flat, h3]
  | item k xk yk mk r ih1 ih2 =>
    simp only [flat, List.nodup_cons, List.nodup_append] at hnd
    have no1 : mk.Has i x y m → ∀ a b c, ¬ r.Has i a b c := by
      intro h a b c h'
      have e := hu a b c (Or.inr h')
      have m1 := (has_mem h).1
      have m2 := (has_mem h').1
      rw [e] at m2
      exact hnd.2.2.2 _ m1 _ (by simp [m2]) rfl
    have no2 : r.Has i x y m → ∀ a b c, ¬ mk.Has i a b c := by
      intro h a b c h'
      have e := hu a b c (Or.inl h')
      have m1 := (has_mem h).1
      have m2 := (has_mem h').1
      rw [e] at m2
      exact hnd.2.2.2 _ m2 _ (by simp [m1]) rfl
    rcases hm with h | h
    · obtain ⟨A, B, h1, h2, h3, h4⟩ := ih1 h hnd.2.1 (fun a b c hh => hu a b c (Or.inl hh))
      refine ⟨xk :: A, B ++ yk :: r.flat, ?_, ?_, ?_, ?_⟩
      · simp [flat, h1]
      · intro g; simp [atList, flat, h2, atList_none (no1 h)]
      · simp [cutList, flat, h3, (cutList_none (no1 h)).1]
      · simp [pickList, h4, (cutList_none (no1 h)).2]
    · obtain ⟨A, B, h1, h2, h3, h4⟩ := ih2 h hnd.2.2.1.2 (fun a b c hh => hu a b c (Or.inr hh))
      refine ⟨xk :: (mk.flat ++ yk :: A), B, ?_, ?_, ?_, ?_⟩
      · simp [flat, h1]
      · intro g; simp [atList, flat, h2, atList_none (no2 h)]
      · simp [cutList, flat, h3, (cutList_none (no2 h)).1]
      · simp [pickList, h4, (cutList_none (no2 h)).2]
  | list j xk yk mk r ih1 ih2 =>
    simp only [flat, List.nodup_cons, List.nodup_append] at hnd
    have no1 : mk.Has i x y m → ∀ a b c, ¬ r.Has i a b c := by
      intro h a b c h'
      have e := hu a b c (Or.inr (Or.inr h'))
      have m1 := (has_mem h).1
      have m2 := (has_mem h').1
      rw [e] at m2
      exact hnd.2.2.2 _ m1 _ (by simp [m2]) rfl
    have no2 : r.Has i x y m → ∀ a b c, ¬ mk.Has i a b c := by
      intro h a b c h'
      have e := hu a b c (Or.inr (Or.inl h'))
      have m1 := (has_mem h).1
      have m2 := (has_mem h').1
      rw [e] at m2
      exact hnd.2.2.2 _ m2 _ (by simp [m1]) rfl
    have nj : mk.Has i x y m ∨ r.Has i x y m → j ≠ i := by
      rintro h rfl
      have e := hu _ _ _ (Or.inl ⟨rfl, rfl, rfl, rfl⟩)
      subst e
      rcases h with h | h
      · exact hnd.1 (by simp [(has_mem h).1])
      · exact hnd.1 (by simp [(has_mem h).1])
    rcases hm with ⟨rfl, rfl, rfl, rfl⟩ | h | h
    · have no : ∀ a b c, ¬ r.Has j a b c := by
        intro a b c h'
        have e := hu a b c (Or.inr (Or.inr h'))
        have m2 := (has_mem h').1
        rw [e] at m2
        exact hnd.1 (by simp [m2])
      refine ⟨[], r.flat, ?_, ?_, ?_, ?_⟩
      · simp [flat]
      · intro g; simp [atList, flat, atList_none no]
      · simp [cutList, (cutList_none no).1]
      · simp [pickList]
    · obtain ⟨A, B, h1, h2, h3, h4⟩ := ih1 h hnd.2.1 (fun a b c hh => hu a b c (Or.inr (Or.inl hh)))
      have hj := nj (Or.inl h)
      refine ⟨xk :: A, B ++ yk :: r.flat, ?_, ?_, ?_, ?_⟩
      · simp [flat, h1]
      · intro g; simp [atList, flat, h2, atList_none (no1 h), hj]
      · simp [cutList, flat, h3, (cutList_none (no1 h)).1, hj]
      · simp [pickList, h4, (cutList_none (no1 h)).2, hj]
    · obtain ⟨A, B, h1, h2, h3, h4⟩ := ih2 h hnd.2.2.1.2 (fun a b c hh => hu a b c (Or.inr (Or.inr hh)))
      have hj := nj (Or.inr h)
      refine ⟨xk :: (mk.flat ++ yk :: A), B, ?_, ?_, ?_, ?_⟩
      · simp [flat, h1]
      · intro g; simp [atList, flat, h2, atList_none (no2 h), hj]
      · simp [cutList, flat, h3, (cutList_none (no2 h)).1, hj]
      · simp [pickList, h4, (cutList_none (no2 h)).2, hj]

theorem entries_atList (i : Nat) (g : Forest → Forest) (f : Forest) : (f.atList i g).entries = f.entries := by
  induction f with
  | nil => rfl
  | node n r ih => simpa [atList, entries] using ih
  | item k x y m r _ ih => simpa [atList, entries] using ih
  | list i x y m r _ ih => simpa [atList, entries] using ih

theorem entries_before {p : Forest} (hp : p.entries = []) (r : NodeId) (f : Forest) :
    (before p r f).entries = f.entries := by
  induction f with
  | nil => rfl
  | node n q ih =>
    simp only [before]
    split <;> simp [entries, hp, ih]
  | item k x y m q _ ih =>
    simp only [before]
    repeat' split
    all_goals simp [entries, hp, ih]
  | list i x y m q _ ih =>
    simp only [before]
    repeat' split
    all_goals simp [entries, hp, ih]

theorem entries_cutNode (n : NodeId) (f : Forest) : (f.cutNode n).entries = f.entries := by
  induction f with
  | nil => rfl
  | node n' r ih =>
    simp only [cutNode]
    split <;> simp [entries, ih]
  | item k x y m r _ ih => simp [cutNode, entries, ih]
  | list i x y m r _ ih => simp [cutNode, entries, ih]

theorem entries_cutList (i : Nat) (f : Forest) : (f.cutList i).entries = f.entries := by
  induction f with
  | nil => rfl
  | node n' r ih => simp [cutList, entries, ih]
  | item k x y m r _ ih => simp [cutList, entries, ih]
  | list i x y m r _ ih =>
    simp only [cutList]
    split <;> simp [entries, ih]

/-! where the lists are after a change -/

theorem has_atList {i j : Nat} {g : Forest → Forest} {x y : NodeId} {f m : Forest}
    (h : (f.atList i g).Has j x y m) :
    (j = i ∧ ∃ m0, f.Has i x y m0 ∧ m = g m0) ∨ (j ≠ i ∧ ∃ m0, f.Has j x y m0 ∧ m.entries = m0.entries) ∨
      ∃ x0 y0 m0, f.Has i x0 y0 m0 ∧ (g m0).Has j x y m := by
  induction f with
  | nil => cases h
  | node n r ih => exact ih h
  | item k xk yk mk r ih1 ih2 =>
    rcases h with h | h
    · rcases ih1 h with ⟨e, m0, h1, h2⟩ | ⟨e, m0, h1, h2⟩ | ⟨x0, y0, m0, h1, h2⟩
      · exact Or.inl ⟨e, m0, Or.inl h1, h2⟩
      · exact Or.inr (Or.inl ⟨e, m0, Or.inl h1, h2⟩)
      · exact Or.inr (Or.inr ⟨x0, y0, m0, Or.inl h1, h2⟩)
    · rcases ih2 h with ⟨e, m0, h1, h2⟩ | ⟨e, m0, h1, h2⟩ | ⟨x0, y0, m0, h1, h2⟩
      · exact Or.inl ⟨e, m0, Or.inr h1, h2⟩
      · exact Or.inr (Or.inl ⟨e, m0, Or.inr h1, h2⟩)
      · exact Or.inr (Or.inr ⟨x0, y0, m0, Or.inr h1, h2⟩)
  | list l xk yk mk r ih1 ih2 =>
    by_cases hl : l = i
    · subst hl
      simp only [atList, if_true] at h
      rcases h with ⟨rfl, rfl, rfl, rfl⟩ | h | h
      · exact Or.inl ⟨rfl, mk, Or.inl ⟨rfl, rfl, rfl, rfl⟩, rfl⟩
      · exact Or.inr (Or.inr ⟨xk, yk, mk, Or.inl ⟨rfl, rfl, rfl, rfl⟩, h⟩)
      · rcases ih2 h with ⟨e, m0, h1, h2⟩ | ⟨e, m0, h1, h2⟩ | ⟨x0, y0, m0, h1, h2⟩
        · exact Or.inl ⟨e, m0, Or.inr (Or.inr h1), h2⟩
        · exact Or.inr (Or.inl ⟨e, m0, Or.inr (Or.inr h1), h2⟩)
        · exact Or.inr (Or.inr ⟨x0, y0, m0, Or.inr (Or.inr h1), h2⟩)
    · simp only [atList, if_neg hl] at h
      rcases h with ⟨rfl, rfl, rfl, rfl⟩ | h | h
      · exact Or.inr (Or.inl ⟨hl, mk, Or.inl ⟨rfl, rfl, rfl, rfl⟩, entries_atList _ _ _⟩)
      · rcases ih1 h with ⟨e, m0, h1, h2⟩ | ⟨e, m0, h1, h2⟩ | ⟨x0, y0, m0, h1, h2⟩
        · exact Or.inl ⟨e, m0, Or.inr (Or.inl h1), h2⟩
        · exact Or.inr (Or.inl ⟨e, m0, Or.inr (Or.inl h1), h2⟩)
        · exact Or.inr (Or.inr ⟨x0, y0, m0, Or.inr (Or.inl h1), h2⟩)
      · rcases ih2 h with ⟨e, m0, h1, h2⟩ | ⟨e, m0, h1, h2⟩ | ⟨x0, y0, m0, h1, h2⟩
        · exact Or.inl ⟨e, m0, Or.inr (Or.inr h1), h2⟩
        · exact Or.inr (Or.inl ⟨e, m0, Or.inr (Or.inr h1), h2⟩)
        · exact Or.inr (Or.inr ⟨x0, y0, m0, Or.inr (Or.inr h1), h2⟩)

/-- a list inside a list is here as well -/
theorem has_inner {i j : Nat} {x y x' y' : NodeId} {f m m' : Forest} (h : f.Has i x y m) (h' : m.Has j x' y' m') :
    f.Has j x' y' m' := by
  induction f with
  | nil => cases h
  | node n r ih => exact ih h
  | item k xk yk mk r ih1 ih2 =>
    rcases h with h | h
    · exact Or.inl (ih1 h)
    · exact Or.inr (ih2 h)
  | list l xk yk mk r ih1 ih2 =>
    rcases h with ⟨rfl, rfl, rfl, rfl⟩ | h | h
    · exact Or.inr (Or.inl h')
    · exact Or.inr (Or.inl (ih1 h))
    · exact Or.inr (Or.inr (ih2 h))

theorem atList_has {i j : Nat} {g : Forest → Forest} {x y : NodeId} {f m : Forest} (h : f.Has j x y m)
    (hg : ∀ m0 x0 y0, f.Has i x0 y0 m0 → ∀ j x y m, m0.Has j x y m → (g m0).Has j x y m) :
    ∃ m', (f.atList i g).Has j x y m' := by
  induction f with
  | nil => cases h
  | node n r ih => exact ih h hg
  | item k xk yk mk r ih1 ih2 =>
    rcases h with h | h
    · obtain ⟨m', hm⟩ := ih1 h (fun a b c hh => hg a b c (Or.inl hh)); exact ⟨m', Or.inl hm⟩
    · obtain ⟨m', hm⟩ := ih2 h (fun a b c hh => hg a b c (Or.inr hh)); exact ⟨m', Or.inr hm⟩
  | list l xk yk mk r ih1 ih2 =>
    by_cases hl : l = i
    · simp only [atList, if_pos hl]
      rcases h with ⟨rfl, rfl, rfl, rfl⟩ | h | h
      · exact ⟨_, Or.inl ⟨rfl, rfl, rfl, rfl⟩⟩
      · exact ⟨m, Or.inr (Or.inl (hg mk xk yk (Or.inl ⟨hl, rfl, rfl, rfl⟩) _ _ _ _ h))⟩
      · obtain ⟨m', hm⟩ := ih2 h (fun a b c hh => hg a b c (Or.inr (Or.inr hh))); exact ⟨m', Or.inr (Or.inr hm)⟩
    · simp only [atList, if_neg hl]
      rcases h with ⟨rfl, rfl, rfl, rfl⟩ | h | h
      · exact ⟨_, Or.inl ⟨rfl, rfl, rfl, rfl⟩⟩
      · obtain ⟨m', hm⟩ := ih1 h (fun a b c hh => hg a b c (Or.inr (Or.inl hh))); exact ⟨m', Or.inr (Or.inl hm)⟩
      · obtain ⟨m', hm⟩ := ih2 h (fun a b c hh => hg a b c (Or.inr (Or.inr hh))); exact ⟨m', Or.inr (Or.inr hm)⟩

theorem clean_atList {i : Nat} {g : Forest → Forest} {f : Forest} (hf : f.Clean)
    (hg : ∀ m, m.Clean → (g m).Clean) : (f.atList i g).Clean := by
  induction f with
  | nil => trivial
  | node n r ih => exact ih hf
  | item k x y m r ih1 ih2 =>
    exact ⟨by rw [entries_atList]; exact hf.1, ih1 hf.2.1, ih2 hf.2.2⟩
  | list j x y m r ih1 ih2 =>
    refine ⟨?_, ih2 hf.2⟩
    show Clean (if j = i then g m else m.atList i g)
    split
    · exact hg m hf.1
    · exact ih1 hf.1

/-! insertion before a node -/

theorem flat_before {p : Forest} {r : NodeId} {f : Forest} {A B : List NodeId} (h : f.flat = A ++ r :: B)
    (hnd : f.flat.Nodup) : (before p r f).flat = A ++ p.flat ++ r :: B := by
  have key : ∀ f : Forest, (r ∉ f.flat → before p r f = f) ∧
      (f.flat.Nodup → ∀ A B, f.flat = A ++ r :: B → (before p r f).flat = A ++ p.flat ++ r :: B) := by
    have uniq : ∀ {A B A' B' : List NodeId}, A ++ r :: B = A' ++ r :: B' → (A ++ r :: B).Nodup → A = A' ∧ B = B' := by
      intro A B A' B' e hn
      have h1 : r ∉ A := by
        rw [List.nodup_append] at hn; exact fun h => hn.2.2 _ h _ (by simp) rfl
      have h2 : r ∉ A' := by
        rw [e, List.nodup_append] at hn; exact fun h => hn.2.2 _ h _ (by simp) rfl
      have := congrArg (fun l => (l.takeWhile (· != r), l.dropWhile (· != r))) e
      have tk : ∀ (A B : List NodeId), r ∉ A → (A ++ r :: B).takeWhile (· != r) = A ∧
          (A ++ r :: B).dropWhile (· != r) = r :: B := by
        intro A B hA
        induction A with
        | nil => simp
        | cons a A ih =>
          simp only [List.mem_cons, not_or] at hA
          have : (a != r) = true := by simp [bne_iff_ne]; exact fun e => hA.1 e.symm
          simp [this, ih hA.2]
      simp only [(tk _ _ h1).1, (tk _ _ h1).2, (tk _ _ h2).1, (tk _ _ h2).2, Prod.mk.injEq, List.cons.injEq,
        true_and] at this
      exact this
    intro f
    induction f with
    | nil => exact ⟨fun _ => rfl, fun _ A B e => by simp [flat] at e⟩
    | node n q ih =>
      refine ⟨?_, ?_⟩
      · intro h
        simp only [flat, List.mem_cons, not_or] at h
        simp only [before]
        rw [if_neg (fun e => h.1 e.symm), ih.1 h.2]
      · intro hn A B e
        have hn' := hn
        simp only [flat, List.nodup_cons] at hn'
        simp only [before]
        split
        · rename_i h1
          subst h1
          obtain ⟨rfl, rfl⟩ := uniq (A := []) (B := q.flat) (by simpa [flat] using e) (by simpa [flat] using hn')
          simp [flat]
        · rename_i h1
          cases A with
          | nil => simp only [flat, List.nil_append, List.cons.injEq] at e; exact absurd e.1 h1
          | cons a A =>
            simp only [flat, List.cons_append, List.cons.injEq] at e
            simp only [flat, List.cons_append, e.1]
            rw [ih.2 hn'.2 A B e.2]
    | item k x y m q ih1 ih2 =>
      refine ⟨?_, ?_⟩
      · intro h
        simp only [flat, List.mem_cons, List.mem_append, not_or] at h
        simp only [before]
        rw [if_neg (fun e => h.1 e.symm), if_neg (fun e => h.2.2.1 e.symm), ih1.1 h.2.1, ih2.1 h.2.2.2]
      · intro hn A B e
        have hn' := hn
        simp only [flat, List.nodup_cons, List.nodup_append] at hn'
        simp only [before]
        split
        · rename_i h1
          subst h1
          obtain ⟨rfl, rfl⟩ := uniq (A := []) (B := m.flat ++ y :: q.flat) (by simpa [flat] using e)
            (by simpa [flat] using hn)
          simp [flat]
        · split
          · rename_i h1 h2
            subst h2
            obtain ⟨rfl, rfl⟩ := uniq (A := x :: m.flat) (B := q.flat) (by simpa [flat] using e)
              (by simpa [flat] using hn)
            simp [flat]
          · rename_i h1 h2
            by_cases hm : r ∈ m.flat
            · obtain ⟨A', B', e'⟩ := List.append_of_mem hm
              have hq : r ∉ q.flat := fun h => hn'.2.2.2 _ hm _ (by simp [h]) rfl
              obtain ⟨rfl, rfl⟩ := uniq (A := x :: A') (B := B' ++ y :: q.flat)
                (by rw [← e]; simp [flat, e']) (by
                  have : x :: A' ++ r :: (B' ++ y :: q.flat) = (item k x y m q).flat := by simp [flat, e']
                  rw [this]; exact hn)
              simp [flat, ih1.2 hn'.2.1 A' B' e', ih2.1 hq]
            · have hq : r ∈ q.flat := by
                have : r ∈ (item k x y m q).flat := by rw [e]; simp
                simp only [flat, List.mem_cons, List.mem_append] at this
                grind
              obtain ⟨A', B', e'⟩ := List.append_of_mem hq
              obtain ⟨rfl, rfl⟩ := uniq (A := x :: (m.flat ++ y :: A')) (B := B')
                (by rw [← e]; simp [flat, e']) (by
                  have : x :: (m.flat ++ y :: A') ++ r :: B' = (item k x y m q).flat := by simp [flat, e']
                  rw [this]; exact hn)
              simp [flat, ih2.2 hn'.2.2.1.2 A' B' e', ih1.1 hm]
    | list k x y m q ih1 ih2 =>
      refine ⟨?_, ?_⟩
      · intro h
        simp only [flat, List.mem_cons, List.mem_append, not_or] at h
        simp only [before]
        rw [if_neg (fun e => h.1 e.symm), if_neg (fun e => h.2.2.1 e.symm), ih1.1 h.2.1, ih2.1 h.2.2.2]
      · intro hn A B e
        have hn' := hn
        simp only [flat, List.nodup_cons, List.nodup_append] at hn'
        simp only [before]
        split
        · rename_i h1
          subst h1
          obtain ⟨rfl, rfl⟩ := uniq (A := []) (B := m.flat ++ y :: q.flat) (by simpa [flat] using e)
            (by simpa [flat] using hn)
          simp [flat]
        · split
          · rename_i h1 h2
            subst h2
            obtain ⟨rfl, rfl⟩ := uniq (A := x :: m.flat) (B := q.flat) (by simpa [flat] using e)
              (by simpa [flat] using hn)
            simp [flat]
          · rename_i h1 h2
            by_cases hm : r ∈ m.flat
            · obtain ⟨A', B', e'⟩ := List.append_of_mem hm
              have hq : r ∉ q.flat := fun h => hn'.2.2.2 _ hm _ (by simp [h]) rfl
              obtain ⟨rfl, rfl⟩ := uniq (A := x :: A') (B := B' ++ y :: q.flat)
                (by rw [← e]; simp [flat, e']) (by
                  have : x :: A' ++ r :: (B' ++ y :: q.flat) = (list k x y m q).flat := by simp [flat, e']
                  rw [this]; exact hn)
              simp [flat, ih1.2 hn'.2.1 A' B' e', ih2.1 hq]
            · have hq : r ∈ q.flat := by
                have : r ∈ (list k x y m q).flat := by rw [e]; simp
                simp only [flat, List.mem_cons, List.mem_append] at this
                grind
              obtain ⟨A', B', e'⟩ := List.append_of_mem hq
              obtain ⟨rfl, rfl⟩ := uniq (A := x :: (m.flat ++ y :: A')) (B := B')
                (by rw [← e]; simp [flat, e']) (by
                  have : x :: (m.flat ++ y :: A') ++ r :: B' = (list k x y m q).flat := by simp [flat, e']
                  rw [this]; exact hn)
              simp [flat, ih2.2 hn'.2.2.1.2 A' B' e', ih1.1 hm]
  exact (key f).2 hnd A B h

theorem has_before {p : Forest} (hp : p.entries = []) {r : NodeId} {j : Nat} {x y : NodeId} {f m : Forest}
    (h : (before p r f).Has j x y m) :
    p.Has j x y m ∨ ∃ m0, f.Has j x y m0 ∧ m.entries = m0.entries := by
  induction f with
  | nil => cases h
  | node n q ih =>
    simp only [before] at h
    split at h
    · rw [has_append] at h
      exact h.imp id fun h => ⟨m, h, rfl⟩
    · exact ih h
  | item k xk yk mk q ih1 ih2 =>
    simp only [before] at h
    split at h
    · rw [has_append] at h
      exact h.imp id fun h => ⟨m, h, rfl⟩
    · split at h
      · simp only [Has, has_append] at h
        rcases h with (h | h) | h
        · exact Or.inr ⟨m, Or.inl h, rfl⟩
        · exact Or.inl h
        · exact Or.inr ⟨m, Or.inr h, rfl⟩
      · rcases h with h | h
        · exact (ih1 h).imp id fun ⟨m0, a, b⟩ => ⟨m0, Or.inl a, b⟩
        · exact (ih2 h).imp id fun ⟨m0, a, b⟩ => ⟨m0, Or.inr a, b⟩
  | list k xk yk mk q ih1 ih2 =>
    simp only [before] at h
    split at h
    · rw [has_append] at h
      exact h.imp id fun h => ⟨m, h, rfl⟩
    · split at h
      · simp only [Has, has_append] at h
        rcases h with ⟨rfl, rfl, rfl, rfl⟩ | (h | h) | h
        · exact Or.inr ⟨mk, Or.inl ⟨rfl, rfl, rfl, rfl⟩, by simp [hp]⟩
        · exact Or.inr ⟨m, Or.inr (Or.inl h), rfl⟩
        · exact Or.inl h
        · exact Or.inr ⟨m, Or.inr (Or.inr h), rfl⟩
      · rcases h with ⟨rfl, rfl, rfl, rfl⟩ | h | h
        · exact Or.inr ⟨mk, Or.inl ⟨rfl, rfl, rfl, rfl⟩, entries_before hp _ _⟩
        · exact (ih1 h).imp id fun ⟨m0, a, b⟩ => ⟨m0, Or.inr (Or.inl a), b⟩
        · exact (ih2 h).imp id fun ⟨m0, a, b⟩ => ⟨m0, Or.inr (Or.inr a), b⟩

theorem before_has {p : Forest} {r : NodeId} {j : Nat} {x y : NodeId} {f m : Forest}
    (h : f.Has j x y m) : ∃ m', (before p r f).Has j x y m' := by
  induction f with
  | nil => cases h
  | node n q ih =>
    simp only [before]
    split
    · exact ⟨m, by rw [has_append]; exact Or.inr h⟩
    · exact ih h
  | item k xk yk mk q ih1 ih2 =>
    simp only [before]
    split
    · exact ⟨m, by rw [has_append]; exact Or.inr h⟩
    · split
      · refine ⟨m, ?_⟩
        simp only [Has, has_append]
        rcases h with h | h
        · exact Or.inl (Or.inl h)
        · exact Or.inr h
      · rcases h with h | h
        · obtain ⟨m', h'⟩ := ih1 h; exact ⟨m', Or.inl h'⟩
        · obtain ⟨m', h'⟩ := ih2 h; exact ⟨m', Or.inr h'⟩
  | list k xk yk mk q ih1 ih2 =>
    simp only [before]
    split
    · exact ⟨m, by rw [has_append]; exact Or.inr h⟩
    · split
      · rcases h with ⟨rfl, rfl, rfl, rfl⟩ | h | h
        · exact ⟨_, Or.inl ⟨rfl, rfl, rfl, rfl⟩⟩
        · exact ⟨m, Or.inr (Or.inl (by rw [has_append]; exact Or.inl h))⟩
        · exact ⟨m, Or.inr (Or.inr h)⟩
      · rcases h with ⟨rfl, rfl, rfl, rfl⟩ | h | h
        · exact ⟨_, Or.inl ⟨rfl, rfl, rfl, rfl⟩⟩
        · obtain ⟨m', h'⟩ := ih1 h; exact ⟨m', Or.inr (Or.inl h')⟩
        · obtain ⟨m', h'⟩ := ih2 h; exact ⟨m', Or.inr (Or.inr h')⟩

/-- what is put in is there -/
theorem before_put {p : Forest} {r : NodeId} {j : Nat} {x y : NodeId} {f m : Forest}
    (h : p.Has j x y m) (hr : r ∈ f.flat) : (before p r f).Has j x y m := by
  induction f with
  | nil => cases hr
  | node n q ih =>
    simp only [before]
    split
    · rw [has_append]; exact Or.inl h
    · rename_i hn
      simp only [flat, List.mem_cons] at hr
      exact ih (hr.resolve_left fun e => hn e.symm)
  | item k xk yk mk q ih1 ih2 =>
    simp only [before]
    split
    · rw [has_append]; exact Or.inl h
    · split
      · simp only [Has, has_append]; exact Or.inl (Or.inr h)
      · rename_i h1 h2
        simp only [flat, List.mem_cons, List.mem_append] at hr
        rcases hr with hr | hr | hr | hr
        · exact absurd hr.symm h1
        · exact Or.inl (ih1 hr)
        · exact absurd hr.symm h2
        · exact Or.inr (ih2 hr)
  | list k xk yk mk q ih1 ih2 =>
    simp only [before]
    split
    · rw [has_append]; exact Or.inl h
    · split
      · simp only [Has, has_append]; exact Or.inr (Or.inl (Or.inr h))
      · rename_i h1 h2
        simp only [flat, List.mem_cons, List.mem_append] at hr
        rcases hr with hr | hr | hr | hr
        · exact absurd hr.symm h1
        · exact Or.inr (Or.inl (ih1 hr))
        · exact absurd hr.symm h2
        · exact Or.inr (Or.inr (ih2 hr))

theorem clean_before {p : Forest} (hp : p.entries = []) (hc : p.Clean) {r : NodeId} {f : Forest} (hf : f.Clean) :
    (before p r f).Clean := by
  induction f with
  | nil => trivial
  | node n q ih =>
    simp only [before]
    split
    · rw [clean_append]; exact ⟨hc, hf⟩
    · exact ih hf
  | item k xk yk mk q ih1 ih2 =>
    simp only [before]
    split
    · rw [clean_append]; exact ⟨hc, hf⟩
    · split
      · refine ⟨by simp [hf.1, hp], ?_, hf.2.2⟩
        rw [clean_append]; exact ⟨hf.2.1, hc⟩
      · exact ⟨by rw [entries_before hp]; exact hf.1, ih1 hf.2.1, ih2 hf.2.2⟩
  | list k xk yk mk q ih1 ih2 =>
    simp only [before]
    split
    · rw [clean_append]; exact ⟨hc, hf⟩
    · split
      · refine ⟨?_, hf.2⟩
        rw [clean_append]; exact ⟨hf.1, hc⟩
      · exact ⟨ih1 hf.1, ih2 hf.2⟩

/-! without a node -/

theorem flat_cutNode {n : NodeId} {f : Forest} (h : ¬ f.Marker n) :
    (f.cutNode n).flat = f.flat.filter (· != n) := by
  induction f with
  | nil => rfl
  | node n' r ih =>
    simp only [cutNode, flat, List.filter_cons]
    by_cases e : n' = n
    · rw [if_pos e, ih h]; simp [e]
    · rw [if_neg e]; simp [e, flat, ih h]
  | item k x y m r ih1 ih2 =>
    simp only [Marker, not_or] at h
    have hx : (x != n) = true := by simp [bne_iff_ne]; exact fun e => h.1 e.symm
    have hy : (y != n) = true := by simp [bne_iff_ne]; exact fun e => h.2.1 e.symm
    simp [cutNode, flat, List.filter_append, ih1 h.2.2.1, ih2 h.2.2.2, hx, hy]
  | list k x y m r ih1 ih2 =>
    simp only [Marker, not_or] at h
    have hx : (x != n) = true := by simp [bne_iff_ne]; exact fun e => h.1 e.symm
    have hy : (y != n) = true := by simp [bne_iff_ne]; exact fun e => h.2.1 e.symm
    simp [cutNode, flat, List.filter_append, ih1 h.2.2.1, ih2 h.2.2.2, hx, hy]

theorem has_cutNode {n : NodeId} {j : Nat} {x y : NodeId} {f m : Forest} (h : (f.cutNode n).Has j x y m) :
    ∃ m0, f.Has j x y m0 ∧ m.entries = m0.entries := by
  induction f with
  | nil => cases h
  | node n' r ih =>
    simp only [cutNode] at h
    split at h
    · exact ih h
    · exact ih h
  | item k xk yk mk r ih1 ih2 =>
    rcases h with h | h
    · obtain ⟨m0, a, b⟩ := ih1 h; exact ⟨m0, Or.inl a, b⟩
    · obtain ⟨m0, a, b⟩ := ih2 h; exact ⟨m0, Or.inr a, b⟩
  | list k xk yk mk r ih1 ih2 =>
    rcases h with ⟨rfl, rfl, rfl, rfl⟩ | h | h
    · exact ⟨mk, Or.inl ⟨rfl, rfl, rfl, rfl⟩, entries_cutNode _ _⟩
    · obtain ⟨m0, a, b⟩ := ih1 h; exact ⟨m0, Or.inr (Or.inl a), b⟩
    · obtain ⟨m0, a, b⟩ := ih2 h; exact ⟨m0, Or.inr (Or.inr a), b⟩

theorem cutNode_has {n : NodeId} {j : Nat} {x y : NodeId} {f m : Forest} (h : f.Has j x y m) :
    (f.cutNode n).Has j x y (m.cutNode n) := by
  induction f with
  | nil => cases h
  | node n' r ih =>
    simp only [cutNode]
    split
    · exact ih h
    · exact ih h
  | item k xk yk mk r ih1 ih2 => exact Or.imp ih1 ih2 h
  | list k xk yk mk r ih1 ih2 =>
    refine Or.imp ?_ (Or.imp ih1 ih2) h
    rintro ⟨rfl, rfl, rfl, rfl⟩
    exact ⟨rfl, rfl, rfl, rfl⟩

theorem clean_cutNode {n : NodeId} {f : Forest} (h : f.Clean) : (f.cutNode n).Clean := by
  induction f with
  | nil => trivial
  | node n' r ih =>
    simp only [cutNode]
    split
    · exact ih h
    · exact ih h
  | item k xk yk mk r ih1 ih2 => exact ⟨by rw [entries_cutNode]; exact h.1, ih1 h.2.1, ih2 h.2.2⟩
  | list k xk yk mk r ih1 ih2 => exact ⟨ih1 h.1, ih2 h.2⟩

/-! without a list -/

theorem has_cutList {i j : Nat} {x y : NodeId} {f m : Forest} (h : (f.cutList i).Has j x y m) :
    j ≠ i ∧ ∃ m0, f.Has j x y m0 ∧ m.entries = m0.entries := by
  induction f with
  | nil => cases h
  | node n' r ih => exact ih h
  | item k xk yk mk r ih1 ih2 =>
    rcases h with h | h
    · obtain ⟨e, m0, a, b⟩ := ih1 h; exact ⟨e, m0, Or.inl a, b⟩
    · obtain ⟨e, m0, a, b⟩ := ih2 h; exact ⟨e, m0, Or.inr a, b⟩
  | list k xk yk mk r ih1 ih2 =>
    simp only [cutList] at h
    split at h
    · obtain ⟨e, m0, a, b⟩ := ih2 h; exact ⟨e, m0, Or.inr (Or.inr a), b⟩
    · rename_i hk
      rcases h with ⟨rfl, rfl, rfl, rfl⟩ | h | h
      · exact ⟨hk, mk, Or.inl ⟨rfl, rfl, rfl, rfl⟩, entries_cutList _ _⟩
      · obtain ⟨e, m0, a, b⟩ := ih1 h; exact ⟨e, m0, Or.inr (Or.inl a), b⟩
      · obtain ⟨e, m0, a, b⟩ := ih2 h; exact ⟨e, m0, Or.inr (Or.inr a), b⟩

/-- another list is inside the list that is taken out, or it stays -/
theorem cutList_has {i j : Nat} {x y : NodeId} {f m : Forest} (h : f.Has j x y m) :
    (∃ x' y' m', f.Has i x' y' m' ∧ ((j = i ∧ x = x') ∨ m'.Has j x y m)) ∨ ∃ m', (f.cutList i).Has j x y m' := by
  induction f with
  | nil => cases h
  | node n' r ih => exact ih h
  | item k xk yk mk r ih1 ih2 =>
    rcases h with h | h
    · rcases ih1 h with ⟨x', y', m', a, b⟩ | ⟨m', a⟩
      · exact Or.inl ⟨x', y', m', Or.inl a, b⟩
      · exact Or.inr ⟨m', Or.inl a⟩
    · rcases ih2 h with ⟨x', y', m', a, b⟩ | ⟨m', a⟩
      · exact Or.inl ⟨x', y', m', Or.inr a, b⟩
      · exact Or.inr ⟨m', Or.inr a⟩
  | list k xk yk mk r ih1 ih2 =>
    simp only [cutList]
    split
    · rename_i hk
      subst hk
      rcases h with ⟨rfl, rfl, rfl, rfl⟩ | h | h
      · exact Or.inl ⟨_, _, _, Or.inl ⟨rfl, rfl, rfl, rfl⟩, Or.inl ⟨rfl, rfl⟩⟩
      · exact Or.inl ⟨_, _, _, Or.inl ⟨rfl, rfl, rfl, rfl⟩, Or.inr h⟩
      · rcases ih2 h with ⟨x', y', m', a, b⟩ | ⟨m', a⟩
        · exact Or.inl ⟨x', y', m', Or.inr (Or.inr a), b⟩
        · exact Or.inr ⟨m', a⟩
    · rename_i hk
      rcases h with ⟨rfl, rfl, rfl, rfl⟩ | h | h
      · exact Or.inr ⟨_, Or.inl ⟨rfl, rfl, rfl, rfl⟩⟩
      · rcases ih1 h with ⟨x', y', m', a, b⟩ | ⟨m', a⟩
        · exact Or.inl ⟨x', y', m', Or.inr (Or.inl a), b⟩
        · exact Or.inr ⟨m', Or.inr (Or.inl a)⟩
      · rcases ih2 h with ⟨x', y', m', a, b⟩ | ⟨m', a⟩
        · exact Or.inl ⟨x', y', m', Or.inr (Or.inr a), b⟩
        · exact Or.inr ⟨m', Or.inr (Or.inr a)⟩

theorem clean_cutList {i : Nat} {f : Forest} (h : f.Clean) : (f.cutList i).Clean := by
  induction f with
  | nil => trivial
  | node n' r ih => exact ih h
  | item k xk yk mk r ih1 ih2 => exact ⟨by rw [entries_cutList]; exact h.1, ih1 h.2.1, ih2 h.2.2⟩
  | list k xk yk mk r ih1 ih2 =>
    simp only [cutList]
    split
    · exact ih2 h.2
    · exact ⟨ih1 h.1, ih2 h.2⟩

theorem clean_inner {i : Nat} {x y : NodeId} {f m : Forest} (hf : f.Clean) (h : f.Has i x y m) : m.Clean := by
  induction f with
  | nil => cases h
  | node n' r ih => exact ih hf h
  | item k xk yk mk r ih1 ih2 =>
    rcases h with h | h
    · exact ih1 hf.2.1 h
    · exact ih2 hf.2.2 h
  | list k xk yk mk r ih1 ih2 =>
    rcases h with ⟨rfl, rfl, rfl, rfl⟩ | h | h
    · exact hf.1
    · exact ih1 hf.1 h
    · exact ih2 hf.2 h

end Forest
end Verif.Lists
