import Verif.Whole.Cells
/-! # Lists and items among the plain nodes -/
namespace Verif.Lists
open Verif.Dom
namespace Forest

theorem ref_append {κ here : Cell} {r : NodeId} (f g : Forest) :
    Ref κ r here (f ++ g) ↔ Ref κ r here f ∨ Ref κ r here g := by
  induction f with
  | nil => simp [Ref]
  | node n q ih => simp [Ref, ih, or_assoc]
  | item k x y m q _ ih => simp [Ref, ih, or_assoc]
  | list i x y m q _ ih => simp [Ref, ih, or_assoc]

theorem ref_has {κ here : Cell} {r : NodeId} {i : Nat} {x y : NodeId} {f m : Forest} (h : f.Has i x y m)
    (hr : Ref κ r (.list i) m) : Ref κ r here f := by
  induction f generalizing here with
  | nil => cases h
  | node n q ih => exact .inr (ih h)
  | item k a b m' q ih1 ih2 =>
    rcases h with h | h
    · exact .inr (.inr (.inl (ih1 h)))
    · exact .inr (.inr (.inr (ih2 h)))
  | list j a b m' q ih1 ih2 =>
    rcases h with ⟨rfl, rfl, rfl, rfl⟩ | h | h
    · exact .inr (.inr (.inl hr))
    · exact .inr (.inr (.inl (ih1 h)))
    · exact .inr (.inr (.inr (ih2 h)))

theorem ref_entry {here : Cell} {k : Key} {x y : NodeId} {m : Forest} (h : (k, ⟨x, y⟩) ∈ m.entries) :
    Ref (.item y) y here m := by
  induction m with
  | nil => cases h
  | node n q ih => exact .inr (ih h)
  | item k' a b m' q ih1 ih2 =>
    rcases List.mem_cons.1 h with h | h
    · cases h
      exact .inr (.inl ⟨rfl, rfl⟩)
    · exact .inr (.inr (.inr (ih2 h)))
  | list j a b m' q ih1 ih2 => exact .inr (.inr (.inr (ih2 h)))

theorem seq_item_nil {y : NodeId} {here : Cell} {f : Forest} (hy : y ∉ f.flat) (hh : here ≠ .item y) :
    seq (.item y) here f = [] := by
  induction f generalizing here with
  | nil => rfl
  | node n q ih =>
    simp only [flat, List.mem_cons, not_or] at hy
    rw [seq, if_neg hh, ih hy.2 hh]
  | item k a b m q ih1 ih2 =>
    simp only [flat, List.mem_cons, List.mem_append, not_or] at hy
    rw [seq, ih1 hy.2.1 (by simpa using fun e => hy.2.2.1 e.symm), ih2 hy.2.2.2 hh, List.append_nil]
  | list j a b m q ih1 ih2 =>
    simp only [flat, List.mem_cons, List.mem_append, not_or] at hy
    rw [seq, ih1 hy.2.1 (by simp), ih2 hy.2.2.2 hh, List.append_nil]

/-- what is in an item is before its end marker -/
theorem seq_item_before {y : NodeId} {here : Cell} {f : Forest} (hr : Ref (.item y) y here f)
    (hh : here ≠ .item y) (hnd : f.flat.Nodup) : List.Sublist (seq (.item y) here f ++ [y]) f.flat := by
  induction f generalizing here with
  | nil => cases hr
  | node n q ih =>
    simp only [flat, List.nodup_cons] at hnd
    rcases hr with hr | hr
    · exact absurd hr.2 hh
    · rw [seq, if_neg hh]
      exact (ih hr hh hnd.2).cons _
  | item k a b m q ih1 ih2 =>
    simp only [flat, List.nodup_cons, List.nodup_append, List.mem_cons, List.mem_append, not_or] at hnd
    obtain ⟨⟨hx1, hxy, hx2⟩, hm, ⟨hy, hq⟩, hd⟩ := hnd
    simp only [seq, flat]
    rcases hr with hr | hr | hr | hr
    · exact absurd hr.2 hh
    · obtain ⟨rfl, -⟩ := hr
      rw [seq_item_nil hy hh, List.append_nil]
      exact ((seq_sublist _ _ m).append (by simp)).cons _
    · have hym := ref_mem hr
      rw [seq_item_nil (fun h => hd y hym y (.inr h) rfl) hh, List.append_nil]
      refine List.Sublist.cons _ (List.Sublist.trans (ih1 hr ?_ hm) (List.sublist_append_left _ _))
      simp only [ne_eq, Cell.item.injEq]
      rintro rfl; exact hd _ hym _ (.inl rfl) rfl
    · have hyq := ref_mem hr
      rw [seq_item_nil (fun h => hd y h y (.inr hyq) rfl) (by
        simp only [ne_eq, Cell.item.injEq]
        rintro rfl; exact hy hyq), List.nil_append]
      exact List.Sublist.cons _ ((List.Sublist.cons _ (ih2 hr hh hq)).trans (List.sublist_append_right _ _))
  | list i a b m q ih1 ih2 =>
    simp only [flat, List.nodup_cons, List.nodup_append, List.mem_cons, List.mem_append, not_or] at hnd
    obtain ⟨⟨hx1, hxy, hx2⟩, hm, ⟨hy, hq⟩, hd⟩ := hnd
    simp only [seq, flat]
    rcases hr with hr | hr | hr | hr
    · exact absurd hr.2 hh
    · cases hr.2
    · have hym := ref_mem hr
      rw [seq_item_nil (fun h => hd y hym y (.inr h) rfl) hh, List.append_nil]
      exact List.Sublist.cons _ (List.Sublist.trans (ih1 hr (by simp) hm) (List.sublist_append_left _ _))
    · have hyq := ref_mem hr
      rw [seq_item_nil (fun h => hd y h y (.inr hyq) rfl) (by simp), List.nil_append]
      exact List.Sublist.cons _ ((List.Sublist.cons _ (ih2 hr hh hq)).trans (List.sublist_append_right _ _))

theorem seq_top_nil {here : Cell} {f : Forest} (hh : here ≠ .top) : seq .top here f = [] := by
  induction f generalizing here with
  | nil => rfl
  | node n q ih => rw [seq, if_neg hh, ih hh]
  | item k a b m q ih1 ih2 => rw [seq, ih1 (by simp), ih2 hh]; rfl
  | list j a b m q ih1 ih2 => rw [seq, ih1 (by simp), ih2 hh]; rfl

/-- no list `i` on top -/
def NoList (i : Nat) : Forest → Prop
  | nil => True
  | node _ r => NoList i r
  | item _ _ _ _ r => NoList i r
  | list j _ _ _ r => j ≠ i ∧ NoList i r

theorem has_level {i : Nat} {x y : NodeId} {f m : Forest} {l : Nat} (hl : f.Level l) (h : f.Has i x y m) :
    l = 2 ∧ m.Level 1 := by
  induction f generalizing l with
  | nil => cases h
  | node n r ih => exact ih hl h
  | item k a b m' r ih1 ih2 =>
    rcases h with h | h
    · exact absurd (ih1 hl.2.1 h).1 (by simp)
    · exact ih2 hl.2.2 h
  | list j a b m' r ih1 ih2 =>
    rcases h with ⟨rfl, rfl, rfl, rfl⟩ | h | h
    · exact ⟨hl.1, hl.2.1⟩
    · exact absurd (ih1 hl.2.1 h).1 (by simp)
    · exact ih2 hl.2.2 h

theorem noList_has {i : Nat} {f : Forest} (hl : f.Level 2) : NoList i f ↔ ∀ x y m, ¬ f.Has i x y m := by
  induction f with
  | nil => simp [NoList, Has]
  | node n r ih => exact ih hl
  | item k a b m' r ih1 ih2 => exact absurd hl.1 (by simp)
  | list j a b m' r ih1 ih2 =>
    simp only [NoList, ih2 hl.2.2, Has]
    constructor
    · rintro ⟨h1, h2⟩ x y m (h | h | h)
      · exact h1 h.1
      · exact absurd (has_level hl.2.1 h).1 (by simp)
      · exact h2 _ _ _ h
    · intro h
      exact ⟨fun e => h a b m' (.inl ⟨e, rfl, rfl, rfl⟩), fun x y m hh => h x y m (.inr (.inr hh))⟩

/-- where the list is -/
theorem split_list {i : Nat} {x y : NodeId} {f m : Forest} (hl : f.Level 2) (h : f.Has i x y m)
    (hnd : f.flat.Nodup) (hu : ∀ x' y' m', f.Has i x' y' m' → x' = x) :
    ∃ f1 f2, f = f1 ++ list i x y m f2 ∧ NoList i f1 ∧ NoList i f2 := by
  induction f with
  | nil => cases h
  | node n r ih =>
    simp only [flat, List.nodup_cons] at hnd
    obtain ⟨f1, f2, e, h1, h2⟩ := ih hl h hnd.2 hu
    exact ⟨node n f1, f2, by rw [e]; rfl, h1, h2⟩
  | item k a b m' r ih1 ih2 => exact absurd hl.1 (by simp)
  | list j a b m' r ih1 ih2 =>
    simp only [flat, List.nodup_cons, List.nodup_append, List.mem_cons, List.mem_append, not_or] at hnd
    obtain ⟨⟨hx1, hxy, hx2⟩, hm, ⟨hy, hr⟩, hd⟩ := hnd
    rcases h with ⟨rfl, rfl, rfl, rfl⟩ | h | h
    · refine ⟨nil, r, rfl, trivial, (noList_has hl.2.2).2 ?_⟩
      intro x' y' m'' hh
      have := hu x' y' m'' (.inr (.inr hh))
      subst this
      exact hx2 (has_mem hh).1
    · exact absurd (has_level hl.2.1 h).1 (by simp)
    · obtain ⟨f1, f2, e, h1, h2⟩ := ih2 hl.2.2 h hr fun x' y' m'' hh => hu x' y' m'' (.inr (.inr hh))
      refine ⟨list j a b m' f1, f2, by rw [e]; rfl, ⟨?_, h1⟩, h2⟩
      rintro rfl
      have := hu a b m' (.inl ⟨rfl, rfl, rfl, rfl⟩)
      subst this
      exact hx2 (has_mem h).1

theorem atList_append {i : Nat} {g : Forest → Forest} (f f' : Forest) :
    (f ++ f').atList i g = f.atList i g ++ f'.atList i g := by
  induction f with
  | nil => rfl
  | node n r ih => simp [atList, ih]
  | item k x y m r _ ih => simp [atList, ih]
  | list i x y m r _ ih => simp [atList, ih]

theorem cutList_append {i : Nat} (f f' : Forest) : (f ++ f').cutList i = f.cutList i ++ f'.cutList i := by
  induction f with
  | nil => rfl
  | node n r ih => simp [cutList, ih]
  | item k x y m r _ ih => simp [cutList, ih]
  | list j x y m r _ ih => simp only [list_append, cutList]; split <;> simp [ih]

theorem atList_split {i : Nat} {x y : NodeId} {g : Forest → Forest} {f1 f2 m : Forest} (hl1 : f1.Level 2)
    (hl2 : f2.Level 2) (h1 : NoList i f1) (h2 : NoList i f2) :
    (f1 ++ list i x y m f2).atList i g = f1 ++ list i x y (g m) f2 := by
  rw [atList_append, atList_none ((noList_has hl1).1 h1)]
  simp only [atList, if_true]
  rw [atList_none ((noList_has hl2).1 h2)]

theorem cutList_split {i : Nat} {x y : NodeId} {f1 f2 m : Forest} (hl1 : f1.Level 2)
    (hl2 : f2.Level 2) (h1 : NoList i f1) (h2 : NoList i f2) :
    (f1 ++ list i x y m f2).cutList i = f1 ++ f2 := by
  rw [cutList_append, (cutList_none ((noList_has hl1).1 h1)).1]
  simp only [cutList, if_true]
  rw [(cutList_none ((noList_has hl2).1 h2)).1]

/-- where a node on top is -/
theorem split_node {r : NodeId} {f : Forest} (h : r ∈ seq .top .top f) (hnd : f.flat.Nodup) :
    ∃ f1 f2, f = f1 ++ node r f2 ∧ ∀ p, before p r f = f1 ++ (p ++ node r f2) := by
  induction f with
  | nil => cases h
  | node n q ih =>
    simp only [flat, List.nodup_cons] at hnd
    simp only [seq, if_true] at h
    by_cases e : n = r
    · subst e
      exact ⟨nil, q, rfl, fun p => by simp [before]⟩
    · rcases List.mem_cons.1 h with h | h
      · exact absurd h.symm e
      · obtain ⟨f1, f2, e1, e2⟩ := ih h hnd.2
        exact ⟨node n f1, f2, by rw [e1]; rfl, fun p => by rw [before, if_neg e, e2]; rfl⟩
  | item k a b m q ih1 ih2 =>
    simp only [flat, List.nodup_cons, List.nodup_append, List.mem_cons, List.mem_append, not_or] at hnd
    obtain ⟨⟨hx1, hxy, hx2⟩, hm, ⟨hy, hq⟩, hd⟩ := hnd
    rw [seq, seq_top_nil (by simp), List.nil_append] at h
    have hr := seq_mem_flat h
    obtain ⟨f1, f2, e1, e2⟩ := ih2 h hq
    refine ⟨item k a b m f1, f2, by rw [e1]; rfl, fun p => ?_⟩
    rw [before, if_neg (by rintro rfl; exact hx2 hr), if_neg (by rintro rfl; exact hy hr), e2,
      before_skip (fun hh => hd r hh r (.inr hr) rfl)]
    rfl
  | list k a b m q ih1 ih2 =>
    simp only [flat, List.nodup_cons, List.nodup_append, List.mem_cons, List.mem_append, not_or] at hnd
    obtain ⟨⟨hx1, hxy, hx2⟩, hm, ⟨hy, hq⟩, hd⟩ := hnd
    rw [seq, seq_top_nil (by simp), List.nil_append] at h
    have hr := seq_mem_flat h
    obtain ⟨f1, f2, e1, e2⟩ := ih2 h hq
    refine ⟨list k a b m f1, f2, by rw [e1]; rfl, fun p => ?_⟩
    rw [before, if_neg (by rintro rfl; exact hx2 hr), if_neg (by rintro rfl; exact hy hr), e2,
      before_skip (fun hh => hd r hh r (.inr hr) rfl)]
    rfl

/-! ## inside a list -/

/-- the plain nodes directly in the list -/
def loose : Forest → List NodeId
  | nil => []
  | node n r => n :: r.loose
  | item _ _ _ _ r => r.loose
  | list _ _ _ _ r => r.loose

/-- the items, with their nodes -/
def content : Forest → List (Key × Stored × List NodeId)
  | nil => []
  | node _ r => r.content
  | item k x y m r => (k, ⟨x, y⟩, m.flat) :: r.content
  | list _ _ _ _ r => r.content

@[simp] theorem loose_append (f g : Forest) : (f ++ g).loose = f.loose ++ g.loose := by
  induction f with
  | nil => rfl
  | node n r ih => simp [loose, ih]
  | item k x y m r _ ih => simp [loose, ih]
  | list i x y m r _ ih => simp [loose, ih]

@[simp] theorem content_append (f g : Forest) : (f ++ g).content = f.content ++ g.content := by
  induction f with
  | nil => rfl
  | node n r ih => simp [content, ih]
  | item k x y m r _ ih => simp [content, ih]
  | list i x y m r _ ih => simp [content, ih]

theorem content_entries (f : Forest) : f.content.map (fun e => (e.1, e.2.1)) = f.entries := by
  induction f with
  | nil => rfl
  | node n r ih => exact ih
  | item k x y m r _ ih => simp [content, entries, ih]
  | list i x y m r _ ih => exact ih

theorem content_keys (f : Forest) : f.content.map (·.1) = f.keys := by
  rw [keys, ← content_entries, List.map_map]; rfl

theorem level0 {f : Forest} (h : f.Level 0) : f.loose = f.flat ∧ f.content = [] ∧
    ∀ κ here, seq κ here f = if here = κ then f.flat else [] := by
  induction f with
  | nil => exact ⟨rfl, rfl, fun _ _ => by simp [seq, flat]⟩
  | node n r ih =>
    obtain ⟨h1, h2, h3⟩ := ih h
    refine ⟨by simp [loose, flat, h1], h2, fun κ here => ?_⟩
    simp only [seq, h3, flat]
    split <;> simp
  | item k x y m r _ ih => exact absurd h.1 (by simp)
  | list i x y m r _ ih => exact absurd h.1 (by simp)

theorem level1_loose {f : Forest} (h : f.Level 1) (i : Nat) : seq (.list i) (.list i) f = f.loose := by
  induction f with
  | nil => rfl
  | node n r ih => simp only [seq, if_true, loose, ih h]
  | item k x y m r _ ih =>
    rw [seq, ((level0 h.2.1).2.2 _ _), if_neg (by simp), List.nil_append, ih h.2.2, loose]
  | list i x y m r _ ih => exact absurd h.1 (by simp)

theorem level1_item {f : Forest} (h : f.Level 1) (i : Nat) (y : NodeId) :
    seq (.item y) (.list i) f = f.content.flatMap fun e => if e.2.1.stop = y then e.2.2 else [] := by
  induction f with
  | nil => rfl
  | node n r ih => rw [seq, if_neg (by simp), ih h, content]
  | item k x y' m r _ ih =>
    rw [seq, ((level0 h.2.1).2.2 _ _), ih h.2.2, content, List.flatMap_cons]
    simp
  | list i x y m r _ ih => exact absurd h.1 (by simp)

theorem level1_other {f : Forest} (h : f.Level 1) {i j : Nat} (hj : j ≠ i) :
    seq (.list j) (.list i) f = [] := by
  induction f with
  | nil => rfl
  | node n r ih => rw [seq, if_neg (by simpa using fun e => hj e.symm), ih h]
  | item k x y' m r _ ih =>
    rw [seq, ((level0 h.2.1).2.2 _ _), if_neg (by simp), ih h.2.2]; rfl
  | list i x y m r _ ih => exact absurd h.1 (by simp)

end Forest
end Verif.Lists
