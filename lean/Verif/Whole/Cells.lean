import Verif.Lists.NestProps
/-!
# The plain nodes of a description of the page

Where in a `Forest` the plain nodes are: on top, directly in a list, or in an item.
-/
namespace Verif.Lists
open Verif.Dom

/-- A place for plain nodes. -/
inductive Cell
  | top
  /-- in the item that ends with `y` -/
  | item (y : NodeId)
  /-- in the list `i`, but not in an item -/
  | list (i : Nat)
deriving DecidableEq

namespace Forest

/-- The plain nodes in the cell `κ`; the plain nodes on top of the forest itself are in `here`. -/
def seq (κ : Cell) : Cell → Forest → List NodeId
  | _, nil => []
  | here, node n r => if here = κ then n :: seq κ here r else seq κ here r
  | here, item _ _ y m r => seq κ (.item y) m ++ seq κ here r
  | here, list i _ _ m r => seq κ (.list i) m ++ seq κ here r

/-- 0: nodes only; 1: nodes and items of level 0; 2: nodes and lists of level 1. -/
def Level : Nat → Forest → Prop
  | _, nil => True
  | l, node _ r => Level l r
  | l, item _ _ _ m r => l = 1 ∧ Level 0 m ∧ Level l r
  | l, list _ _ _ m r => l = 2 ∧ Level 1 m ∧ Level l r

@[simp] theorem level_append {l : Nat} (f g : Forest) : Level l (f ++ g) ↔ Level l f ∧ Level l g := by
  induction f with
  | nil => simp [Level]
  | node n r ih => simp [Level, ih]
  | item k x y m r _ ih => simp [Level, ih, and_assoc]
  | list i x y m r _ ih => simp [Level, ih, and_assoc]

@[simp] theorem seq_append (κ here : Cell) (f g : Forest) :
    seq κ here (f ++ g) = seq κ here f ++ seq κ here g := by
  induction f generalizing here with
  | nil => rfl
  | node n r ih => simp only [node_append, seq, ih]; split <;> simp
  | item k x y m r _ ih => simp [seq, ih]
  | list i x y m r _ ih => simp [seq, ih]

theorem seq_sublist (κ here : Cell) (f : Forest) : List.Sublist (seq κ here f) f.flat := by
  induction f generalizing here with
  | nil => exact List.Sublist.refl _
  | node n r ih =>
    simp only [seq, flat]
    split
    · exact (ih here).cons_cons _
    · exact (ih here).cons _
  | item k x y m r ih1 ih2 =>
    simp only [seq, flat]
    exact (List.Sublist.append (ih1 _) ((ih2 _).cons _)).cons _
  | list i x y m r ih1 ih2 =>
    simp only [seq, flat]
    exact (List.Sublist.append (ih1 _) ((ih2 _).cons _)).cons _

theorem mem_flat {n : NodeId} {f : Forest} (here : Cell) :
    n ∈ f.flat ↔ f.Marker n ∨ ∃ κ, n ∈ seq κ here f := by
  induction f generalizing here with
  | nil => simp [flat, Marker, seq]
  | node n' r ih =>
    simp only [flat, List.mem_cons, Marker, ih here, seq]
    constructor
    · rintro (rfl | h | ⟨κ, h⟩)
      · exact .inr ⟨here, by simp⟩
      · exact .inl h
      · exact .inr ⟨κ, by split <;> simp [h]⟩
    · rintro (h | ⟨κ, h⟩)
      · exact .inr (.inl h)
      · split at h
        · rcases List.mem_cons.1 h with rfl | h
          · exact .inl rfl
          · exact .inr (.inr ⟨κ, h⟩)
        · exact .inr (.inr ⟨κ, h⟩)
  | item k x y m r ih1 ih2 =>
    simp only [flat, List.mem_cons, List.mem_append, Marker, ih1 (.item y), ih2 here, seq, exists_or]
    grind
  | list i x y m r ih1 ih2 =>
    simp only [flat, List.mem_cons, List.mem_append, Marker, ih1 (.list i), ih2 here, seq, exists_or]
    grind

theorem seq_mem_flat {κ here : Cell} {f : Forest} {n : NodeId} (h : n ∈ seq κ here f) : n ∈ f.flat :=
  (seq_sublist κ here f).subset h

theorem seq_unique {κ κ' here : Cell} {f : Forest} {n : NodeId} (hnd : f.flat.Nodup)
    (h : n ∈ seq κ here f) (h' : n ∈ seq κ' here f) : κ = κ' := by
  induction f generalizing here with
  | nil => cases h
  | node n' r ih =>
    simp only [flat, List.nodup_cons] at hnd
    simp only [seq] at h h'
    have hn : ∀ κ, n' ∉ seq κ here r := fun κ hh => hnd.1 (seq_mem_flat hh)
    split at h <;> split at h'
    · rename_i e1 e2; exact e1.symm.trans e2
    · rename_i e1 e2
      rcases List.mem_cons.1 h with rfl | h
      · exact absurd h' (hn _)
      · exact ih hnd.2 h h'
    · rename_i e1 e2
      rcases List.mem_cons.1 h' with rfl | h'
      · exact absurd h (hn _)
      · exact ih hnd.2 h h'
    · exact ih hnd.2 h h'
  | item k x y m r ih1 ih2 =>
    simp only [flat, List.nodup_cons, List.nodup_append, List.mem_cons] at hnd
    simp only [seq, List.mem_append] at h h'
    rcases h with h | h <;> rcases h' with h' | h'
    · exact ih1 hnd.2.1 h h'
    · exact absurd rfl (hnd.2.2.2 n (seq_mem_flat h) n (.inr (seq_mem_flat h')))
    · exact absurd rfl (hnd.2.2.2 n (seq_mem_flat h') n (.inr (seq_mem_flat h)))
    · exact ih2 hnd.2.2.1.2 h h'
  | list i x y m r ih1 ih2 =>
    simp only [flat, List.nodup_cons, List.nodup_append, List.mem_cons] at hnd
    simp only [seq, List.mem_append] at h h'
    rcases h with h | h <;> rcases h' with h' | h'
    · exact ih1 hnd.2.1 h h'
    · exact absurd rfl (hnd.2.2.2 n (seq_mem_flat h) n (.inr (seq_mem_flat h')))
    · exact absurd rfl (hnd.2.2.2 n (seq_mem_flat h') n (.inr (seq_mem_flat h)))
    · exact ih2 hnd.2.2.1.2 h h'

theorem seq_not_marker {κ here : Cell} {f : Forest} {n : NodeId} (hnd : f.flat.Nodup)
    (h : n ∈ seq κ here f) : ¬ f.Marker n := by
  induction f generalizing here with
  | nil => cases h
  | node n' r ih =>
    simp only [flat, List.nodup_cons] at hnd
    simp only [seq] at h
    simp only [Marker]
    split at h
    · rcases List.mem_cons.1 h with rfl | h
      · exact fun hm => hnd.1 (marker_mem hm)
      · exact ih hnd.2 h
    · exact ih hnd.2 h
  | item k x y m r ih1 ih2 =>
    simp only [flat, List.nodup_cons, List.nodup_append, List.mem_cons, List.mem_append, not_or] at hnd
    simp only [seq, List.mem_append] at h
    obtain ⟨⟨hx1, hxy, hx2⟩, hm, ⟨hy, hr⟩, hd⟩ := hnd
    simp only [Marker, not_or]
    rcases h with h | h
    · have hf := seq_mem_flat h
      refine ⟨?_, ?_, ih1 hm h, ?_⟩
      · rintro rfl; exact hx1 hf
      · rintro rfl; exact hd n hf n (.inl rfl) rfl
      · intro hk; exact hd n hf n (.inr (marker_mem hk)) rfl
    · have hf := seq_mem_flat h
      refine ⟨?_, ?_, ?_, ih2 hr h⟩
      · rintro rfl; exact hx2 hf
      · rintro rfl; exact hy hf
      · intro hk; exact hd n (marker_mem hk) n (.inr hf) rfl
  | list i x y m r ih1 ih2 =>
    simp only [flat, List.nodup_cons, List.nodup_append, List.mem_cons, List.mem_append, not_or] at hnd
    simp only [seq, List.mem_append] at h
    obtain ⟨⟨hx1, hxy, hx2⟩, hm, ⟨hy, hr⟩, hd⟩ := hnd
    simp only [Marker, not_or]
    rcases h with h | h
    · have hf := seq_mem_flat h
      refine ⟨?_, ?_, ih1 hm h, ?_⟩
      · rintro rfl; exact hx1 hf
      · rintro rfl; exact hd n hf n (.inl rfl) rfl
      · intro hk; exact hd n hf n (.inr (marker_mem hk)) rfl
    · have hf := seq_mem_flat h
      refine ⟨?_, ?_, ?_, ih2 hr h⟩
      · rintro rfl; exact hx2 hf
      · rintro rfl; exact hy hf
      · intro hk; exact hd n (marker_mem hk) n (.inr hf) rfl

/-! ## without a node -/

theorem seq_cutNode (κ here : Cell) (n : NodeId) (f : Forest) :
    seq κ here (f.cutNode n) = (seq κ here f).filter (· != n) := by
  induction f generalizing here with
  | nil => rfl
  | node n' r ih =>
    simp only [cutNode, seq]
    by_cases e : n' = n
    · subst e
      rw [if_pos rfl, ih]
      split <;> simp
    · rw [if_neg e]
      simp only [seq, ih]
      split <;> simp [e]
  | item k x y m r ih1 ih2 => simp [cutNode, seq, ih1, ih2]
  | list i x y m r ih1 ih2 => simp [cutNode, seq, ih1, ih2]

theorem marker_cutNode (n q : NodeId) (f : Forest) : (f.cutNode n).Marker q ↔ f.Marker q := by
  induction f with
  | nil => rfl
  | node n' r ih =>
    simp only [cutNode]
    split <;> simp only [Marker, ih]
  | item k x y m r ih1 ih2 => simp [cutNode, Marker, ih1, ih2]
  | list i x y m r ih1 ih2 => simp [cutNode, Marker, ih1, ih2]

theorem level_cutNode {l : Nat} {n : NodeId} {f : Forest} (h : f.Level l) : (f.cutNode n).Level l := by
  induction f generalizing l with
  | nil => trivial
  | node n' r ih =>
    simp only [cutNode]
    split
    · exact ih h
    · exact ih h
  | item k x y m r ih1 ih2 => exact ⟨h.1, ih1 h.2.1, ih2 h.2.2⟩
  | list i x y m r ih1 ih2 => exact ⟨h.1, ih1 h.2.1, ih2 h.2.2⟩

theorem cutNode_id {n : NodeId} {f : Forest} (h : n ∉ f.flat) : f.cutNode n = f := by
  induction f with
  | nil => rfl
  | node n' r ih =>
    simp only [flat, List.mem_cons, not_or] at h
    rw [cutNode, if_neg (fun e => h.1 e.symm), ih h.2]
  | item k x y m r ih1 ih2 =>
    simp only [flat, List.mem_cons, List.mem_append, not_or] at h
    rw [cutNode, ih1 h.2.1, ih2 h.2.2.2]
  | list i x y m r ih1 ih2 =>
    simp only [flat, List.mem_cons, List.mem_append, not_or] at h
    rw [cutNode, ih1 h.2.1, ih2 h.2.2.2]

/-! ## a new node -/

/-- What is put before `r` is in the cell `κ`. -/
def Ref (κ : Cell) (r : NodeId) : Cell → Forest → Prop
  | _, nil => False
  | here, node n q => (n = r ∧ here = κ) ∨ Ref κ r here q
  | here, item _ x y m q => (x = r ∧ here = κ) ∨ (y = r ∧ .item y = κ) ∨ Ref κ r (.item y) m ∨ Ref κ r here q
  | here, list i x y m q => (x = r ∧ here = κ) ∨ (y = r ∧ .list i = κ) ∨ Ref κ r (.list i) m ∨ Ref κ r here q

theorem ref_mem {κ here : Cell} {r : NodeId} {f : Forest} (h : Ref κ r here f) : r ∈ f.flat := by
  induction f generalizing here with
  | nil => cases h
  | node n q ih =>
    simp only [flat, List.mem_cons]
    rcases h with h | h
    · exact .inl h.1.symm
    · exact .inr (ih h)
  | item k x y m q ih1 ih2 =>
    simp only [flat, List.mem_cons, List.mem_append]
    rcases h with h | h | h | h
    · exact .inl h.1.symm
    · exact .inr (.inr (.inl h.1.symm))
    · exact .inr (.inl (ih1 h))
    · exact .inr (.inr (.inr (ih2 h)))
  | list i x y m q ih1 ih2 =>
    simp only [flat, List.mem_cons, List.mem_append]
    rcases h with h | h | h | h
    · exact .inl h.1.symm
    · exact .inr (.inr (.inl h.1.symm))
    · exact .inr (.inl (ih1 h))
    · exact .inr (.inr (.inr (ih2 h)))

theorem ref_of_seq {κ here : Cell} {r : NodeId} {f : Forest} (h : r ∈ seq κ here f) : Ref κ r here f := by
  induction f generalizing here with
  | nil => cases h
  | node n q ih =>
    simp only [seq] at h
    split at h
    · rename_i e
      rcases List.mem_cons.1 h with rfl | h
      · exact .inl ⟨rfl, e⟩
      · exact .inr (ih h)
    · exact .inr (ih h)
  | item k x y m q ih1 ih2 =>
    rcases List.mem_append.1 h with h | h
    · exact .inr (.inr (.inl (ih1 h)))
    · exact .inr (.inr (.inr (ih2 h)))
  | list i x y m q ih1 ih2 =>
    rcases List.mem_append.1 h with h | h
    · exact .inr (.inr (.inl (ih1 h)))
    · exact .inr (.inr (.inr (ih2 h)))

theorem before_skip {p : Forest} {r : NodeId} {f : Forest} (h : r ∉ f.flat) : before p r f = f := by
  induction f with
  | nil => rfl
  | node n' q ih =>
    simp only [flat, List.mem_cons, not_or] at h
    rw [before, if_neg (fun e => h.1 e.symm), ih h.2]
  | item k x y m q ih1 ih2 =>
    simp only [flat, List.mem_cons, List.mem_append, not_or] at h
    rw [before, if_neg (fun e => h.1 e.symm), if_neg (fun e => h.2.2.1 e.symm), ih1 h.2.1, ih2 h.2.2.2]
  | list i x y m q ih1 ih2 =>
    simp only [flat, List.mem_cons, List.mem_append, not_or] at h
    rw [before, if_neg (fun e => h.1 e.symm), if_neg (fun e => h.2.2.1 e.symm), ih1 h.2.1, ih2 h.2.2.2]

theorem or_help {a b c d e : Prop} : ((a ∨ (c ∧ d)) ∨ (b ∨ (c ∧ e))) ↔ ((a ∨ b) ∨ (c ∧ (d ∨ e))) := by
  grind

theorem mem_seq_before {κ here : Cell} {n r q : NodeId} {f : Forest} (hnd : f.flat.Nodup) :
    q ∈ seq κ here (before (node n nil) r f) ↔ q ∈ seq κ here f ∨ (q = n ∧ Ref κ r here f) := by
  induction f generalizing here with
  | nil => simp [before, seq, Ref]
  | node n' r' ih =>
    simp only [flat, List.nodup_cons] at hnd
    simp only [before]
    by_cases e : n' = r
    · subst e
      have hr : ¬ Ref κ n' here r' := fun h => hnd.1 (ref_mem h)
      simp only [if_true, node_append, nil_append, seq, Ref, hr, or_false, true_and]
      by_cases ek : here = κ <;> simp [ek, or_comm]
    · simp only [e, if_false, seq, Ref, false_and, false_or]
      by_cases ek : here = κ
      · subst ek
        simp only [if_true, List.mem_cons, or_assoc, ih hnd.2]
      · simp only [ek, if_false]
        exact ih hnd.2
  | item k x y m r' ih1 ih2 =>
    simp only [flat, List.nodup_cons, List.nodup_append, List.mem_cons, List.mem_append, not_or] at hnd
    obtain ⟨⟨hx1, hxy, hx2⟩, hm, ⟨hy, hr⟩, hd⟩ := hnd
    simp only [before]
    by_cases e : x = r
    · subst e
      have h1 : ¬ Ref κ x (.item y) m := fun h => hx1 (ref_mem h)
      have h2 : ¬ Ref κ x here r' := fun h => hx2 (ref_mem h)
      have h3 : ¬ y = x := fun h => hxy h.symm
      simp only [if_true, node_append, nil_append, seq, Ref, h1, h2, h3, false_and, or_false, true_and]
      by_cases ek : here = κ <;> simp [ek, or_comm]
    · rw [if_neg e]
      by_cases e' : y = r
      · subst e'
        have h1 : ¬ Ref κ y (.item y) m := fun h => hd _ (ref_mem h) y (.inl rfl) rfl
        have h2 : ¬ Ref κ y here r' := fun h => hy (ref_mem h)
        simp only [if_true, seq, seq_append, List.mem_append, Ref, e, h1, h2, false_and, or_false,
          false_or, true_and]
        by_cases ek : Cell.item y = κ <;> simp [ek] <;> grind
      · simp only [if_false, seq, List.mem_append, ih1 hm, ih2 hr, Ref, e, e', false_and, false_or, or_help]
  | list i x y m r' ih1 ih2 =>
    simp only [flat, List.nodup_cons, List.nodup_append, List.mem_cons, List.mem_append, not_or] at hnd
    obtain ⟨⟨hx1, hxy, hx2⟩, hm, ⟨hy, hr⟩, hd⟩ := hnd
    simp only [before]
    by_cases e : x = r
    · subst e
      have h1 : ¬ Ref κ x (.list i) m := fun h => hx1 (ref_mem h)
      have h2 : ¬ Ref κ x here r' := fun h => hx2 (ref_mem h)
      have h3 : ¬ y = x := fun h => hxy h.symm
      simp only [if_true, node_append, nil_append, seq, Ref, h1, h2, h3, false_and, or_false, true_and]
      by_cases ek : here = κ <;> simp [ek, or_comm]
    · rw [if_neg e]
      by_cases e' : y = r
      · subst e'
        have h1 : ¬ Ref κ y (.list i) m := fun h => hd _ (ref_mem h) y (.inl rfl) rfl
        have h2 : ¬ Ref κ y here r' := fun h => hy (ref_mem h)
        simp only [if_true, seq, seq_append, List.mem_append, Ref, e, h1, h2, false_and, or_false,
          false_or, true_and]
        by_cases ek : Cell.list i = κ <;> simp [ek] <;> grind
      · simp only [if_false, seq, List.mem_append, ih1 hm, ih2 hr, Ref, e, e', false_and, false_or, or_help]

@[simp] theorem marker_append (n : NodeId) (f g : Forest) : (f ++ g).Marker n ↔ f.Marker n ∨ g.Marker n := by
  induction f with
  | nil => simp [Marker]
  | node n r ih => simp [Marker, ih]
  | item k x y m r _ ih => simp [Marker, ih, or_assoc]
  | list i x y m r _ ih => simp [Marker, ih, or_assoc]

theorem marker_before {n r q : NodeId} {f : Forest} : (before (node n nil) r f).Marker q ↔ f.Marker q := by
  induction f with
  | nil => rfl
  | node n' r' ih => simp only [before]; split <;> simp [Marker, ih]
  | item k x y m r' ih1 ih2 =>
    simp only [before]
    split
    · simp [Marker]
    · split
      · simp [Marker]
      · simp [Marker, ih1, ih2]
  | list i x y m r' ih1 ih2 =>
    simp only [before]
    split
    · simp [Marker]
    · split
      · simp [Marker]
      · simp [Marker, ih1, ih2]

theorem level_before {l : Nat} {n r : NodeId} {f : Forest} (h : f.Level l) :
    (before (node n nil) r f).Level l := by
  induction f generalizing l with
  | nil => trivial
  | node n' r' ih =>
    simp only [before]
    split
    · exact h
    · exact ih h
  | item k x y m r' ih1 ih2 =>
    simp only [before]
    split
    · exact h
    · split
      · exact ⟨h.1, by simp [Level, h.2.1], h.2.2⟩
      · exact ⟨h.1, ih1 h.2.1, ih2 h.2.2⟩
  | list i x y m r' ih1 ih2 =>
    simp only [before]
    split
    · exact h
    · split
      · exact ⟨h.1, by simp [Level, h.2.1], h.2.2⟩
      · exact ⟨h.1, ih1 h.2.1, ih2 h.2.2⟩

end Forest
end Verif.Lists
