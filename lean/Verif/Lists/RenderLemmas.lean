import Verif.Lists.Render
import Verif.Lists.DynamicInv
import Verif.Dom.HistoryLemmas
/-! # Placing a list among its siblings -/
namespace Verif.Lists
open Verif.Dom

theorem dom_ext {d d' : Dom} (h : ∀ x, d.kids x = d'.kids x) : d = d' := by
  cases d; cases d'; congr 1; funext x; exact h x

/-- inserting a node takes it out of where it was -/
theorem insertBefore_removed {d : Dom} {f c n : NodeId} {ref : Option NodeId} (hn : n ∈ d.kids f)
    (hfc : f ≠ c) (hd : ∀ x, x ≠ f → n ∉ d.kids x) :
    ∃ d', d.removeChild f n = some d' ∧ d'.insertBefore c n ref = d.insertBefore c n ref ∧
      (∀ x, x ≠ f → d'.kids x = d.kids x) ∧ d'.kids f = (d.kids f).filter (· != n) := by
  obtain ⟨d', h1, h2, h3⟩ := removeChild_kids hn
  refine ⟨d', h1, ?_, h3, h2⟩
  have hdet : d'.detach n = d.detach n := by
    apply dom_ext
    intro x
    simp only [Dom.detach]
    by_cases hx : x = f
    · subst hx; rw [h2, List.filter_filter]; simp
    · rw [h3 x hx]
  have hkc : d'.kids c = d.kids c := h3 c (fun e => hfc e.symm)
  cases ref with
  | none => simp only [Dom.insertBefore, hdet]
  | some r =>
    simp only [Dom.insertBefore, hdet, hkc]
    split
    · rename_i hr
      split
      · rename_i hrn
        subst hrn
        exact absurd hr (hd c (fun e => hfc e.symm))
      · rfl
    · rfl

theorem sublist_pair_left {K1 K2 : List NodeId} {x n : NodeId} (h : x ∈ K1) :
    List.Sublist [x, n] (K1 ++ n :: K2) := by
  have h1 : List.Sublist [x] K1 := List.singleton_sublist.2 h
  exact h1.append (List.Sublist.cons_cons n (List.nil_sublist _))

theorem sublist_pair_right {K1 K2 : List NodeId} {x n : NodeId} (h : x ∈ K2) :
    List.Sublist [n, x] (K1 ++ n :: K2) := by
  refine List.Sublist.trans ?_ (List.sublist_append_right _ _)
  exact List.Sublist.cons_cons n (List.singleton_sublist.2 h)

/-- of two children in this order, the one before the head of a tail is in the front part -/
theorem mem_left_of_pair {K1 K2 : List NodeId} {a b : NodeId} (h : List.Sublist [a, b] (K1 ++ K2))
    (hn : (K1 ++ K2).Nodup) (hb : K2.head? = some b) : a ∈ K1 := by
  cases K2 with
  | nil => cases hb
  | cons y K2 =>
    simp only [List.head?_cons, Option.some.injEq] at hb
    subst hb
    apply Classical.byContradiction
    intro ha
    rw [List.nodup_append, List.nodup_cons] at hn
    have hsub := h.subset (a := a) (by simp)
    simp only [List.mem_append, List.mem_cons] at hsub
    -- split the pair
    rw [show K1 ++ y :: K2 = (K1 ++ [y]) ++ K2 by simp] at h
    obtain ⟨l1, l2, e, h1, h2⟩ := List.sublist_append_iff.1 h
    have hyK2 : y ∉ K2 := hn.2.1.1
    have hyK1 : y ∉ K1 := fun h' => hn.2.2 y h' y (by simp) rfl
    cases l1 with
    | nil =>
      simp only [List.nil_append] at e
      subst e
      exact hyK2 (h2.subset (by simp))
    | cons p l1 =>
      cases l1 with
      | nil =>
        simp only [List.cons_append, List.nil_append, List.cons.injEq] at e
        obtain ⟨rfl, rfl⟩ := e
        exact hyK2 (h2.subset (by simp))
      | cons q l1 =>
        simp only [List.cons_append, List.cons.injEq] at e
        obtain ⟨rfl, rfl, e⟩ := e
        have e' : l1 = [] ∧ l2 = [] := by
          have := e.symm
          rwa [List.append_eq_nil_iff] at this
        obtain ⟨rfl, rfl⟩ := e'
        -- [a, y] is a sublist of K1 ++ [y] with a not in K1
        obtain ⟨m1, m2, e2, h3, h4⟩ := List.sublist_append_iff.1 h1
        cases m1 with
        | nil =>
          simp only [List.nil_append] at e2
          subst e2
          have := h4.length_le
          simp at this
        | cons z m1 =>
          simp only [List.cons_append, List.cons.injEq] at e2
          exact ha (h3.subset (by rw [e2.1]; simp))

theorem mem_right_of_pair {K1 K2 : List NodeId} {a b : NodeId} (h : List.Sublist [a, b] (K1 ++ K2))
    (hn : (K1 ++ K2).Nodup) (ha : K2.head? = some a) : b ∈ K2 := by
  apply Classical.byContradiction
  intro hb
  rw [List.nodup_append] at hn
  obtain ⟨l1, l2, e, h1, h2⟩ := List.sublist_append_iff.1 h
  have haK2 : a ∈ K2 := List.mem_of_head? ha
  have haK1 : a ∉ K1 := fun h' => hn.2.2 a h' a haK2 rfl
  cases l1 with
  | nil =>
    simp only [List.nil_append] at e
    subst e
    exact hb (h2.subset (by simp))
  | cons p l1 =>
    simp only [List.cons_append, List.cons.injEq] at e
    exact haK1 (h1.subset (by rw [e.1]; simp))

theorem sourceBefore_iff (a b : List Nat) : SourceBefore a b ↔ Pos.cmp a.reverse b.reverse = .lt := by
  rw [cmp_eq_lex, lexCmp_lt_iff, List.reverse_reverse, List.reverse_reverse]

theorem sourceBefore_trans {a b c : List Nat} (h1 : SourceBefore a b) (h2 : SourceBefore b c) :
    SourceBefore a c := by
  rw [sourceBefore_iff] at *
  exact cmp_lt_trans h1 h2

theorem sourceBefore_total (a b : List Nat) : SourceBefore a b ∨ a = b ∨ SourceBefore b a := by
  rw [sourceBefore_iff, sourceBefore_iff]
  cases h : Pos.cmp a.reverse b.reverse with
  | lt => exact Or.inl rfl
  | eq => exact Or.inr (Or.inl (List.reverse_inj.1 (cmp_eq' h)))
  | gt => exact Or.inr (Or.inr (cmp_gt_iff.1 h))

theorem sourceBefore_irrefl {a b : List Nat} (h1 : SourceBefore a b) (h2 : SourceBefore b a) : False := by
  have := sourceBefore_trans h1 h2
  rw [sourceBefore_iff, cmp_self] at this
  cases this

end Verif.Lists
