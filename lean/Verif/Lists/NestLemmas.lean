import Verif.Lists.ForestLemmas
import Verif.Lists.NestSystem
import Verif.Lists.DynamicInv
/-! # The calls of a list, wherever it is -/
namespace Verif.Lists
open Verif.Dom

/-- nothing else changes -/
def Same (d d' : Dom) (c : NodeId) : Prop := ∀ x, x ≠ c → d'.kids x = d.kids x

theorem Same.trans {d1 d2 d3 : Dom} {c : NodeId} (h1 : Same d1 d2 c) (h2 : Same d2 d3 c) : Same d1 d3 c :=
  fun x hx => (h2 x hx).trans (h1 x hx)

theorem same_of_frame {d d' : Dom} {c : NodeId} {b : List NodeId} (hp : Proper d) (h : Frame d d' c b)
    (hb : ∀ n ∈ b, n ∈ d.kids c) : Same d d' c := by
  intro x hx
  rw [h x hx, List.filter_eq_self]
  intro y hy
  simp only [Bool.not_eq_eq_eq_not, Bool.not_true, List.contains_eq_mem, decide_eq_false_iff_not]
  intro hyb
  exact hx (hp.2 x c y hy (hb y hyb))

theorem same_of_fresh {d d' : Dom} {c n : NodeId} (hn : Fresh d n)
    (h : ∀ x, x ≠ c → d'.kids x = (d.kids x).filter (· != n)) : Same d d' c := by
  intro x hx
  rw [h x hx, filter_ne_self (hn x)]

theorem notMem_of_nodup {P Q : List NodeId} {r : NodeId} (h : (P ++ r :: Q).Nodup) : r ∉ P := by
  rw [List.nodup_append] at h
  exact fun hr => h.2.2 _ hr _ (by simp) rfl

/-- two new comments before a node -/
theorem tok_insert {d : Dom} {c r x y : NodeId} {P Q : List NodeId} (hp : Proper d)
    (hk : d.kids c = P ++ r :: Q) (hx : Fresh d x) (hy : Fresh d y) (hne : x ≠ y) :
    ∃ d1 d2, d.insertBefore c y (some r) = some d1 ∧ d1.insertBefore c x (some y) = some d2 ∧
      d2.kids c = P ++ x :: y :: r :: Q ∧ Same d d2 c ∧ Proper d2 := by
  have hnd := hp.1 c
  obtain ⟨d1, e1, k1, f1⟩ := insert_new hk (notMem_of_nodup (hk ▸ hnd)) (hy c)
  have hx1 : ∀ z, x ∉ d1.kids z := by
    intro z
    by_cases hz : z = c
    · subst hz
      rw [k1]
      have := hx z
      rw [hk] at this
      simp only [List.mem_append, List.mem_cons, not_or] at this ⊢
      exact ⟨this.1, hne, this.2⟩
    · rw [f1 z hz]; exact fun h => hx z (List.mem_filter.1 h).1
  have hs : y ∉ P := fun h => hy c (by rw [hk]; simp [h])
  obtain ⟨d2, e2, k2, f2⟩ := insert_new k1 hs (hx1 c)
  exact ⟨d1, d2, e1, e2, k2, (same_of_fresh hy f1).trans (same_of_fresh hx1 f2),
    proper_insert (proper_insert hp e1) e2⟩

/-- the two markers of an item taken away -/
theorem tok_remove {d : Dom} {c x y : NodeId} {P M Q : List NodeId} (hp : Proper d)
    (hk : d.kids c = P ++ x :: (M ++ y :: Q)) :
    ∃ d', removeMarkers d c ⟨x, y⟩ = some d' ∧ d'.kids c = P ++ (M ++ Q) ∧ Same d d' c ∧ Proper d' := by
  have hnd := hp.1 c
  obtain ⟨d1, e1, k1, f1⟩ := removeChild_kids (d := d) (c := c) (n := x) (by rw [hk]; simp)
  have hnd' := hnd
  rw [hk, List.nodup_append, List.nodup_cons] at hnd'
  have k1' : d1.kids c = (P ++ M) ++ y :: Q := by
    rw [k1, hk, List.filter_append, List.filter_cons, filter_ne_self (notMem_of_nodup (hk ▸ hnd)),
      filter_ne_self hnd'.2.1.1]
    simp
  have hp1 := proper_remove hp e1
  obtain ⟨d2, e2, k2, f2⟩ := removeChild_kids (d := d1) (c := c) (n := y) (by rw [k1']; simp)
  have hnd1 := hp1.1 c
  have hy : y ∉ Q := by
    rw [k1', List.nodup_append, List.nodup_cons] at hnd1; exact hnd1.2.1.1
  refine ⟨d2, ?_, ?_, fun z hz => (f2 z hz).trans (f1 z hz), proper_remove hp1 e2⟩
  · simp only [removeMarkers, e1, bind, Option.bind]; exact e2
  · rw [k2, k1', List.filter_append, List.filter_cons, filter_ne_self (notMem_of_nodup (k1' ▸ hp1.1 c)),
      filter_ne_self hy]
    simp

theorem getLast_block (x y : NodeId) (M : List NodeId) : (x :: (M ++ [y])).getLast? = some y := by
  rw [← List.cons_append, List.getLast?_append]; rfl

/-- an item moved to the right -/
theorem tok_right {d : Dom} {c x y r : NodeId} {P M N Q : List NodeId} (hp : Proper d)
    (hk : d.kids c = P ++ x :: (M ++ y :: (N ++ r :: Q))) :
    ∃ d', moveNodes d c c x y (some r) = some d' ∧ d'.kids c = P ++ (N ++ x :: (M ++ y :: r :: Q)) ∧
      Same d d' c ∧ Proper d' := by
  have hk' : d.kids c = P ++ (x :: (M ++ [y])) ++ N ++ [] ++ r :: Q := by rw [hk]; simp
  obtain ⟨d', h1, h2, h3⟩ := moveLoop_right (x :: (M ++ [y])) ((d.kids c).length + 1) d _ _ _ _ _ _ rfl hk' (hp.1 c)
    (stop := y) (getLast_block x y M) (by rw [hk']; simp only [List.length_append]; omega)
  refine ⟨d', h1, ?_, same_of_frame hp h3 ?_, proper_move _ hp h1⟩
  · rw [h2]; simp
  · intro n hn; rw [hk']; simp only [List.mem_append, List.mem_cons]; simp only [List.mem_cons, List.mem_append] at hn; grind

/-- an item moved to the left -/
theorem tok_left {d : Dom} {c x y r : NodeId} {P M N Q : List NodeId} (hp : Proper d)
    (hk : d.kids c = P ++ r :: (N ++ x :: (M ++ y :: Q))) :
    ∃ d', moveNodes d c c x y (some r) = some d' ∧ d'.kids c = P ++ x :: (M ++ y :: r :: (N ++ Q)) ∧
      Same d d' c ∧ Proper d' := by
  have hk' : d.kids c = P ++ [] ++ r :: (N ++ (x :: (M ++ [y])) ++ Q) := by rw [hk]; simp
  obtain ⟨d', h1, h2, h3⟩ := moveLoop_left (x :: (M ++ [y])) ((d.kids c).length + 1) d _ _ _ _ _ _ rfl hk' (hp.1 c)
    (stop := y) (getLast_block x y M) (by rw [hk']; simp only [List.length_append, List.length_cons]; omega)
  refine ⟨d', h1, ?_, same_of_frame hp h3 ?_, proper_move _ hp h1⟩
  · rw [h2]; simp
  · intro n hn; rw [hk']; simp only [List.mem_append, List.mem_cons]; simp only [List.mem_cons, List.mem_append] at hn; grind

/-! ## the map of a list -/

theorem get_entries {L : DynList} {f : Forest} (hperm : L.items.Perm f.entries) (hnd : f.keys.Nodup) {k : Key}
    {x : Stored} (h : (k, x) ∈ f.entries) : L.get k = some x := by
  have hk : (L.items.map (·.1)).Nodup := ((hperm.map _).nodup_iff).2 hnd
  have hm : (k, x) ∈ L.items := hperm.mem_iff.2 h
  unfold DynList.get
  generalize L.items = l at hk hm
  induction l with
  | nil => cases hm
  | cons e es ih =>
    simp only [List.map_cons, List.nodup_cons] at hk
    rw [List.find?_cons]
    by_cases he : e.1 = k
    · simp only [he, BEq.rfl, Option.map_some]
      simp only [List.mem_cons] at hm
      rcases hm with hm | hm
      · rw [← hm]
      · exact absurd (List.mem_map_of_mem (f := (·.1)) hm) (by rw [← he]; exact hk.1)
    · have : (e.1 == k) = false := by simpa using he
      simp only [this]
      simp only [List.mem_cons] at hm
      rcases hm with hm | hm
      · exact absurd (by rw [← hm]) he
      · exact ih hk.2 hm

theorem get_absent {L : DynList} {f : Forest} (hperm : L.items.Perm f.entries) {k : Key} (h : k ∉ f.keys) :
    L.get k = none := by
  unfold DynList.get
  simp only [Option.map_eq_none_iff, List.find?_eq_none]
  intro e he hek
  simp only [beq_iff_eq] at hek
  exact h (by
    rw [← hek]
    exact List.mem_map_of_mem (f := (·.1)) (hperm.mem_iff.1 he))

end Verif.Lists
