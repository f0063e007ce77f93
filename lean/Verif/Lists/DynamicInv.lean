import Verif.Lists.DynamicSystem
import Verif.Lists.DynamicLemmas
/-! # The children of the list's container through every operation -/
namespace Verif.Lists
open Verif.Dom

/-! ## every node has one place -/

theorem mem_insertBeforeIn {n r y : NodeId} {l : List NodeId} :
    y ∈ insertBeforeIn n r l ↔ y = n ∨ y ∈ l := by
  induction l with
  | nil => simp [insertBeforeIn]
  | cons x xs ih =>
    simp only [insertBeforeIn]
    split
    · simp
    · simp [ih]; grind

theorem nodup_insertBeforeIn {n r : NodeId} {l : List NodeId} (hn : n ∉ l) (h : l.Nodup) :
    (insertBeforeIn n r l).Nodup := by
  induction l with
  | nil => simp [insertBeforeIn]
  | cons x xs ih =>
    simp only [List.mem_cons, not_or] at hn
    rw [List.nodup_cons] at h
    simp only [insertBeforeIn]
    split
    · rw [List.nodup_cons, List.nodup_cons]
      refine ⟨by simp [hn], h⟩
    · rw [List.nodup_cons, mem_insertBeforeIn]
      refine ⟨?_, ih hn.2 h.2⟩
      rintro (h1 | h1)
      · exact hn.1 h1.symm
      · exact h.1 h1

theorem proper_insert {d d' : Dom} {c n : NodeId} {r : Option NodeId} (hp : Proper d)
    (h : d.insertBefore c n r = some d') : Proper d' := by
  have key : ∀ (f : List NodeId → List NodeId), (∀ l y, y ∈ f l ↔ y = n ∨ y ∈ l) →
      (∀ l, n ∉ l → l.Nodup → (f l).Nodup) →
      Proper ⟨fun x => if x = c then f ((d.detach n).kids x) else (d.detach n).kids x⟩ := by
    intro f hf hf'
    refine ⟨?_, ?_⟩
    · intro x
      simp only [Dom.detach]
      split
      · refine hf' _ (by simp) ((hp.1 x).filter _)
      · exact (hp.1 x).filter _
    · intro x x' y hx hx'
      simp only [Dom.detach] at hx hx'
      by_cases h1 : x = c
      · by_cases h2 : x' = c
        · rw [h1, h2]
        · rw [if_pos h1, hf] at hx
          rw [if_neg h2] at hx'
          simp only [List.mem_filter, bne_iff_ne, ne_eq] at hx hx'
          rcases hx with hx | hx
          · exact absurd hx hx'.2
          · exact hp.2 _ _ _ hx.1 hx'.1
      · by_cases h2 : x' = c
        · rw [if_neg h1] at hx
          rw [if_pos h2, hf] at hx'
          simp only [List.mem_filter, bne_iff_ne, ne_eq] at hx hx'
          rcases hx' with hx' | hx'
          · exact absurd hx' hx.2
          · exact hp.2 _ _ _ hx.1 hx'.1
        · rw [if_neg h1] at hx
          rw [if_neg h2] at hx'
          simp only [List.mem_filter, bne_iff_ne, ne_eq] at hx hx'
          exact hp.2 _ _ _ hx.1 hx'.1
  cases r with
  | none =>
    simp only [Dom.insertBefore, Option.some.injEq] at h
    subst h
    refine key (fun l => l ++ [n]) (by intro l y; simp; grind) ?_
    intro l hn hl
    rw [List.nodup_append]
    refine ⟨hl, by simp, ?_⟩
    intro a ha b hb e
    simp only [List.mem_singleton] at hb
    exact hn (by rw [← hb, ← e]; exact ha)
  | some r =>
    simp only [Dom.insertBefore] at h
    split at h
    · split at h
      · cases h; exact hp
      · simp only [Option.some.injEq] at h
        subst h
        exact key (insertBeforeIn n r) (fun l y => mem_insertBeforeIn) (fun l => nodup_insertBeforeIn)
    · cases h

theorem proper_sub {d d' : Dom} (hp : Proper d) (h : ∀ x, (d'.kids x).Sublist (d.kids x)) :
    Proper d' :=
  ⟨fun c => (hp.1 c).sublist (h c),
   fun c c' n h1 h2 => hp.2 c c' n ((h c).subset h1) ((h c').subset h2)⟩

theorem removeChild_kids {d : Dom} {c n : NodeId} (h : n ∈ d.kids c) :
    ∃ d', d.removeChild c n = some d' ∧ d'.kids c = (d.kids c).filter (· != n) ∧
      ∀ x, x ≠ c → d'.kids x = d.kids x := by
  refine ⟨⟨fun x => if x = c then (d.kids x).filter (· != n) else d.kids x⟩, ?_, ?_, ?_⟩
  · simp only [Dom.removeChild, if_pos h]
  · simp
  · intro x hx; simp [hx]

theorem proper_remove {d d' : Dom} {c n : NodeId} (hp : Proper d)
    (h : d.removeChild c n = some d') : Proper d' := by
  simp only [Dom.removeChild] at h
  split at h
  · simp only [Option.some.injEq] at h
    subst h
    refine proper_sub hp ?_
    intro x
    simp only
    split
    · exact List.filter_sublist
    · exact List.Sublist.refl _
  · cases h

theorem proper_move {src dst stop : NodeId} {r : Option NodeId} (fuel : Nat) :
    ∀ {d d' : Dom} {node : NodeId}, Proper d → moveLoop src dst stop r fuel d node = some d' →
    Proper d' := by
  induction fuel with
  | zero => intro d d' node hp h; simp [moveLoop] at h
  | succ fuel ih =>
    intro d d' node hp h
    simp only [moveLoop, bind, Option.bind, pure] at h
    split at h
    · cases h
    · rename_i d1 h1
      have hp1 := proper_insert hp h1
      split at h
      · cases h; exact hp1
      · split at h
        · cases h
        · exact ih hp1 h

/-! ## the list as a sequence of segments -/

/-- the nodes of segments -/
abbrev flat (segs : List Seg) : List NodeId := segs.flatMap Seg.nodes
/-- the items of segments -/
abbrev itemsOf (segs : List Seg) : List Item := segs.filterMap Seg.item?

def Geo (d : Dom) (c ls le : NodeId) (pre : List NodeId) (segs : List Seg) (post : List NodeId) : Prop :=
  d.kids c = pre ++ ls :: (flat segs ++ le :: post)

/-- other child lists that are empty stay so -/
def Empties (d d' : Dom) (c : NodeId) : Prop := ∀ x, x ≠ c → d.kids x = [] → d'.kids x = []

theorem Empties.trans {d1 d2 d3 : Dom} {c : NodeId} (h1 : Empties d1 d2 c) (h2 : Empties d2 d3 c) :
    Empties d1 d3 c := fun x hx h => h2 x hx (h1 x hx h)

theorem empties_of_filter {d d' : Dom} {c n : NodeId}
    (h : ∀ x, x ≠ c → d'.kids x = (d.kids x).filter (· != n)) : Empties d d' c := by
  intro x hx he; rw [h x hx, he]; rfl

theorem empties_of_same {d d' : Dom} {c : NodeId}
    (h : ∀ x, x ≠ c → d'.kids x = d.kids x) : Empties d d' c := by
  intro x hx he; rw [h x hx, he]

theorem empties_of_frame {d d' : Dom} {c : NodeId} {b : List NodeId} (h : Frame d d' c b) :
    Empties d d' c := by
  intro x hx he; rw [h x hx, he]; rfl

theorem flat_ne_nil {segs : List Seg} (h : segs ≠ []) : ∃ n ns, flat segs = n :: ns := by
  cases segs with
  | nil => exact absurd rfl h
  | cons g gs =>
    cases g with
    | item x => exact ⟨x.start, x.content ++ [x.stop] ++ flat gs, by simp [flat, Seg.nodes, Item.nodes]⟩
    | orphan n => exact ⟨n, flat gs, by simp [flat, Seg.nodes]⟩

/-- a new item before a place -/
theorem geo_insert {d : Dom} {c ls le : NodeId} {pre post : List NodeId} {S1 S2 : List Seg}
    {r start stop : NodeId} (k : Key)
    (hg : Geo d c ls le pre (S1 ++ S2) post) (hp : Proper d)
    (hr : (flat S2 ++ le :: post).head? = some r)
    (h1 : Fresh d start) (h2 : Fresh d stop) (hne : start ≠ stop) :
    ∃ d1 d2, d.insertBefore c stop (some r) = some d1 ∧ d1.insertBefore c start (some stop) = some d2 ∧
      Geo d2 c ls le pre (S1 ++ .item ⟨k, start, stop, []⟩ :: S2) post ∧ Empties d d2 c ∧ Proper d2 := by
  obtain ⟨Q, hQ⟩ : ∃ Q, flat S2 ++ le :: post = r :: Q := by
    cases h : flat S2 ++ le :: post with
    | nil => rw [h] at hr; cases hr
    | cons a b => rw [h] at hr; simp at hr; exact ⟨b, by rw [hr]⟩
  have hk : d.kids c = (pre ++ ls :: flat S1) ++ r :: Q := by
    rw [← hQ, hg]; simp [flat]
  have hnd := hp.1 c
  have hrP : r ∉ pre ++ ls :: flat S1 := by
    intro h; rw [hk, List.nodup_append] at hnd; exact hnd.2.2 r h r (by simp) rfl
  obtain ⟨d1, e1, k1, f1⟩ := insert_new hk hrP (h2 c)
  have hs : stop ∉ pre ++ ls :: flat S1 := by
    intro h; exact h2 c (by rw [hk]; exact List.mem_append_left _ h)
  obtain ⟨d2, e2, k2, f2⟩ := insert_new k1 hs (n := start) (by
    rw [k1]
    intro h
    have := h1 c
    rw [hk] at this
    simp only [List.mem_append, List.mem_cons] at h this
    grind)
  refine ⟨d1, d2, e1, e2, ?_, (empties_of_filter f1).trans (empties_of_filter f2),
    proper_insert (proper_insert hp e1) e2⟩
  unfold Geo
  rw [k2, ← hQ]
  simp [flat, Seg.nodes, Item.nodes]

/-- the markers of an item removed -/
theorem geo_remove {d : Dom} {c ls le : NodeId} {pre post : List NodeId} {S1 S2 : List Seg} {x : Item}
    (hg : Geo d c ls le pre (S1 ++ .item x :: S2) post) (hp : Proper d) :
    ∃ d', removeMarkers d c ⟨x.start, x.stop⟩ = some d' ∧
      Geo d' c ls le pre (S1 ++ x.content.map Seg.orphan ++ S2) post ∧ Empties d d' c ∧ Proper d' := by
  have hk : d.kids c = (pre ++ ls :: flat S1) ++ x.start :: (x.content ++ x.stop :: (flat S2 ++ le :: post)) := by
    rw [hg]; simp [flat, Seg.nodes, Item.nodes]
  have hnd := hp.1 c
  obtain ⟨d1, e1, k1, f1⟩ := removeChild_kids (d := d) (c := c) (n := x.start) (by rw [hk]; simp)
  have hnd' := hnd
  rw [hk, List.nodup_append, List.nodup_cons] at hnd'
  have k1' : d1.kids c = (pre ++ ls :: flat S1) ++ (x.content ++ x.stop :: (flat S2 ++ le :: post)) := by
    rw [k1, hk, List.filter_append, List.filter_cons, filter_ne_self (fun h => hnd'.2.2 _ h _ (by simp) rfl),
      filter_ne_self hnd'.2.1.1]
    simp
  have hp1 := proper_remove hp e1
  obtain ⟨d2, e2, k2, f2⟩ := removeChild_kids (d := d1) (c := c) (n := x.stop) (by rw [k1']; simp)
  have k1'' : d1.kids c = ((pre ++ ls :: flat S1) ++ x.content) ++ x.stop :: (flat S2 ++ le :: post) := by
    rw [k1']; simp
  have hnd1 := hp1.1 c
  rw [k1'', List.nodup_append, List.nodup_cons] at hnd1
  have k2' : d2.kids c = ((pre ++ ls :: flat S1) ++ x.content) ++ (flat S2 ++ le :: post) := by
    rw [k2, k1'', List.filter_append, List.filter_cons, filter_ne_self (fun h => hnd1.2.2 _ h _ (by simp) rfl),
      filter_ne_self hnd1.2.1.1]
    simp
  refine ⟨d2, ?_, ?_, (empties_of_same f1).trans (empties_of_same f2), proper_remove hp1 e2⟩
  · simp only [removeMarkers, e1, bind, Option.bind]; exact e2
  · unfold Geo
    rw [k2']
    simp only [flat, List.flatMap_append, List.append_assoc, List.cons_append]
    congr 2
    congr 1
    rw [← List.append_assoc, ← List.append_assoc]
    congr 1
    congr 1
    induction x.content with
    | nil => rfl
    | cons a as ih => simp only [List.map_cons, List.flatMap_cons, Seg.nodes, ← ih]; rfl

theorem nodes_last (x : Item) : x.nodes.getLast? = some x.stop := by
  unfold Item.nodes
  rw [← List.cons_append]
  simp only [List.getLast?_append, List.getLast?_singleton, Option.some_or]

/-- an item moved to a later place -/
theorem geo_right {d : Dom} {c ls le : NodeId} {pre post : List NodeId} {S1 S2 S3 : List Seg} {x : Item}
    {r : NodeId}
    (hg : Geo d c ls le pre (S1 ++ .item x :: (S2 ++ S3)) post) (hp : Proper d)
    (hr : (flat S3 ++ le :: post).head? = some r) :
    ∃ d', moveNodes d c c x.start x.stop (some r) = some d' ∧
      Geo d' c ls le pre (S1 ++ S2 ++ .item x :: S3) post ∧ Empties d d' c ∧ Proper d' := by
  obtain ⟨Q, hQ⟩ : ∃ Q, flat S3 ++ le :: post = r :: Q := by
    cases h : flat S3 ++ le :: post with
    | nil => rw [h] at hr; cases hr
    | cons a b => rw [h] at hr; simp at hr; exact ⟨b, by rw [hr]⟩
  have hk : d.kids c = (pre ++ ls :: flat S1) ++ x.nodes ++ flat S2 ++ [] ++ r :: Q := by
    rw [← hQ, hg]; simp [flat, Seg.nodes]
  obtain ⟨d', h1, h2, h3⟩ := moveLoop_right x.nodes ((d.kids c).length + 1) d _ _ _ _ _ _ rfl hk (hp.1 c)
    (nodes_last x) (by rw [hk]; simp only [List.length_append]; omega)
  refine ⟨d', h1, ?_, empties_of_frame h3, proper_move _ hp h1⟩
  unfold Geo
  rw [h2, ← hQ]
  simp [flat, Seg.nodes]

/-- an item moved to an earlier place -/
theorem geo_left {d : Dom} {c ls le : NodeId} {pre post : List NodeId} {S1 S2 S3 : List Seg} {x : Item}
    {r : NodeId}
    (hg : Geo d c ls le pre (S1 ++ S2 ++ .item x :: S3) post) (hp : Proper d)
    (hr : (flat S2).head? = some r) :
    ∃ d', moveNodes d c c x.start x.stop (some r) = some d' ∧
      Geo d' c ls le pre (S1 ++ .item x :: (S2 ++ S3)) post ∧ Empties d d' c ∧ Proper d' := by
  obtain ⟨Q, hQ⟩ : ∃ Q, flat S2 = r :: Q := by
    cases h : flat S2 with
    | nil => rw [h] at hr; cases hr
    | cons a b => rw [h] at hr; simp at hr; exact ⟨b, by rw [hr]⟩
  have hk : d.kids c = (pre ++ ls :: flat S1) ++ [] ++ r :: (Q ++ x.nodes ++ (flat S3 ++ le :: post)) := by
    have : r :: (Q ++ x.nodes ++ (flat S3 ++ le :: post)) = flat S2 ++ (x.nodes ++ (flat S3 ++ le :: post)) := by
      rw [hQ]; simp
    rw [this, hg]; simp [flat, Seg.nodes]
  obtain ⟨d', h1, h2, h3⟩ := moveLoop_left x.nodes ((d.kids c).length + 1) d _ _ _ _ _ _ rfl hk (hp.1 c)
    (nodes_last x) (by rw [hk]; simp only [List.length_append, List.length_cons]; omega)
  refine ⟨d', h1, ?_, empties_of_frame h3, proper_move _ hp h1⟩
  unfold Geo
  have : r :: (Q ++ (flat S3 ++ le :: post)) = flat S2 ++ (flat S3 ++ le :: post) := by rw [hQ]; simp
  rw [h2, this]
  simp [flat, Seg.nodes]

end Verif.Lists
