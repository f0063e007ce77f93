import Verif.Lists.DynamicInv
/-! # Every operation of DynamicList follows the plain list -/
namespace Verif.Lists
open Verif.Dom

def Item.stored (x : Item) : Stored := ⟨x.start, x.stop⟩
def Item.entry (x : Item) : Key × Stored := (x.key, x.stored)

structure Good (s : Sys) (l : List Item) (left : List NodeId) : Prop where
  proper : Proper s.dom
  geo : ∃ pre segs post, Geo s.dom s.list.container s.list.listStart s.list.listEnd pre segs post ∧
    itemsOf segs = l ∧ (s.list.container = s.list.frag → pre = [] ∧ post = []) ∧
    ∀ n, Seg.orphan n ∈ segs ↔ n ∈ left
  perm : s.list.items.Perm (l.map Item.entry)
  keys : (l.map Item.key).Nodup
  empty : s.list.container ≠ s.list.frag → s.dom.kids s.list.frag = []

/-! ## plain lists -/

theorem has_split {l : List Item} {k : Key} (h : Has l k) (hn : (l.map Item.key).Nodup) :
    ∃ I1 x I2, l = I1 ++ x :: I2 ∧ x.key = k ∧ (∀ y ∈ I1, y.key ≠ k) ∧ (∀ y ∈ I2, y.key ≠ k) := by
  obtain ⟨x, hx, hk⟩ := h
  obtain ⟨I1, I2, rfl⟩ := List.append_of_mem hx
  refine ⟨I1, x, I2, rfl, hk, ?_, ?_⟩
  · intro y hy e
    simp only [List.map_append, List.map_cons, List.nodup_append] at hn
    exact hn.2.2 y.key (List.mem_map_of_mem hy) x.key (by simp) (by rw [e, hk])
  · intro y hy e
    simp only [List.map_append, List.map_cons, List.nodup_append, List.nodup_cons] at hn
    exact hn.2.1.1 (by rw [hk, ← e]; exact List.mem_map_of_mem hy)

theorem find_split {I1 I2 : List Item} {x : Item} {k : Key} (hk : x.key = k)
    (h1 : ∀ y ∈ I1, y.key ≠ k) : find k (I1 ++ x :: I2) = some x := by
  unfold find
  rw [List.find?_append, List.find?_eq_none.2 (by intro y hy; simpa using h1 y hy)]
  simp [hk]

theorem find_none {l : List Item} {k : Key} : find k l = none ↔ ¬ Has l k := by
  unfold find Has
  rw [List.find?_eq_none]
  simp

theorem without_eq {l : List Item} {k : Key} (h : ∀ y ∈ l, y.key ≠ k) : without k l = l := by
  unfold without
  rw [List.filter_eq_self]
  intro y hy; simpa using h y hy

theorem without_split {I1 I2 : List Item} {x : Item} {k : Key} (hk : x.key = k)
    (h1 : ∀ y ∈ I1, y.key ≠ k) (h2 : ∀ y ∈ I2, y.key ≠ k) :
    without k (I1 ++ x :: I2) = I1 ++ I2 := by
  have e1 := without_eq h1
  have e2 := without_eq h2
  unfold without at *
  rw [List.filter_append, List.filter_cons, e1, e2]
  simp [hk]

theorem placeBefore_split {I1 I2 : List Item} {x y : Item} {b : Key} (hk : y.key = b)
    (h1 : ∀ z ∈ I1, z.key ≠ b) : placeBefore x b (I1 ++ y :: I2) = I1 ++ x :: y :: I2 := by
  induction I1 with
  | nil => simp [placeBefore, hk]
  | cons z zs ih =>
    simp only [List.cons_append, placeBefore]
    rw [if_neg (h1 z (by simp)), ih (fun w hw => h1 w (by simp [hw]))]

/-- two items of a list, in one order or the other -/
theorem two_split {l : List Item} {a b : Key} (ha : Has l a) (hb : Has l b) (hab : a ≠ b)
    (hn : (l.map Item.key).Nodup) :
    ∃ x y I1 I2 I3, x.key = a ∧ y.key = b ∧
      (∀ z ∈ I1 ++ I2 ++ I3, z.key ≠ a ∧ z.key ≠ b) ∧
      (l = I1 ++ x :: (I2 ++ y :: I3) ∨ l = I1 ++ y :: (I2 ++ x :: I3)) := by
  obtain ⟨A, x, B, rfl, hx, hA, hB⟩ := has_split ha hn
  obtain ⟨y, hy, hyb⟩ := hb
  have hne : y ≠ x := by intro e; subst e; exact hab (hx.symm.trans hyb)
  simp only [List.mem_append, List.mem_cons] at hy
  rcases hy with hy | rfl | hy
  · obtain ⟨I1, I2, rfl⟩ := List.append_of_mem hy
    refine ⟨x, y, I1, I2, B, hx, hyb, ?_, Or.inr (by simp)⟩
    obtain ⟨J1, y', J2, e, hy', hJ1, hJ2⟩ := has_split (k := b) ⟨y, by simp, hyb⟩ hn
    simp only [List.map_append, List.map_cons, List.nodup_append, List.nodup_cons, List.mem_map,
      List.mem_append, List.mem_cons] at hn
    intro z hz
    simp only [List.mem_append] at hz
    refine ⟨?_, ?_⟩
    · rcases hz with (hz | hz) | hz
      · exact hA z (by simp [hz])
      · exact hA z (by simp [hz])
      · exact hB z hz
    · intro e
      rcases hz with (hz | hz) | hz <;> grind
  · exact absurd rfl hne
  · obtain ⟨I2, I3, rfl⟩ := List.append_of_mem hy
    refine ⟨x, y, A, I2, I3, hx, hyb, ?_, Or.inl rfl⟩
    simp only [List.map_append, List.map_cons, List.nodup_append, List.nodup_cons, List.mem_map,
      List.mem_append, List.mem_cons] at hn
    intro z hz
    simp only [List.mem_append] at hz
    refine ⟨?_, ?_⟩
    · rcases hz with (hz | hz) | hz
      · exact hA z hz
      · exact hB z (by simp [hz])
      · exact hB z (by simp [hz])
    · intro e
      rcases hz with (hz | hz) | hz <;> grind

/-! ## segments -/

theorem segs_split {segs : List Seg} {I1 I2 : List Item} {x : Item}
    (h : itemsOf segs = I1 ++ x :: I2) :
    ∃ S1 S2, segs = S1 ++ Seg.item x :: S2 ∧ itemsOf S1 = I1 ∧ itemsOf S2 = I2 := by
  unfold itemsOf at h
  rw [List.filterMap_eq_append_iff] at h
  obtain ⟨T1, T2, rfl, h1, h2⟩ := h
  rw [List.filterMap_eq_cons_iff] at h2
  obtain ⟨U1, g, U2, rfl, h3, h4, h5⟩ := h2
  cases g with
  | orphan n => cases h4
  | item y =>
    cases h4
    refine ⟨T1 ++ U1, U2, by simp, ?_, h5⟩
    unfold itemsOf
    rw [List.filterMap_append, h1]
    have : List.filterMap Seg.item? U1 = [] := by
      rw [List.filterMap_eq_nil_iff]; exact h3
    rw [this, List.append_nil]

theorem itemsOf_orphans (ns : List NodeId) : itemsOf (ns.map Seg.orphan) = [] := by
  unfold itemsOf
  rw [List.filterMap_eq_nil_iff]
  intro g hg
  obtain ⟨n, _, rfl⟩ := List.mem_map.1 hg
  rfl

theorem itemsOf_append (S T : List Seg) : itemsOf (S ++ T) = itemsOf S ++ itemsOf T :=
  List.filterMap_append

theorem itemsOf_item (x : Item) (T : List Seg) : itemsOf (.item x :: T) = x :: itemsOf T := rfl

/-! ## the map -/

theorem find_entry {m : List (Key × Stored)} (hn : (m.map (·.1)).Nodup) {k : Key} {x : Stored}
    (h : (k, x) ∈ m) : m.find? (fun e => e.1 == k) = some (k, x) := by
  induction m with
  | nil => cases h
  | cons e es ih =>
    rw [List.map_cons, List.nodup_cons] at hn
    rw [List.find?_cons]
    rcases List.mem_cons.1 h with h | h
    · subst h; simp
    · have : e.1 ≠ k := by
        intro he; exact hn.1 (by rw [he]; exact List.mem_map_of_mem (f := (·.1)) h)
      rw [show (e.1 == k) = false by simpa using this]
      exact ih hn.2 h

theorem map_keys {L : DynList} {l : List Item} (hp : L.items.Perm (l.map Item.entry))
    (hn : (l.map Item.key).Nodup) : (L.items.map (·.1)).Nodup := by
  refine ((hp.map (·.1)).nodup_iff).2 ?_
  rw [List.map_map]
  exact hn

theorem get_of_mem {L : DynList} {l : List Item} (hp : L.items.Perm (l.map Item.entry))
    (hn : (l.map Item.key).Nodup) {x : Item} (hx : x ∈ l) : L.get x.key = some x.stored := by
  unfold DynList.get
  rw [find_entry (map_keys hp hn) (x := x.stored) (hp.mem_iff.2 (List.mem_map_of_mem (f := Item.entry) hx))]
  rfl

theorem get_none {L : DynList} {l : List Item} (hp : L.items.Perm (l.map Item.entry))
    {k : Key} (h : ¬ Has l k) : L.get k = none := by
  unfold DynList.get
  rw [List.find?_eq_none.2]
  · rfl
  · intro e he
    obtain ⟨x, hx, rfl⟩ := List.mem_map.1 (hp.mem_iff.1 he)
    simp only [Item.entry, beq_iff_eq]
    exact fun e => h ⟨x, hx, e⟩

/-- the answer of `contains_key` -/
theorem get_isSome {L : DynList} {l : List Item} (hp : L.items.Perm (l.map Item.entry))
    (hn : (l.map Item.key).Nodup) (k : Key) : (L.get k).isSome = (find k l).isSome := by
  by_cases h : Has l k
  · obtain ⟨I1, x, I2, e, hx, h1, _⟩ := has_split h hn
    have := get_of_mem hp hn (x := x) (by rw [e]; simp)
    rw [hx] at this
    rw [this, e, find_split hx h1]; rfl
  · rw [get_none hp h, find_none.2 h]; rfl

/-- where an item goes: the reference node is the first node of the rest of the list -/
theorem after_split {s : Sys} {l : List Item} {left : List NodeId} (hg : Good s l left) {before : Option Key}
    (hb : ∀ k, before = some k → Has l k) :
    ∃ r S1 S2 pre post, s.list.after before = some r ∧
      Geo s.dom s.list.container s.list.listStart s.list.listEnd pre (S1 ++ S2) post ∧
      (flat S2 ++ s.list.listEnd :: post).head? = some r ∧
      (s.list.container = s.list.frag → pre = [] ∧ post = []) ∧
      itemsOf (S1 ++ S2) = l ∧ (∀ n, Seg.orphan n ∈ S1 ++ S2 ↔ n ∈ left) ∧
      (match before with
       | none => S2 = []
       | some k => ∃ y S2', S2 = .item y :: S2' ∧ y.key = k ∧ ∀ z ∈ itemsOf S1 ++ itemsOf S2', z.key ≠ k) := by
  obtain ⟨pre, segs, post, hgeo, hit, hfr, hor⟩ := hg.geo
  cases before with
  | none =>
    exact ⟨s.list.listEnd, segs, [], pre, post, rfl, by simpa using hgeo, rfl, hfr, by simpa using hit,
      by simpa using hor, rfl⟩
  | some k =>
    obtain ⟨I1, y, I2, e, hy, h1, h2⟩ := has_split (hb k rfl) hg.keys
    obtain ⟨S1, S2, rfl, hS1, hS2⟩ := segs_split (hit.trans e)
    refine ⟨y.start, S1, .item y :: S2, pre, post, ?_, hgeo, by simp [flat, Seg.nodes, Item.nodes], hfr, hit,
      hor, y, S2, rfl, hy, ?_⟩
    · have := get_of_mem hg.perm hg.keys (x := y) (by rw [e]; simp)
      rw [hy] at this
      simp only [DynList.after, this, Option.map_some, Item.stored]
    · intro z hz
      rw [hS1, hS2, List.mem_append] at hz
      rcases hz with hz | hz
      · exact h1 z hz
      · exact h2 z hz

/-! ## the operations -/

theorem good_remove {s : Sys} {l : List Item} {left : List NodeId} (hg : Good s l left) (k : Key) :
    ∃ s', step s (.remove k) = some (s', some (find k l).isSome) ∧ Good s' (without k l) (specLeft l left (.remove k)) := by
  by_cases h : Has l k
  · obtain ⟨I1, x, I2, e, hx, h1, h2⟩ := has_split h hg.keys
    obtain ⟨pre, segs, post, hgeo, hit, hfr, hor⟩ := hg.geo
    obtain ⟨S1, S2, rfl, hS1, hS2⟩ := segs_split (hit.trans e)
    have hget := get_of_mem hg.perm hg.keys (x := x) (by rw [e]; simp)
    rw [hx] at hget
    obtain ⟨d', e1, g1, em, pr⟩ := geo_remove hgeo hg.proper
    have hw : without k l = I1 ++ I2 := by rw [e]; exact without_split hx h1 h2
    refine ⟨⟨d', { s.list with items := s.list.items.filter fun e => e.1 != k }⟩, ?_, ?_⟩
    · simp only [step, remove, hget, Item.stored, e1, bind, Option.bind, pure, Option.map_some]
      rw [e, find_split hx h1]
      rfl
    · have hsl : specLeft l left (.remove k) = x.content ++ left := by
        simp only [specLeft]; rw [e, find_split hx h1]
      rw [hw, hsl]
      refine ⟨pr, ⟨pre, _, post, g1, ?_, hfr, ?_⟩, ?_, ?_, fun h => em _ (fun e => h e.symm) (hg.empty h)⟩
      · rw [itemsOf_append, itemsOf_append, itemsOf_orphans, hS1, hS2, List.append_nil]
      · intro n
        have := hor n
        simp only [List.mem_append, List.mem_map, Seg.orphan.injEq, exists_eq_right, List.mem_cons] at this ⊢
        grind
      · have := hg.perm.filter (fun e => e.1 != k)
        refine this.trans ?_
        rw [List.filter_map]
        have e2 : (fun e : Key × Stored => e.1 != k) ∘ Item.entry = fun x : Item => x.key != k := rfl
        rw [e2]
        exact List.Perm.of_eq (by rw [← hw]; rfl)
      · have := hg.keys
        rw [e] at this
        refine this.sublist (List.Sublist.map _ ?_)
        exact List.Sublist.append_left (List.sublist_cons_self _ _) _
  · refine ⟨s, ?_, ?_⟩
    · simp only [step, remove, get_none hg.perm h, Option.map_some, find_none.2 h]
      rfl
    · have hsl : specLeft l left (.remove k) = left := by
        simp only [specLeft]; rw [find_none.2 h]
      rw [without_eq (fun y hy e => h ⟨y, hy, e⟩), hsl]; exact hg

theorem perm_keys {l l' : List Item} (h : l'.Perm l) (hn : (l.map Item.key).Nodup) :
    (l'.map Item.key).Nodup := ((h.map _).nodup_iff).2 hn

theorem good_move {s : Sys} {l : List Item} {left : List NodeId} (hg : Good s l left) {k : Key} {before : Option Key}
    (ha : Allowed s l (.moveBefore k before)) :
    ∃ s', step s (.moveBefore k before) = some (s', none) ∧ Good s' (specMove k before l) left := by
  obtain ⟨hk, hb⟩ := ha
  obtain ⟨r, S1, S2, pre, post, hafter, hgeo, hr, hfr, hit, hor, hm⟩ := after_split hg (fun k' h => (hb k' h).1)
  obtain ⟨x, hx, hxk⟩ := hk
  have hget := get_of_mem hg.perm hg.keys hx
  rw [hxk] at hget
  -- the item is on one side of the place
  have hside : (∃ T1 T2, S1 = T1 ++ .item x :: T2) ∨ (∃ T1 T2, S2 = T1 ++ .item x :: T2) := by
    rw [← hit, itemsOf_append, List.mem_append] at hx
    rcases hx with hx | hx
    · obtain ⟨J1, J2, e⟩ := List.append_of_mem hx
      obtain ⟨T1, T2, e1, _⟩ := segs_split e
      exact Or.inl ⟨T1, T2, e1⟩
    · obtain ⟨J1, J2, e⟩ := List.append_of_mem hx
      obtain ⟨T1, T2, e1, _⟩ := segs_split e
      exact Or.inr ⟨T1, T2, e1⟩
  have fin : ∀ d' segs', moveNodes s.dom s.list.container s.list.container x.start x.stop (some r) = some d' →
      Geo d' s.list.container s.list.listStart s.list.listEnd pre segs' post →
      Empties s.dom d' s.list.container → Proper d' → itemsOf segs' = specMove k before l →
      (itemsOf segs').Perm l → (∀ n, Seg.orphan n ∈ segs' ↔ Seg.orphan n ∈ S1 ++ S2) →
      ∃ s', step s (.moveBefore k before) = some (s', none) ∧ Good s' (specMove k before l) left := by
    intro d' segs' h1 h2 h3 h4 h5 h6 h7
    refine ⟨⟨d', s.list⟩, ?_, h4, ⟨pre, segs', post, h2, h5, hfr, fun n => (h7 n).trans (hor n)⟩, ?_, ?_, fun h => h3 _ (fun e => h e.symm) (hg.empty h)⟩
    · simp only [step, moveBefore, hafter, hget, Item.stored, h1, bind, Option.bind, Option.map_some]
    · rw [← h5]; exact hg.perm.trans (h6.map _).symm
    · rw [← h5]; exact perm_keys h6 hg.keys
  have hnk : ∀ T1 T2, S1 ++ S2 = T1 ++ Seg.item x :: T2 →
      (∀ z ∈ itemsOf T1, z.key ≠ k) ∧ (∀ z ∈ itemsOf T2, z.key ≠ k) := by
    intro T1 T2 e
    have hn := hg.keys
    rw [← hit, e, itemsOf_append, itemsOf_item] at hn
    simp only [List.map_append, List.map_cons, List.nodup_append, List.nodup_cons] at hn
    refine ⟨fun z hz e => ?_, fun z hz e => ?_⟩
    · exact hn.2.2 z.key (List.mem_map_of_mem hz) x.key (by simp) (by rw [e, hxk])
    · exact hn.2.1.1 (by rw [hxk, ← e]; exact List.mem_map_of_mem hz)
  rcases hside with ⟨T1, T2, rfl⟩ | ⟨T1, T2, rfl⟩
  · -- moved to the right
    obtain ⟨hT1, hT2⟩ := hnk T1 (T2 ++ S2) (by simp)
    rw [show T1 ++ Seg.item x :: T2 ++ S2 = T1 ++ Seg.item x :: (T2 ++ S2) by simp] at hgeo hit
    obtain ⟨d', h1, h2, h3, h4⟩ := geo_right hgeo hg.proper hr
    have hl : l = itemsOf T1 ++ x :: itemsOf (T2 ++ S2) := by
      rw [← hit, itemsOf_append, itemsOf_item]
    refine fin d' _ h1 h2 h3 h4 ?_ ?_ (by intro n; simp only [List.mem_append, List.mem_cons]; grind)
    · unfold specMove
      rw [hl, find_split hxk hT1]
      simp only
      rw [without_split hxk hT1 hT2, itemsOf_append, itemsOf_append, itemsOf_append, itemsOf_item]
      cases before with
      | none => subst hm; simp [place, itemsOf]
      | some b =>
        obtain ⟨y, S2', rfl, hy, hz⟩ := hm
        rw [itemsOf_item, ← List.append_assoc]
        simp only [place]
        rw [placeBefore_split hy]
        intro z hz'
        apply hz
        rw [itemsOf_append, itemsOf_item]
        simp only [List.mem_append, List.mem_cons] at hz' ⊢
        grind
    · rw [hl, itemsOf_append, itemsOf_append, itemsOf_append, itemsOf_item, List.append_assoc]
      exact List.Perm.append_left _ List.perm_middle
  · -- moved to the left
    obtain ⟨hT1, hT2⟩ := hnk (S1 ++ T1) T2 (by simp)
    cases before with
    | none => simp at hm
    | some b =>
      obtain ⟨y, S2', e, hy, hz⟩ := hm
      cases T1 with
      | nil =>
        simp only [List.nil_append, List.cons.injEq, Seg.item.injEq] at e
        exact absurd (by rw [← hy, ← e.1, hxk]) (hb b rfl).2
      | cons g T1' =>
        simp only [List.cons_append, List.cons.injEq] at e
        obtain ⟨rfl, rfl⟩ := e
        rw [← List.append_assoc] at hgeo hit
        obtain ⟨d', h1, h2, h3, h4⟩ := geo_left hgeo hg.proper (r := r) (by
          simpa [flat, Seg.nodes, Item.nodes] using hr)
        have hl : l = (itemsOf S1 ++ y :: itemsOf T1') ++ x :: itemsOf T2 := by
          rw [← hit, itemsOf_append, itemsOf_append, itemsOf_item, itemsOf_item]
        have hT1' : ∀ z ∈ itemsOf S1 ++ y :: itemsOf T1', z.key ≠ k := by
          rw [itemsOf_append, itemsOf_item] at hT1; exact hT1
        refine fin d' _ h1 h2 h3 h4 ?_ ?_ (by intro n; simp only [List.mem_append, List.mem_cons]; grind)
        · unfold specMove
          rw [hl, find_split hxk hT1']
          simp only
          rw [without_split hxk hT1' hT2, itemsOf_append, itemsOf_item, itemsOf_append, itemsOf_item]
          simp only [place, List.append_assoc, List.cons_append]
          rw [placeBefore_split hy]
          intro z hz'
          exact hz z (by simp [hz'])
        · rw [hl, itemsOf_append, itemsOf_item, itemsOf_append, itemsOf_item, List.append_assoc]
          refine List.Perm.append_left _ ?_
          exact (List.perm_middle (a := x) (l₁ := y :: itemsOf T1')).symm

end Verif.Lists
