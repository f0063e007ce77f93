import Verif.Lists.DynamicSteps2
/-! # `retain`, `render` and what the rest of the program does -/
namespace Verif.Lists
open Verif.Dom

/-! ## retain -/

theorem retainLoop_geo {c ls le : NodeId} {pre post : List NodeId} {keep : Key → Bool}
    (es : List (Key × Stored)) : ∀ (d : Dom) (segs : List Seg),
    Geo d c ls le pre segs post → Proper d → (es.map (·.1)).Nodup →
    (∀ e ∈ es, ∃ x ∈ itemsOf segs, x.entry = e) → ((itemsOf segs).map Item.key).Nodup →
    ∃ d' segs', retainLoop c keep es d = some d' ∧ Geo d' c ls le pre segs' post ∧
      itemsOf segs' = (itemsOf segs).filter (fun x => keep x.key || !(es.map (·.1)).contains x.key) ∧
      (∀ n, Seg.orphan n ∈ segs' ↔ Seg.orphan n ∈ segs ∨
        ∃ x ∈ itemsOf segs, keep x.key = false ∧ x.key ∈ es.map (·.1) ∧ n ∈ x.content) ∧
      Empties d d' c ∧ Proper d' := by
  induction es with
  | nil =>
    intro d segs hg hp _ _ _
    refine ⟨d, segs, rfl, hg, ?_, fun _ => by simp, fun _ _ h => h, hp⟩
    rw [List.filter_eq_self.2]
    intro x _; simp
  | cons e es ih =>
    intro d segs hg hp hn hes hk
    rw [List.map_cons, List.nodup_cons] at hn
    by_cases hke : keep e.1
    · obtain ⟨d', segs', h1, h2, h3, ho, h4, h5⟩ := ih d segs hg hp hn.2 (fun e' h => hes e' (by simp [h])) hk
      refine ⟨d', segs', ?_, h2, ?_, ?_, h4, h5⟩
      · simp only [retainLoop, hke, if_true]; exact h1
      · rw [h3]
        apply List.filter_congr
        intro x _
        simp only [List.map_cons, List.contains_cons]
        by_cases hx : x.key = e.1
        · rw [hx, hke]; rfl
        · rw [show (x.key == e.1) = false by simpa using hx, Bool.false_or]
      · intro n
        rw [ho n]
        refine or_congr_right ⟨?_, ?_⟩
        · rintro ⟨x, hx, h6, h7, h8⟩
          exact ⟨x, hx, h6, List.mem_cons_of_mem _ h7, h8⟩
        · rintro ⟨x, hx, h6, h7, h8⟩
          rw [List.map_cons, List.mem_cons] at h7
          rcases h7 with h7 | h7
          · rw [h7] at h6; exact absurd h6 (by simp [hke])
          · exact ⟨x, hx, h6, h7, h8⟩
    · obtain ⟨x, hx, hxe⟩ := hes e (by simp)
      obtain ⟨I1, I2, eI⟩ := List.append_of_mem hx
      obtain ⟨S1, S2, rfl, hS1, hS2⟩ := segs_split eI
      obtain ⟨d1, e1, g1, em1, p1⟩ := geo_remove hg hp
      have hit : itemsOf (S1 ++ x.content.map Seg.orphan ++ S2) = I1 ++ I2 := by
        rw [itemsOf_append, itemsOf_append, itemsOf_orphans, hS1, hS2, List.append_nil]
      have hk' := hk
      rw [eI] at hk'
      obtain ⟨hA, hB⟩ := keys_of_split hk'
      obtain ⟨d', segs', h1, h2, h3, ho, h4, h5⟩ := ih d1 _ g1 p1 hn.2 (by
        intro e' he'
        obtain ⟨z, hz, hze⟩ := hes e' (by simp [he'])
        refine ⟨z, ?_, hze⟩
        rw [hit]
        rw [eI] at hz
        simp only [List.mem_append, List.mem_cons] at hz ⊢
        rcases hz with hz | rfl | hz
        · exact Or.inl hz
        · exfalso
          apply hn.1
          rw [← hxe, hze]
          exact List.mem_map_of_mem he'
        · exact Or.inr hz) (by
        rw [hit]
        exact hk'.sublist (List.Sublist.map _ (List.Sublist.append_left (List.sublist_cons_self _ _) _)))
      have ho' : ∀ n, Seg.orphan n ∈ segs' ↔ Seg.orphan n ∈ S1 ++ Seg.item x :: S2 ∨
          ∃ y ∈ itemsOf (S1 ++ Seg.item x :: S2), keep y.key = false ∧ y.key ∈ (e :: es).map (·.1) ∧
            n ∈ y.content := by
        intro n
        have hxk : e.1 = x.key := by rw [← hxe]; rfl
        rw [ho n, hit, eI]
        simp only [List.mem_append, List.mem_map, Seg.orphan.injEq, exists_eq_right, List.mem_cons, List.map_cons]
        constructor
        · rintro (((h | h) | h) | ⟨y, hy, h6, h7, h8⟩)
          · exact Or.inl (Or.inl h)
          · exact Or.inr ⟨x, by simp, by rw [← hxk]; simpa using hke, Or.inl hxk.symm, h⟩
          · exact Or.inl (Or.inr (Or.inr h))
          · exact Or.inr ⟨y, by grind, h6, Or.inr h7, h8⟩
        · rintro ((h | h | h) | ⟨y, hy, h6, h7, h8⟩)
          · exact Or.inl (Or.inl (Or.inl h))
          · cases h
          · exact Or.inl (Or.inr h)
          · rcases hy with hy | rfl | hy
            · exact Or.inr ⟨y, Or.inl hy, h6, h7.resolve_left (fun h => hA y hy (h.trans hxk)), h8⟩
            · exact Or.inl (Or.inl (Or.inr h8))
            · exact Or.inr ⟨y, Or.inr hy, h6, h7.resolve_left (fun h => hB y hy (h.trans hxk)), h8⟩
      refine ⟨d', segs', ?_, h2, ?_, ho', em1.trans h4, h5⟩
      · simp only [retainLoop, hke]
        rw [← hxe]
        simp only [Item.entry, Item.stored, e1, bind, Option.bind]
        exact h1
      · rw [h3, hit, eI]
        have hxk : e.1 = x.key := by rw [← hxe]; rfl
        have e2 : ∀ (l : List Item), (∀ z ∈ l, z.key ≠ x.key) →
            l.filter (fun x => keep x.key || !(es.map (·.1)).contains x.key) =
            l.filter (fun x => keep x.key || !((e :: es).map (·.1)).contains x.key) := by
          intro l hl
          apply List.filter_congr
          intro z hz
          simp only [List.map_cons, List.contains_cons]
          rw [hxk, show (z.key == x.key) = false by simpa using hl z hz, Bool.false_or]
        rw [List.filter_append, List.filter_append, List.filter_cons, e2 I1 hA, e2 I2 hB]
        have : (keep x.key || !((e :: es).map (·.1)).contains x.key) = false := by
          rw [← hxk]; simp [hke]
        rw [this]
        simp

theorem good_retain {s : Sys} {l : List Item} {left : List NodeId} (hg : Good s l left) (keep : Key → Bool) :
    ∃ s', step s (.retain keep) = some (s', none) ∧ Good s' (l.filter fun x => keep x.key)
      (specLeft l left (.retain keep)) := by
  obtain ⟨pre, segs, post, hgeo, hit, hfr, hor⟩ := hg.geo
  subst hit
  obtain ⟨d', segs', h1, h2, h3, ho, h4, h5⟩ := retainLoop_geo (keep := keep) s.list.items s.dom segs hgeo hg.proper
    (map_keys hg.perm hg.keys) (by
      intro e he
      obtain ⟨x, hx, rfl⟩ := List.mem_map.1 (hg.perm.mem_iff.1 he)
      exact ⟨x, hx, rfl⟩) hg.keys
  have h3' : itemsOf segs' = (itemsOf segs).filter fun x => keep x.key := by
    rw [h3]
    apply List.filter_congr
    intro x hx
    have : (s.list.items.map (·.1)).contains x.key = true := by
      rw [List.contains_iff_mem]
      have := hg.perm.mem_iff.2 (List.mem_map_of_mem (f := Item.entry) hx)
      exact List.mem_map_of_mem (f := (·.1)) this
    rw [this]; simp
  refine ⟨⟨d', { s.list with items := s.list.items.filter fun e => keep e.1 }⟩, ?_, h5,
    ⟨pre, segs', post, h2, h3', hfr, ?_⟩, ?_, ?_, fun h => h4 _ (fun e => h e.symm) (hg.empty h)⟩
  · simp only [step, retain, h1, bind, Option.bind, pure, Option.map_some]
  · intro n
    simp only [specLeft, List.mem_append, List.mem_flatMap, List.mem_filter, Bool.not_eq_true']
    rw [ho n, hor n, or_comm]
    refine or_congr_left ⟨?_, ?_⟩
    · rintro ⟨x, hx, hx1, _, hx2⟩
      exact ⟨x, ⟨hx, hx1⟩, hx2⟩
    · rintro ⟨x, ⟨hx, hx1⟩, hx2⟩
      refine ⟨x, hx, hx1, ?_, hx2⟩
      have := hg.perm.mem_iff.2 (List.mem_map_of_mem (f := Item.entry) hx)
      exact List.mem_map_of_mem (f := (·.1)) this
  · refine (hg.perm.filter _).trans ?_
    rw [List.filter_map]
    exact List.Perm.refl _
  · exact hg.keys.sublist (List.Sublist.map _ List.filter_sublist)

/-! ## content -/

theorem takeWhile_ne {n : NodeId} {A B : List NodeId} (h : n ∉ A) :
    (A ++ n :: B).takeWhile (· != n) = A := by
  rw [List.takeWhile_append_of_pos (by intro a ha; simp; rintro rfl; exact h ha)]
  simp

theorem dropWhile_ne {n : NodeId} {A B : List NodeId} (h : n ∉ A) :
    (A ++ n :: B).dropWhile (· != n) = n :: B := by
  rw [List.dropWhile_append_of_pos (by intro a ha; simp; rintro rfl; exact h ha)]
  simp

theorem good_content {s : Sys} {l : List Item} {left : List NodeId} (hg : Good s l left) {k : Key} {ns : List NodeId}
    (ha : Allowed s l (.content k ns)) :
    ∃ s', step s (.content k ns) = some (s', none) ∧ Good s' (specContent k ns l) left := by
  obtain ⟨x, hx, hxk, hnd, hns⟩ := ha
  obtain ⟨pre, segs, post, hgeo, hit, hfr, hor⟩ := hg.geo
  obtain ⟨I1, I2, eI⟩ := List.append_of_mem hx
  obtain ⟨S1, S2, rfl, hS1, hS2⟩ := segs_split (hit.trans eI)
  have hget := get_of_mem hg.perm hg.keys hx
  rw [hxk] at hget
  have hpn := hg.proper.1 s.list.container
  have hk1 : s.dom.kids s.list.container = (pre ++ s.list.listStart :: flat S1) ++ x.start ::
      (x.content ++ x.stop :: (flat S2 ++ s.list.listEnd :: post)) := by
    rw [hgeo]; simp [flat, Seg.nodes, Item.nodes]
  have hk2 : s.dom.kids s.list.container = ((pre ++ s.list.listStart :: flat S1) ++ x.start :: x.content) ++ x.stop ::
      (flat S2 ++ s.list.listEnd :: post) := by
    rw [hk1]; simp
  have hset : setBetween x.start x.stop ns (s.dom.kids s.list.container) =
      (pre ++ s.list.listStart :: flat S1) ++ x.start :: (ns ++ x.stop :: (flat S2 ++ s.list.listEnd :: post)) := by
    unfold setBetween
    have h1 : x.start ∉ pre ++ s.list.listStart :: flat S1 := by
      rw [hk1, List.nodup_append] at hpn
      exact fun h => hpn.2.2 _ h _ (by simp) rfl
    have h2 : x.stop ∉ (pre ++ s.list.listStart :: flat S1) ++ x.start :: x.content := by
      rw [hk2, List.nodup_append] at hpn
      exact fun h => hpn.2.2 _ h _ (by simp) rfl
    conv => lhs; arg 1; rw [hk1, takeWhile_ne h1]
    rw [hk2, dropWhile_ne h2]
  have hxc : ∀ n ∈ x.content, n ∈ s.dom.kids s.list.container := by
    intro n hn; rw [hk1]; simp [hn]
  -- new nodes are not among the other nodes
  have hother : ∀ n ∈ ns, n ∉ pre ++ s.list.listStart :: flat S1 ∧ n ≠ x.start ∧ n ≠ x.stop ∧
      n ∉ flat S2 ++ s.list.listEnd :: post := by
    intro n hn
    rcases hns n hn with h | h
    · rw [hk1] at hpn
      obtain ⟨_, a2, a3⟩ := List.nodup_append.1 hpn
      obtain ⟨b1, b2⟩ := List.nodup_cons.1 a2
      obtain ⟨_, _, c3⟩ := List.nodup_append.1 b2
      refine ⟨fun h' => a3 n h' n (by simp [h]) rfl, ?_, ?_, ?_⟩
      · rintro rfl; exact b1 (by simp [h])
      · exact fun e => c3 n h x.stop (by simp) e
      · exact fun h' => c3 n h n (by simp only [List.mem_cons]; exact Or.inr h') rfl
    · have := h s.list.container
      rw [hk1] at this
      simp only [List.mem_append, List.mem_cons, not_or] at this ⊢
      grind
  refine ⟨_, by simp only [step, hget, Option.map_some]; rfl, ?_, ?_, ?_, ?_, ?_⟩
  · refine ⟨?_, ?_⟩
    · intro c
      simp only [Item.stored]
      split
      · rename_i hc
        subst hc
        rw [hset]
        rw [hk1] at hpn
        obtain ⟨a1, a2, a3⟩ := List.nodup_append.1 hpn
        obtain ⟨b1, b2⟩ := List.nodup_cons.1 a2
        obtain ⟨_, c2, c3⟩ := List.nodup_append.1 b2
        refine List.nodup_append.2 ⟨a1, List.nodup_cons.2 ⟨?_, List.nodup_append.2 ⟨hnd, c2, ?_⟩⟩, ?_⟩
        · simp only [List.mem_append, not_or]
          exact ⟨fun h => (hother _ h).2.1 rfl, fun h => b1 (by simp only [List.mem_append]; exact Or.inr h)⟩
        · intro a ha b hb e
          subst e
          rcases List.mem_cons.1 hb with h | h
          · exact (hother a ha).2.2.1 h
          · exact (hother a ha).2.2.2 h
        · intro a ha b hb e
          subst e
          rcases List.mem_cons.1 hb with h | h
          · exact a3 a ha a (by simp [h]) rfl
          · rcases List.mem_append.1 h with h | h
            · exact (hother a h).1 ha
            · exact a3 a ha a (List.mem_cons.2 (Or.inr (List.mem_append.2 (Or.inr h)))) rfl
      · exact hg.proper.1 c
    · have hback : ∀ c n, n ∈ (if c = s.list.container then setBetween x.start x.stop ns (s.dom.kids c) else s.dom.kids c) →
          n ∈ s.dom.kids c ∨ (c = s.list.container ∧ n ∈ ns) := by
        intro c n hn
        split at hn
        · rename_i hc
          subst hc
          rw [hset] at hn
          rw [hk1]
          simp only [List.mem_append, List.mem_cons] at hn ⊢
          grind
        · exact Or.inl hn
      intro c c' n h1 h2
      have hfr' : ∀ c, n ∈ s.dom.kids c → n ∈ ns → c = s.list.container := by
        intro c hc hn
        rcases hns n hn with h | h
        · exact hg.proper.2 _ _ _ hc (hxc n h)
        · exact absurd hc (h c)
      rcases hback c n h1 with h1 | ⟨h1, h1n⟩ <;> rcases hback c' n h2 with h2 | ⟨h2, h2n⟩
      · exact hg.proper.2 _ _ _ h1 h2
      · rw [h2]; exact hfr' c h1 h2n
      · rw [h1]; exact (hfr' c' h2 h1n).symm
      · rw [h1, h2]
  · refine ⟨pre, S1 ++ .item ⟨x.key, x.start, x.stop, ns⟩ :: S2, post, ?_, ?_, hfr, ?_⟩
    · unfold Geo
      simp only [if_true, Item.stored]
      rw [hset]
      simp [flat, Seg.nodes, Item.nodes]
    · rw [itemsOf_append, itemsOf_item, hS1, hS2]
      have hk' := hg.keys
      rw [eI] at hk'
      obtain ⟨hA, hB⟩ := keys_of_split hk'
      unfold specContent
      have e : ∀ (m : List Item), (∀ z ∈ m, z.key ≠ x.key) →
          (m.map fun z => if z.key = k then { z with content := ns } else z) = m := by
        intro m hm
        conv => rhs; rw [← List.map_id m]
        apply List.map_congr_left
        intro z hz
        rw [if_neg (by rw [← hxk]; exact hm z hz)]; rfl
      rw [eI, List.map_append, List.map_cons, e I1 hA, e I2 hB, if_pos hxk]
    · intro n
      have := hor n
      simp only [List.mem_append, List.mem_cons] at this ⊢
      grind
  · refine hg.perm.trans (List.Perm.of_eq ?_)
    unfold specContent
    rw [List.map_map]
    apply List.map_congr_left
    intro z _
    simp only [Function.comp]
    split <;> rfl
  · have : (specContent k ns l).map Item.key = l.map Item.key := by
      unfold specContent
      rw [List.map_map]
      apply List.map_congr_left
      intro z _
      simp only [Function.comp]
      split <;> rfl
    rw [this]; exact hg.keys
  · intro h
    simp only [if_neg (fun e => h (Eq.symm e))]
    exact hg.empty h

/-! ## the rest of the page -/

/-- segments without a node that is no item's -/
def dropNode (n : NodeId) (segs : List Seg) : List Seg :=
  segs.filter fun g => match g with
    | .item _ => true
    | .orphan m => m != n

theorem dropNode_items (n : NodeId) (segs : List Seg) : itemsOf (dropNode n segs) = itemsOf segs := by
  induction segs with
  | nil => rfl
  | cons g gs ih =>
    cases g with
    | item x =>
      show itemsOf (.item x :: dropNode n gs) = _
      rw [itemsOf_item, ih]; rfl
    | orphan m =>
      have e : itemsOf (Seg.orphan m :: gs) = itemsOf gs := rfl
      rw [e, ← ih]
      unfold dropNode
      rw [List.filter_cons]
      by_cases h : (m != n) = true
      · rw [if_pos h]; rfl
      · rw [if_neg h]

theorem dropNode_orphan {n m : NodeId} {segs : List Seg} :
    Seg.orphan m ∈ dropNode n segs ↔ Seg.orphan m ∈ segs ∧ m ≠ n := by
  simp [dropNode, List.mem_filter]

theorem dropNode_left {n : NodeId} {segs : List Seg} {left : List NodeId} (h : ∀ m, Seg.orphan m ∈ segs ↔ m ∈ left)
    (m : NodeId) : Seg.orphan m ∈ dropNode n segs ↔ m ∈ left.filter (· != n) := by
  rw [dropNode_orphan, h, List.mem_filter]; simp

theorem orphan_kids {d : Dom} {c ls le : NodeId} {pre post : List NodeId} {segs : List Seg}
    (h : Geo d c ls le pre segs post) {n : NodeId} (hn : Seg.orphan n ∈ segs) : n ∈ d.kids c := by
  rw [h]
  simp only [List.mem_append, List.mem_cons]
  refine .inr (.inr (.inl ?_))
  exact List.mem_flatMap.2 ⟨_, hn, by simp [Seg.nodes]⟩

theorem filter_not_mem {l : List NodeId} {n m : NodeId} (h : n ∉ l) : m ∈ l.filter (· != n) ↔ m ∈ l := by
  rw [filter_ne_self h]

theorem dropNode_flat {n : NodeId} {segs : List Seg} (h : ∀ x ∈ itemsOf segs, n ∉ x.nodes) :
    flat (dropNode n segs) = (flat segs).filter (· != n) := by
  induction segs with
  | nil => rfl
  | cons g gs ih =>
    cases g with
    | item x =>
      rw [itemsOf_item] at h
      have ih' := ih (fun y hy => h y (by simp [hy]))
      have e : flat (dropNode n (.item x :: gs)) = x.nodes ++ flat (dropNode n gs) := rfl
      have e2 : flat (Seg.item x :: gs) = x.nodes ++ flat gs := rfl
      rw [e, e2, List.filter_append, ih', filter_ne_self (h x (by simp))]
    | orphan m =>
      have ih' := ih h
      have e2 : flat (Seg.orphan m :: gs) = m :: flat gs := rfl
      rw [e2, List.filter_cons, ← ih']
      unfold dropNode
      rw [List.filter_cons]
      simp only
      split <;> rfl

/-- the children of the container without a node that is not the list's -/
theorem geo_filter {K pre post : List NodeId} {ls le n : NodeId} {segs : List Seg}
    (hk : K = pre ++ ls :: (flat segs ++ le :: post)) (h1 : n ≠ ls) (h2 : n ≠ le)
    (h : ∀ x ∈ itemsOf segs, n ∉ x.nodes) :
    K.filter (· != n) = pre.filter (· != n) ++ ls :: (flat (dropNode n segs) ++ le :: post.filter (· != n)) := by
  rw [hk, List.filter_append, List.filter_cons, List.filter_append, List.filter_cons, dropNode_flat h]
  rw [if_pos (by simp; exact fun e => h1 e.symm), if_pos (by simp; exact fun e => h2 e.symm)]

theorem insertBeforeIn_left {n r : NodeId} {A B : List NodeId} (h : r ∈ A) :
    insertBeforeIn n r (A ++ B) = insertBeforeIn n r A ++ B := by
  induction A with
  | nil => cases h
  | cons x xs ih =>
    simp only [List.cons_append, insertBeforeIn]
    split
    · rfl
    · rename_i hx
      rw [ih (by rcases List.mem_cons.1 h with h | h; exact absurd h.symm hx; exact h)]
      rfl

theorem insertBeforeIn_right {n r : NodeId} {A B : List NodeId} (h : r ∉ A) :
    insertBeforeIn n r (A ++ B) = A ++ insertBeforeIn n r B := by
  induction A with
  | nil => rfl
  | cons x xs ih =>
    simp only [List.mem_cons, not_or] at h
    simp only [List.cons_append, insertBeforeIn]
    rw [if_neg (fun e => h.1 e.symm), ih h.2]

theorem split_unique {x : NodeId} {A B C D : List NodeId} (h : A ++ x :: B = C ++ x :: D)
    (hA : x ∉ A) (hC : x ∉ C) : A = C ∧ B = D := by
  induction A generalizing C with
  | nil =>
    cases C with
    | nil => simp at h; exact ⟨rfl, h⟩
    | cons c C => simp at h; exact absurd h.1 (by simp at hC; exact hC.1)
  | cons a A ih =>
    cases C with
    | nil => simp at h; exact absurd h.1 (by simp at hA; exact fun e => hA.1 e.symm)
    | cons c C =>
      simp only [List.cons_append, List.cons.injEq] at h
      simp only [List.mem_cons, not_or] at hA hC
      obtain ⟨h1, h2⟩ := ih h.2 hA.2 hC.2
      exact ⟨by rw [h.1, h1], h2⟩

theorem good_vanish {s : Sys} {l : List Item} {left : List NodeId} (hg : Good s l left) {c n : NodeId}
    (ha : Allowed s l (.vanish c n)) :
    ∃ s', step s (.vanish c n) = some (s', none) ∧ Good s' l (left.filter (· != n)) := by
  obtain ⟨hc, hn⟩ := ha
  obtain ⟨pre, segs, post, hgeo, hit, hfr, hor⟩ := hg.geo
  obtain ⟨d', e1, k1, f1⟩ := removeChild_kids hc
  simp only [Owned, not_or, not_exists, not_and] at hn
  refine ⟨⟨d', s.list⟩, by simp only [step, e1, Option.map_some], proper_remove hg.proper e1, ?_, hg.perm, hg.keys, ?_⟩
  · by_cases h : s.list.container = c
    · subst h
      refine ⟨_, _, _, k1.trans (geo_filter hgeo hn.1 hn.2.1 (by rw [hit]; exact hn.2.2)),
        by rw [dropNode_items, hit], ?_, dropNode_left hor⟩
      intro h
      obtain ⟨rfl, rfl⟩ := hfr h
      exact ⟨rfl, rfl⟩
    · refine ⟨pre, segs, post, (f1 _ h).trans hgeo, hit, hfr, fun m => ?_⟩
      rw [hor m, filter_not_mem]
      intro hm
      exact h (hg.proper.2 _ _ _ (orphan_kids hgeo ((hor n).2 hm)) hc)
  · intro h
    have := hg.empty h
    by_cases h' : s.list.frag = c
    · subst h'; rw [this] at hc; cases hc
    · exact (f1 _ h').trans this

/-- What is before and after the list in its container is determined by the document. -/
theorem geo_parts {d : Dom} {c ls le : NodeId} {pre post A M B : List NodeId} {segs : List Seg}
    (hnd : (d.kids c).Nodup) (hgeo : Geo d c ls le pre segs post) (hk : d.kids c = A ++ ls :: (M ++ le :: B)) :
    pre = A ∧ post = B := by
  have hnd' := hnd
  have e := hgeo.symm.trans hk
  have hnd2 := hnd
  rw [hgeo, List.nodup_append, List.nodup_cons, List.nodup_append] at hnd'
  rw [hk, List.nodup_append, List.nodup_cons, List.nodup_append] at hnd2
  obtain ⟨e1, e2⟩ := split_unique e (fun h => hnd'.2.2 _ h _ (by simp) rfl) (fun h => hnd2.2.2 _ h _ (by simp) rfl)
  obtain ⟨_, e3⟩ := split_unique e2 (fun h => hnd'.2.1.2.2.2 _ h _ (by simp) rfl)
    (fun h => hnd2.2.1.2.2.2 _ h _ (by simp) rfl)
  exact ⟨e1, e3⟩

theorem good_place {s : Sys} {l : List Item} {left : List NodeId} (hg : Good s l left) {c n : NodeId} {r : Option NodeId}
    (ha : Allowed s l (.place c n r)) :
    ∃ s', step s (.place c n r) = some (s', none) ∧ Good s' l (left.filter (· != n)) := by
  obtain ⟨hcf, hn, hr, hout⟩ := ha
  obtain ⟨pre, segs, post, hgeo, hit, hfr, hor⟩ := hg.geo
  simp only [Owned, not_or, not_exists, not_and] at hn
  have hfil := geo_filter hgeo hn.1 hn.2.1 (by rw [hit]; exact hn.2.2)
  have fin : ∀ d' pre' post', s.dom.insertBefore c n r = some d' →
      (∀ x, x ≠ c → d'.kids x = (s.dom.kids x).filter (· != n)) →
      (s.list.container = c → d'.kids s.list.container =
        pre' ++ s.list.listStart :: (flat (dropNode n segs) ++ s.list.listEnd :: post')) →
      ∃ s', step s (.place c n r) = some (s', none) ∧ Good s' l (left.filter (· != n)) := by
    intro d' pre' post' h1 h2 h3
    refine ⟨⟨d', s.list⟩, by simp only [step, h1, Option.map_some], proper_insert hg.proper h1, ?_, hg.perm, hg.keys, ?_⟩
    · by_cases h : s.list.container = c
      · refine ⟨pre', _, post', h3 h, by rw [dropNode_items, hit], ?_, dropNode_left hor⟩
        intro h'
        exact absurd (h.symm.trans h') hcf
      · refine ⟨_, _, _, (h2 _ h).trans hfil, by rw [dropNode_items, hit], ?_,
          dropNode_left hor⟩
        intro h
        obtain ⟨rfl, rfl⟩ := hfr h
        exact ⟨rfl, rfl⟩
    · intro h
      show d'.kids s.list.frag = []
      rw [h2 _ (fun e => hcf e.symm), hg.empty h]; rfl
  cases r with
  | none =>
    refine fin ⟨fun x => if x = c then (s.dom.detach n).kids x ++ [n] else (s.dom.detach n).kids x⟩
      (pre.filter (· != n)) (post.filter (· != n) ++ [n]) rfl ?_ ?_
    · intro x hx; simp only [if_neg hx]; rfl
    · intro h
      simp only [if_pos h, Dom.detach]
      rw [hfil]; simp
  | some q =>
    have hq := hr q rfl
    by_cases hqn : q = n
    · subst hqn
      have hnl : q ∉ left := by
        intro hm
        have ho := (hor q).2 hm
        have hko := orphan_kids hgeo ho
        have hc : c = s.list.container := hg.proper.2 _ _ _ hq hko
        obtain ⟨A, M, B, hk, hq'⟩ := hout hc q rfl
        have hnd := hg.proper.1 s.list.container
        obtain ⟨rfl, rfl⟩ := geo_parts hnd hgeo hk
        have hof : q ∈ flat segs := List.mem_flatMap.2 ⟨_, ho, by simp [Seg.nodes]⟩
        rw [hgeo, List.nodup_append, List.nodup_cons, List.nodup_append] at hnd
        rcases hq' with h | h | h
        · exact hnd.2.2 _ h _ (by simp [hof]) rfl
        · exact hnd.2.1.1 (by simp [← h, hof])
        · exact hnd.2.1.2.2.2 _ hof _ (by simp [h]) rfl
      refine ⟨s, ?_, by rw [filter_ne_self hnl]; exact hg⟩
      simp only [step, Dom.insertBefore, if_pos hq, if_true, Option.map_some]
    · obtain ⟨d', h1, h2, h3⟩ := insertBefore_kids (n := n) hq hqn
      by_cases hc : s.list.container = c
      · have hnd := hg.proper.1 s.list.container
        have hfc : ((s.dom.kids s.list.container).filter (· != n)).Nodup := hnd.filter _
        obtain ⟨A, M, B, hk, hq'⟩ := hout hc.symm q rfl
        -- the parts are the same
        obtain ⟨rfl, rfl⟩ := geo_parts hnd hgeo hk
        rw [hfil] at hfc
        have hmem : ∀ (l : List NodeId), q ∈ l → q ∈ l.filter (· != n) := by
          intro l hl; rw [List.mem_filter]; exact ⟨hl, by simpa using hqn⟩
        rcases hq' with hq' | hq' | hq'
        · refine fin d' (insertBeforeIn n q (pre.filter (· != n))) (post.filter (· != n)) h1 h3 ?_
          intro _
          rw [hc, h2, ← hc, hfil, insertBeforeIn_left (hmem _ hq')]
        · refine fin d' (pre.filter (· != n) ++ [n]) (post.filter (· != n)) h1 h3 ?_
          intro _
          rw [hc, h2, ← hc, hfil, ← hq', insertBeforeIn_split]
          · simp
          · rw [List.nodup_append] at hfc
            exact fun h => hfc.2.2 _ h _ (by simp [hq']) rfl
        · refine fin d' (pre.filter (· != n)) (insertBeforeIn n q (post.filter (· != n))) h1 h3 ?_
          intro _
          have hX : pre.filter (· != n) ++ s.list.listStart :: (flat (dropNode n segs) ++ s.list.listEnd :: post.filter (· != n)) =
              (pre.filter (· != n) ++ s.list.listStart :: (flat (dropNode n segs) ++ [s.list.listEnd])) ++ post.filter (· != n) := by
            simp
          have hfc' := hfc
          rw [hX, List.nodup_append] at hfc'
          rw [hc, h2, ← hc, hfil, hX, insertBeforeIn_right (fun h => hfc'.2.2 _ h _ (hmem _ hq') rfl)]
          simp
      · exact fin d' [] [] h1 h3 (fun h => absurd h hc)

/-! ## rendering -/

theorem insertAll_geo {p r : NodeId} (ns : List NodeId) : ∀ (d : Dom) (P Q : List NodeId),
    d.kids p = P ++ r :: Q → Proper d → (∀ n ∈ ns, n ∉ d.kids p) → ns.Nodup →
    ∃ d', insertAll p r ns d = some d' ∧ d'.kids p = P ++ ns ++ r :: Q ∧ Proper d' ∧
      ∀ x, x ≠ p → d'.kids x = (d.kids x).filter (fun y => !ns.contains y) := by
  induction ns with
  | nil =>
    intro d P Q hk hp _ _
    refine ⟨d, rfl, by simpa using hk, hp, ?_⟩
    intro x _
    rw [List.filter_eq_self.2]
    intro y _; simp
  | cons n ns ih =>
    intro d P Q hk hp hns hnd
    rw [List.nodup_cons] at hnd
    have hr : r ∉ P := by
      have := hp.1 p
      rw [hk, List.nodup_append] at this
      exact fun h => this.2.2 _ h _ (by simp) rfl
    obtain ⟨d1, e1, k1, f1⟩ := insert_new hk hr (hns n (by simp))
    obtain ⟨d2, e2, k2, p2, f2⟩ := ih d1 (P ++ [n]) Q (by rw [k1]; simp) (proper_insert hp e1) (by
      intro m hm hm'
      have := hns m (by simp [hm])
      rw [k1] at hm'
      rw [hk] at this
      simp only [List.mem_append, List.mem_cons] at hm' this
      have hmn : m ≠ n := by rintro rfl; exact hnd.1 hm
      grind) hnd.2
    refine ⟨d2, ?_, by rw [k2]; simp, p2, ?_⟩
    · simp only [insertAll, e1, bind, Option.bind]; exact e2
    · intro x hx
      rw [f2 x hx, f1 x hx, filter_filter_ne]

theorem good_render {s : Sys} {l : List Item} {left : List NodeId} (hg : Good s l left) {p : NodeId} {a : Option NodeId}
    (ha : Allowed s l (.render p a)) :
    ∃ s', step s (.render p a) = some (s', none) ∧ Good s' l left ∧ s'.list.container = p := by
  obtain ⟨hcf, hpf, hr⟩ := ha
  obtain ⟨pre, segs, post, hgeo, hit, hfr, hor⟩ := hg.geo
  obtain ⟨rfl, rfl⟩ := hfr hcf
  unfold Geo at hgeo
  rw [hcf, List.nil_append] at hgeo
  have hnd := hg.proper.1 s.list.frag
  rw [hgeo, List.nodup_cons, List.nodup_append] at hnd
  have hsp : ∀ n ∈ s.dom.kids s.list.frag, n ∉ s.dom.kids p := by
    intro n hn hn'; exact hpf (hg.proper.2 _ _ _ hn' hn)
  have hls : s.list.listStart ∉ s.dom.kids p := hsp _ (by rw [hgeo]; simp)
  have hle : s.list.listEnd ∉ s.dom.kids p := hsp _ (by rw [hgeo]; simp)
  have hne : s.list.listEnd ≠ s.list.listStart := by
    intro e; exact hnd.1 (by rw [← e]; simp)
  -- the start marker at its place
  obtain ⟨d1, A, B, e1, hkp, k1, f1⟩ : ∃ d1 A B, s.dom.insertBefore p s.list.listStart a = some d1 ∧
      s.dom.kids p = A ++ B ∧ d1.kids p = A ++ s.list.listStart :: B ∧
      ∀ x, x ≠ p → d1.kids x = (s.dom.kids x).filter (· != s.list.listStart) := by
    cases a with
    | none =>
      refine ⟨⟨fun x => if x = p then (s.dom.detach s.list.listStart).kids x ++ [s.list.listStart]
        else (s.dom.detach s.list.listStart).kids x⟩, s.dom.kids p, [], rfl, by simp, ?_, ?_⟩
      · simp only [if_true, Dom.detach]; rw [filter_ne_self hls]
      · intro x hx; simp only [if_neg hx]; rfl
    | some q =>
      obtain ⟨A, B, e⟩ := List.append_of_mem (hr q rfl)
      have hq : q ∉ A := by
        have := hg.proper.1 p
        rw [e, List.nodup_append] at this
        exact fun h => this.2.2 _ h _ (by simp) rfl
      obtain ⟨d1, e1, k1, f1⟩ := insert_new e hq hls
      exact ⟨d1, A, q :: B, e1, e, k1, f1⟩
  have p1 := proper_insert hg.proper e1
  have hfrag1 : d1.kids s.list.frag = flat segs ++ [s.list.listEnd] := by
    rw [f1 _ (fun e => hpf e.symm), hgeo, List.filter_cons, filter_ne_self hnd.1]; simp
  have hlsA : s.list.listStart ∉ A := by
    intro h; exact hls (by rw [hkp]; simp [h])
  have hle1 : s.list.listEnd ∉ d1.kids p := by
    rw [k1]; rw [hkp] at hle
    simp only [List.mem_append, List.mem_cons, not_or] at hle ⊢
    exact ⟨hle.1, hne, hle.2⟩
  obtain ⟨d2, e2, k2, f2⟩ := insert_new k1 hlsA hle1
  have p2 := proper_insert p1 e2
  have hfrag2 : d2.kids s.list.frag = flat segs := by
    rw [f2 _ (fun e => hpf e.symm), hfrag1, List.filter_append,
      filter_ne_self (fun h => hnd.2.2.2 _ h _ (by simp) rfl)]
    simp
  obtain ⟨d3, e3, k3, f3⟩ := removeChild_kids (d := d2) (c := p) (n := s.list.listStart) (by rw [k2]; simp)
  have p3 := proper_remove p2 e3
  have hlsB : s.list.listStart ∉ B := by
    intro h; exact hls (by rw [hkp]; simp [h])
  have k3' : d3.kids p = A ++ s.list.listEnd :: B := by
    rw [k3, k2, List.filter_append, List.filter_cons, List.filter_cons, filter_ne_self hlsA, filter_ne_self hlsB]
    simp [hne]
  have hleA : s.list.listEnd ∉ A := by
    intro h; exact hle (by rw [hkp]; simp [h])
  obtain ⟨d4, e4, k4, f4⟩ := insert_new (n := s.list.listStart) k3' hleA (by
    rw [k3']; simp only [List.mem_append, List.mem_cons, not_or]
    exact ⟨hlsA, fun e => hne e.symm, hlsB⟩)
  have p4 := proper_insert p3 e4
  have hlsf : s.list.listStart ∉ flat segs := fun h => hnd.1 (by simp only [List.mem_append]; exact Or.inl h)
  have hfrag4 : d4.kids s.list.frag = flat segs := by
    rw [f4 _ (fun e => hpf e.symm), f3 _ (fun e => hpf e.symm), hfrag2, filter_ne_self hlsf]
  obtain ⟨d5, e5, k5, p5, f5⟩ := insertAll_geo (p := p) (r := s.list.listEnd) (flat segs) d4 (A ++ [s.list.listStart]) B
    (by rw [k4]; simp) p4 (by
      intro n hn hn'
      exact hpf (p4.2 _ _ _ hn' (by rw [hfrag4]; exact hn))) hnd.2.1
  refine ⟨⟨d5, { s.list with container := p }⟩, ?_, ⟨p5, ⟨A, segs, B, ?_, hit, ?_, hor⟩, hg.perm, hg.keys, ?_⟩, rfl⟩
  · simp only [step, render, e1, e2, e3, e4, hfrag4, e5, bind, Option.bind, pure, hcf, if_true, Option.map_some]
  · show d5.kids p = _
    rw [k5]; simp [flat]
  · intro h; exact absurd h hpf
  · intro _
    show d5.kids s.list.frag = []
    rw [f5 _ (fun e => hpf e.symm), hfrag4, List.filter_eq_nil_iff]
    intro y hy
    simpa using hy

theorem good_unrender {s : Sys} {l : List Item} {left : List NodeId} (hg : Good s l left)
    (ha : s.list.container ≠ s.list.frag) :
    ∃ s', step s .unrender = some (s', none) ∧ Good s' l left ∧ s'.list.container = s'.list.frag := by
  obtain ⟨pre, segs, post, hgeo, hit, hfr, hor⟩ := hg.geo
  have hk : s.dom.kids s.list.container = pre ++ (s.list.listStart :: (flat segs ++ [s.list.listEnd])) ++ post := by
    rw [hgeo]; simp
  have hlast : (s.list.listStart :: (flat segs ++ [s.list.listEnd])).getLast? = some s.list.listEnd := by
    rw [← List.cons_append]
    simp only [List.getLast?_append, List.getLast?_singleton, Option.some_or]
  obtain ⟨d', e1, k1, f1⟩ := moveLoop_out ha _ ((s.dom.kids s.list.container).length + 1) s.dom pre post _ _ rfl hk
    (hg.proper.1 _) (by rw [hg.empty ha]; intro n _ h; cases h) hlast
    (by rw [hk]; simp only [List.length_append]; omega)
  refine ⟨⟨d', { s.list with container := s.list.frag }⟩, ?_,
    ⟨proper_move _ hg.proper e1, ⟨[], segs, [], ?_, hit, fun _ => ⟨rfl, rfl⟩, hor⟩, hg.perm, hg.keys, ?_⟩, rfl⟩
  · simp only [step, unrender, moveNodes, e1, bind, Option.bind, pure, Option.map_some]
  · show d'.kids s.list.frag = _
    rw [k1, hg.empty ha]
  · intro h; exact absurd rfl h

theorem good_new {d : Dom} {frag ls le : NodeId} (hp : Proper d) (hf : d.kids frag = [])
    (hne : ls ≠ le) : ∃ d' L, new d frag ls le = some (d', L) ∧ Good ⟨d', L⟩ [] [] := by
  refine ⟨_, _, rfl, ?_⟩
  refine ⟨proper_insert (c := frag) (n := le) (r := none)
    (proper_insert (c := frag) (n := ls) (r := none) hp rfl) rfl, ⟨[], [], [], ?_, rfl, fun _ => ⟨rfl, rfl⟩,
    by simp⟩, List.Perm.refl _, ?_, ?_⟩
  · unfold Geo
    simp [Dom.detach, hf, hne]
  · simp
  · intro h; exact absurd rfl h

end Verif.Lists
