import Verif.Lists.DynamicSteps
/-! # More operations of DynamicList -/
namespace Verif.Lists
open Verif.Dom

theorem keys_of_split {A B : List Item} {x : Item} (hn : ((A ++ x :: B).map Item.key).Nodup) :
    (∀ z ∈ A, z.key ≠ x.key) ∧ (∀ z ∈ B, z.key ≠ x.key) := by
  simp only [List.map_append, List.map_cons, List.nodup_append, List.nodup_cons] at hn
  refine ⟨fun z hz e => ?_, fun z hz e => ?_⟩
  · exact hn.2.2 z.key (List.mem_map_of_mem hz) x.key (by simp) e
  · exact hn.2.1.1 (by rw [← e]; exact List.mem_map_of_mem hz)

theorem map_replace_split {A B : List Item} {x y : Item} (hA : ∀ z ∈ A, z.key ≠ x.key)
    (hB : ∀ z ∈ B, z.key ≠ x.key) :
    ((A ++ x :: B).map fun z => if z.key = x.key then y else z) = A ++ y :: B := by
  have e : ∀ (l : List Item), (∀ z ∈ l, z.key ≠ x.key) →
      (l.map fun z => if z.key = x.key then y else z) = l := by
    intro l hl
    conv => rhs; rw [← List.map_id l]
    apply List.map_congr_left
    intro z hz
    rw [if_neg (hl z hz)]; rfl
  rw [List.map_append, List.map_cons, e A hA, e B hB, if_pos rfl]

/-- the list with an item of the same key put in at a place, the old one taken out -/
theorem good_insert {s : Sys} {l : List Item} {left : List NodeId} (hg : Good s l left) {k : Key} {before : Option Key}
    {start stop : NodeId} (ha : Allowed s l (.insert k before start stop)) :
    ∃ s', step s (.insert k before start stop) = some (s', some (find k l).isSome) ∧
      Good s' (specInsert ⟨k, start, stop, []⟩ before l) (specLeft l left (.insert k before start stop)) := by
  obtain ⟨hb, hf1, hf2, hne⟩ := ha
  obtain ⟨r, S1, S2, pre, post, hafter, hgeo, hr, hfr, hit, hor, hm⟩ := after_split hg hb
  obtain ⟨d1, d2, e1, e2, hgeo2, em2, pr2⟩ := geo_insert k hgeo hg.proper hr hf1 hf2 hne
  by_cases h : Has l k
  · -- replaced
    obtain ⟨x, hx, hxk⟩ := h
    have hget := get_of_mem hg.perm hg.keys hx
    rw [hxk] at hget
    have hfind : (find k l).isSome = true := by
      cases hfn : find k l with
      | none => exact absurd ⟨x, hx, hxk⟩ (find_none.1 hfn)
      | some _ => rfl
    have hsl : specLeft l left (.insert k before start stop) = x.content ++ left := by
      simp only [specLeft]
      obtain ⟨A, B, e⟩ := List.append_of_mem hx
      have hn := hg.keys
      rw [e] at hn
      rw [e, find_split hxk (by rw [← hxk]; exact (keys_of_split hn).1)]
    -- removing the old markers from any split around the old item
    have fin : ∀ U1 U2, S1 ++ Seg.item ⟨k, start, stop, []⟩ :: S2 = U1 ++ Seg.item x :: U2 →
        itemsOf U1 ++ itemsOf U2 = specInsert ⟨k, start, stop, []⟩ before l →
        (itemsOf U1 ++ itemsOf U2).Perm (⟨k, start, stop, []⟩ :: without k l) →
        ∃ s', step s (.insert k before start stop) = some (s', some (find k l).isSome) ∧
          Good s' (specInsert ⟨k, start, stop, []⟩ before l) (specLeft l left (.insert k before start stop)) := by
      intro U1 U2 eU hspec hperm
      rw [eU] at hgeo2
      obtain ⟨d3, e3, g3, em3, pr3⟩ := geo_remove hgeo2 pr2
      refine ⟨⟨d3, { s.list with items := s.list.items.map fun e => if e.1 = k then (k, ⟨start, stop⟩) else e }⟩,
        ?_, pr3, ⟨pre, _, post, g3, ?_, hfr, ?_⟩, ?_, ?_,
        fun h => em3 _ (fun e => h e.symm) (em2 _ (fun e => h e.symm) (hg.empty h))⟩
      · simp only [step, insert, hafter, e1, e2, hget, Item.stored, e3, bind, Option.bind, pure, Option.map_some, hfind]
      · rw [itemsOf_append, itemsOf_append, itemsOf_orphans, List.append_nil, hspec]
      · intro n
        rw [hsl]
        have h1 : Seg.orphan n ∈ S1 ++ Seg.item ⟨k, start, stop, []⟩ :: S2 ↔ _ :=
          Eq.to_iff (congrArg (Seg.orphan n ∈ ·) eU)
        have := hor n
        simp only [List.mem_append, List.mem_map, Seg.orphan.injEq, exists_eq_right, List.mem_cons] at this h1 ⊢
        grind
      · rw [← hspec]
        refine List.Perm.trans ?_ (hperm.map Item.entry).symm
        obtain ⟨A, B, rfl⟩ := List.append_of_mem hx
        obtain ⟨hA, hB⟩ := keys_of_split hg.keys
        rw [hxk] at hA hB
        rw [without_split hxk hA hB]
        have hp := hg.perm.map (fun e : Key × Stored => if e.1 = k then (k, (⟨start, stop⟩ : Stored)) else e)
        refine hp.trans ?_
        have eq : ∀ (m : List Item), (∀ z ∈ m, z.key ≠ k) →
            (m.map Item.entry).map (fun e : Key × Stored => if e.1 = k then (k, (⟨start, stop⟩ : Stored)) else e)
              = m.map Item.entry := by
          intro m hm
          rw [List.map_map]
          apply List.map_congr_left
          intro z hz
          exact if_neg (c := z.entry.1 = k) (hm z hz)
        rw [List.map_append, List.map_append, eq A hA, List.map_cons, List.map_cons, eq B hB]
        rw [if_pos (c := x.entry.1 = k) hxk, List.map_cons, List.map_append]
        exact List.perm_middle
      · rw [← hspec]
        refine perm_keys hperm ?_
        rw [List.map_cons, List.nodup_cons]
        refine ⟨?_, hg.keys.sublist (List.Sublist.map _ List.filter_sublist)⟩
        simp [without]
    -- where the old item is
    by_cases hbk : before = some k
    · subst hbk
      obtain ⟨y, S2', rfl, hy, hz⟩ := hm
      have hyl : y ∈ l := by rw [← hit, itemsOf_append, itemsOf_item]; simp
      have hxy : x = y := by
        have h1 := hg.keys
        obtain ⟨A, B, e⟩ := List.append_of_mem hx
        rw [e] at h1 hyl
        obtain ⟨hA, hB⟩ := keys_of_split h1
        simp only [List.mem_append, List.mem_cons] at hyl
        rcases hyl with h | h | h
        · exact absurd (hy.trans hxk.symm) (hA y h)
        · exact h.symm
        · exact absurd (hy.trans hxk.symm) (hB y h)
      subst hxy
      have hl : l = itemsOf S1 ++ x :: itemsOf S2' := by
        rw [← hit, itemsOf_append, itemsOf_item]
      have hA : ∀ z ∈ itemsOf S1, z.key ≠ x.key := fun z hz' => by rw [hxk]; exact hz z (by simp [hz'])
      have hB : ∀ z ∈ itemsOf S2', z.key ≠ x.key := fun z hz' => by rw [hxk]; exact hz z (by simp [hz'])
      refine fin (S1 ++ [Seg.item ⟨k, start, stop, []⟩]) S2' (by simp) ?_ ?_
      · unfold specInsert
        rw [if_pos rfl, itemsOf_append, itemsOf_item]
        simp only
        rw [← hxk, hl, map_replace_split hA hB]
        simp [itemsOf]
      · rw [itemsOf_append, itemsOf_item, hl, without_split hxk (by rw [← hxk]; exact hA) (by rw [← hxk]; exact hB)]
        simp only [itemsOf, List.filterMap_nil, List.append_assoc, List.cons_append, List.nil_append]
        exact List.perm_middle
    · have hside : (∃ T1 T2, S1 = T1 ++ .item x :: T2) ∨ (∃ T1 T2, S2 = T1 ++ .item x :: T2) := by
        rw [← hit, itemsOf_append, List.mem_append] at hx
        rcases hx with hx | hx
        · obtain ⟨J1, J2, e⟩ := List.append_of_mem hx
          obtain ⟨T1, T2, e1, _⟩ := segs_split e
          exact Or.inl ⟨T1, T2, e1⟩
        · obtain ⟨J1, J2, e⟩ := List.append_of_mem hx
          obtain ⟨T1, T2, e1, _⟩ := segs_split e
          exact Or.inr ⟨T1, T2, e1⟩
      rcases hside with ⟨T1, T2, rfl⟩ | ⟨T1, T2, rfl⟩
      · have hl : l = itemsOf T1 ++ x :: (itemsOf T2 ++ itemsOf S2) := by
          rw [← hit, itemsOf_append, itemsOf_append, itemsOf_item]; simp
        have hn := hg.keys
        rw [hl] at hn
        obtain ⟨hA, hB⟩ := keys_of_split hn
        rw [hxk] at hA hB
        refine fin T1 (T2 ++ Seg.item ⟨k, start, stop, []⟩ :: S2) (by simp) ?_ ?_
        · unfold specInsert
          rw [if_neg hbk, hl]
          simp only
          rw [without_split hxk hA hB, itemsOf_append, itemsOf_item]
          cases before with
          | none => subst hm; simp [place, itemsOf]
          | some b =>
            obtain ⟨y, S2', rfl, hy, hz⟩ := hm
            rw [itemsOf_item, ← List.append_assoc, ← List.append_assoc]
            simp only [place]
            rw [placeBefore_split hy]
            intro z hz'
            apply hz
            rw [itemsOf_append, itemsOf_item]
            simp only [List.mem_append, List.mem_cons] at hz' ⊢
            grind
        · rw [hl, without_split hxk hA hB, itemsOf_append, itemsOf_item, ← List.append_assoc, ← List.append_assoc]
          exact List.perm_middle
      · cases before with
        | none => simp at hm
        | some b =>
          obtain ⟨y, S2', e, hy, hz⟩ := hm
          cases T1 with
          | nil =>
            simp only [List.nil_append, List.cons.injEq, Seg.item.injEq] at e
            exact absurd (by rw [← hy, ← e.1, hxk]) hbk
          | cons g T1' =>
            simp only [List.cons_append, List.cons.injEq] at e
            obtain ⟨rfl, rfl⟩ := e
            have hl : l = (itemsOf S1 ++ y :: itemsOf T1') ++ x :: itemsOf T2 := by
              rw [← hit, itemsOf_append, itemsOf_append, itemsOf_item, itemsOf_item]; simp
            have hn := hg.keys
            rw [hl] at hn
            obtain ⟨hA, hB⟩ := keys_of_split hn
            rw [hxk] at hA hB
            refine fin (S1 ++ Seg.item ⟨k, start, stop, []⟩ :: Seg.item y :: T1') T2 (by simp) ?_ ?_
            · unfold specInsert
              rw [if_neg hbk, hl]
              simp only
              rw [without_split hxk hA hB, itemsOf_append, itemsOf_item, itemsOf_item]
              simp only [place, List.append_assoc, List.cons_append]
              rw [placeBefore_split hy]
              intro z hz'
              exact hz z (by simp [hz'])
            · rw [hl, without_split hxk hA hB, itemsOf_append, itemsOf_item, itemsOf_item]
              simp only [List.append_assoc, List.cons_append]
              exact List.perm_middle
  · -- new key
    have hget := get_none hg.perm h
    have hl : l = itemsOf S1 ++ itemsOf S2 := by rw [← hit, itemsOf_append]
    have hbk : before ≠ some k := fun e => h (hb k e)
    have hspec : itemsOf S1 ++ ⟨k, start, stop, []⟩ :: itemsOf S2 = specInsert ⟨k, start, stop, []⟩ before l := by
      unfold specInsert
      rw [if_neg hbk, without_eq (fun y hy e => h ⟨y, hy, e⟩), hl]
      cases before with
      | none => subst hm; simp [place, itemsOf]
      | some b =>
        obtain ⟨y, S2', rfl, hy, hz⟩ := hm
        rw [itemsOf_item]
        simp only [place]
        rw [placeBefore_split hy]
        intro z hz'
        exact hz z (by simp [hz'])
    have hperm : (itemsOf S1 ++ ⟨k, start, stop, []⟩ :: itemsOf S2).Perm (⟨k, start, stop, []⟩ :: l) := by
      rw [hl]; exact List.perm_middle
    have hsl : specLeft l left (.insert k before start stop) = left := by
      simp only [specLeft]; rw [find_none.2 h]
    refine ⟨⟨d2, { s.list with items := s.list.items ++ [(k, ⟨start, stop⟩)] }⟩, ?_, pr2,
      ⟨pre, _, post, hgeo2, ?_, hfr, ?_⟩, ?_, ?_, fun h => em2 _ (fun e => h e.symm) (hg.empty h)⟩
    · simp only [step, insert, hafter, e1, e2, hget, bind, Option.bind, pure, Option.map_some, find_none.2 h]
      rfl
    · rw [itemsOf_append, itemsOf_item, hspec]
    · intro n
      rw [hsl]
      have := hor n
      simp only [List.mem_append, List.mem_cons] at this ⊢
      grind
    · rw [← hspec]
      refine List.Perm.trans ?_ (hperm.map Item.entry).symm
      refine List.Perm.trans (List.perm_append_singleton _ _) ?_
      exact List.Perm.cons _ hg.perm
    · rw [← hspec]
      refine perm_keys hperm ?_
      rw [List.map_cons, List.nodup_cons]
      refine ⟨?_, hg.keys⟩
      intro hm'
      obtain ⟨y, hy, e⟩ := List.mem_map.1 hm'
      exact h ⟨y, hy, e⟩

theorem map_swap {I1 I2 I3 : List Item} {x y : Item} {a b : Key} (hx : x.key = a) (hy : y.key = b)
    (hab : a ≠ b) (h : ∀ z ∈ I1 ++ I2 ++ I3, z.key ≠ a ∧ z.key ≠ b) :
    ((I1 ++ x :: (I2 ++ y :: I3)).map fun z => if z.key = a then y else if z.key = b then x else z)
        = I1 ++ y :: (I2 ++ x :: I3) ∧
    ((I1 ++ y :: (I2 ++ x :: I3)).map fun z => if z.key = a then y else if z.key = b then x else z)
        = I1 ++ x :: (I2 ++ y :: I3) := by
  have e : ∀ (l : List Item), (∀ z ∈ l, z.key ≠ a ∧ z.key ≠ b) →
      (l.map fun z => if z.key = a then y else if z.key = b then x else z) = l := by
    intro l hl
    conv => rhs; rw [← List.map_id l]
    apply List.map_congr_left
    intro z hz
    rw [if_neg (hl z hz).1, if_neg (hl z hz).2]; rfl
  have e1 := e I1 (fun z hz => h z (by simp [hz]))
  have e2 := e I2 (fun z hz => h z (by simp [hz]))
  have e3 := e I3 (fun z hz => h z (by simp [hz]))
  have hya : y.key ≠ a := by rw [hy]; exact fun e => hab e.symm
  constructor <;>
  · rw [List.map_append, List.map_cons, List.map_append, List.map_cons, e1, e2, e3, if_pos hx, if_neg hya,
      if_pos hy]

theorem find_two {I1 I2 I3 : List Item} {x y : Item} {a b : Key} (hx : x.key = a) (hy : y.key = b)
    (hab : a ≠ b) (h : ∀ z ∈ I1 ++ I2 ++ I3, z.key ≠ a ∧ z.key ≠ b) :
    find b (I1 ++ x :: (I2 ++ y :: I3)) = some y := by
  have : I1 ++ x :: (I2 ++ y :: I3) = (I1 ++ x :: I2) ++ y :: I3 := by simp
  rw [this]
  refine find_split hy ?_
  intro z hz
  simp only [List.mem_append, List.mem_cons] at hz
  rcases hz with hz | rfl | hz
  · exact (h z (by simp [hz])).2
  · rw [hx]; exact hab
  · exact (h z (by simp [hz])).2

theorem good_swap {s : Sys} {l : List Item} {left : List NodeId} (hg : Good s l left) {a b : Key}
    (ha : Allowed s l (.swap a b)) :
    ∃ s', step s (.swap a b) = some (s', none) ∧ Good s' (specSwap a b l) left := by
  obtain ⟨hHa, hHb, hadj⟩ := ha
  by_cases hab : a = b
  · subst hab
    obtain ⟨I1, x, I2, e, hx, h1, h2⟩ := has_split hHa hg.keys
    have hget := get_of_mem hg.perm hg.keys (x := x) (by rw [e]; simp)
    rw [hx] at hget
    refine ⟨s, ?_, ?_⟩
    · simp only [step, swap, hget, bind, Option.bind, if_true, pure, Option.map_some]
    · have : specSwap a a l = l := by
        unfold specSwap
        rw [e, find_split hx h1]
        simp only
        conv => rhs; rw [← List.map_id (I1 ++ x :: I2)]
        apply List.map_congr_left
        intro z hz
        by_cases hz' : z.key = a
        · rw [if_pos hz']
          simp only [List.mem_append, List.mem_cons] at hz
          rcases hz with hz | hz | hz
          · exact absurd hz' (h1 z hz)
          · exact hz.symm
          · exact absurd hz' (h2 z hz)
        · rw [if_neg hz', if_neg hz']; rfl
      rw [this]; exact hg
  · obtain ⟨x, y, I1, I2, I3, hx, hy, hz, hl⟩ := two_split hHa hHb hab hg.keys
    obtain ⟨pre, segs, post, hgeo, hit, hfr, hor⟩ := hg.geo
    have hxl : x ∈ l := by rcases hl with h | h <;> rw [h] <;> simp
    have hyl : y ∈ l := by rcases hl with h | h <;> rw [h] <;> simp
    have hgx := get_of_mem hg.perm hg.keys hxl
    have hgy := get_of_mem hg.perm hg.keys hyl
    rw [hx] at hgx
    rw [hy] at hgy
    have hmap := map_swap hx hy hab hz
    have fin : ∀ d1 d2 segs' r, nextIn x.stop (s.dom.kids s.list.container) = some r →
        moveNodes s.dom s.list.container s.list.container x.start x.stop (some y.start) = some d1 →
        moveNodes d1 s.list.container s.list.container y.start y.stop (some r) = some d2 →
        Geo d2 s.list.container s.list.listStart s.list.listEnd pre segs' post →
        Empties s.dom d2 s.list.container → Proper d2 → itemsOf segs' = specSwap a b l →
        (itemsOf segs').Perm l → (∀ n, Seg.orphan n ∈ segs' ↔ Seg.orphan n ∈ segs) →
        ∃ s', step s (.swap a b) = some (s', none) ∧ Good s' (specSwap a b l) left := by
      intro d1 d2 segs' r h0 h1 h1' h2 h3 h4 h5 h6 h7
      refine ⟨⟨d2, s.list⟩, ?_, h4, ⟨pre, segs', post, h2, h5, hfr, fun n => (h7 n).trans (hor n)⟩, ?_, ?_,
        fun h => h3 _ (fun e => h e.symm) (hg.empty h)⟩
      · simp only [step, swap, hgx, hgy, Item.stored, bind, Option.bind, if_neg hab, h0, h1, h1', Option.map_some]
      · rw [← h5]; exact hg.perm.trans (h6.map _).symm
      · rw [← h5]; exact perm_keys h6 hg.keys
    -- the node after the first item
    have hnext : ∀ T1 T2 n, segs = T1 ++ Seg.item x :: T2 →
        (flat T2 ++ s.list.listEnd :: post).head? = some n →
        nextIn x.stop (s.dom.kids s.list.container) = some n := by
      intro T1 T2 n e hn
      have hk : s.dom.kids s.list.container =
          (pre ++ s.list.listStart :: (flat T1 ++ x.start :: x.content)) ++ x.stop ::
            (flat T2 ++ s.list.listEnd :: post) := by
        rw [hgeo, e]; simp [flat, Seg.nodes, Item.nodes]
      have hnd := hg.proper.1 s.list.container
      rw [hk, List.nodup_append] at hnd
      rw [hk, nextIn_split (fun h => hnd.2.2 _ h _ (by simp) rfl), hn]
    rcases hl with hl | hl
    · -- the first one is before the second one
      obtain ⟨S1, T, rfl, hS1, hT⟩ := segs_split (hit.trans hl)
      obtain ⟨S2, S3, rfl, hS2, hS3⟩ := segs_split hT
      have hS2ne : S2 ≠ [] := by
        rintro rfl
        apply hadj
        unfold directlyBefore
        have : I2 = [] := by rw [← hS2]; rfl
        subst this
        refine ⟨I1.map Item.key, I3.map Item.key, ?_⟩
        rw [hl]; simp [hx, hy]
      obtain ⟨n, ns, hn⟩ := flat_ne_nil hS2ne
      obtain ⟨d1, e1, g1, em1, p1⟩ := geo_right (S3 := .item y :: S3) (r := y.start) hgeo hg.proper
        (by simp [flat, Seg.nodes, Item.nodes])
      have g1' : Geo d1 s.list.container s.list.listStart s.list.listEnd pre
          (S1 ++ (S2 ++ [.item x]) ++ .item y :: S3) post := by
        have : S1 ++ S2 ++ Seg.item x :: Seg.item y :: S3 = S1 ++ (S2 ++ [.item x]) ++ .item y :: S3 := by simp
        rw [← this]; exact g1
      obtain ⟨d2, e2, g2, em2, p2⟩ := geo_left (r := n) g1' p1 (by
        simp only [flat, List.flatMap_append] at hn ⊢
        rw [hn]; rfl)
      have hsp : specSwap a b l = I1 ++ y :: (I2 ++ x :: I3) := by
        unfold specSwap
        rw [hl, find_split hx (fun z hz' => (hz z (by simp [hz'])).1), find_two hx hy hab hz]
        exact hmap.1
      refine fin d1 d2 _ n (hnext S1 _ n rfl ?_) e1 e2 g2 (em1.trans em2) p2 ?_ ?_
        (by intro n; simp only [List.mem_append, List.mem_cons]; grind)
      · simp only [flat, List.flatMap_append] at hn ⊢
        rw [hn]; rfl
      · rw [hsp]
        simp only [itemsOf_append, itemsOf_item, hS1, hS2, hS3]
        simp [itemsOf]
      · rw [hl]
        simp only [itemsOf_append, itemsOf_item, hS1, hS2, hS3]
        refine List.Perm.append_left _ ?_
        have h1 : List.Perm (y :: (I2 ++ [x] ++ I3)) (y :: (x :: (I2 ++ I3))) := by
          refine List.Perm.cons _ ?_
          rw [List.append_assoc]; exact List.perm_middle
        refine h1.trans ((List.Perm.swap _ _ _).trans (List.Perm.cons _ ?_))
        exact List.perm_middle.symm
    · -- the second one is before the first one
      obtain ⟨S1, T, rfl, hS1, hT⟩ := segs_split (hit.trans hl)
      obtain ⟨S2, S3, rfl, hS2, hS3⟩ := segs_split hT
      obtain ⟨n, hn⟩ : ∃ n, (flat S3 ++ s.list.listEnd :: post).head? = some n := by
        cases flat S3 <;> simp
      have hgeo' : Geo s.dom s.list.container s.list.listStart s.list.listEnd pre
          (S1 ++ (.item y :: S2) ++ .item x :: S3) post := by
        have : S1 ++ Seg.item y :: (S2 ++ Seg.item x :: S3) = S1 ++ (.item y :: S2) ++ .item x :: S3 := by simp
        rw [← this]; exact hgeo
      obtain ⟨d1, e1, g1, em1, p1⟩ := geo_left (r := y.start) hgeo' hg.proper (by
        simp [flat, Seg.nodes, Item.nodes])
      have g1' : Geo d1 s.list.container s.list.listStart s.list.listEnd pre
          ((S1 ++ [.item x]) ++ .item y :: (S2 ++ S3)) post := by
        have : S1 ++ Seg.item x :: (Seg.item y :: S2 ++ S3) = (S1 ++ [.item x]) ++ .item y :: (S2 ++ S3) := by simp
        rw [← this]; exact g1
      obtain ⟨d2, e2, g2, em2, p2⟩ := geo_right (r := n) g1' p1 hn
      have hsp : specSwap a b l = I1 ++ x :: (I2 ++ y :: I3) := by
        have hz' : ∀ z ∈ I1 ++ I2 ++ I3, z.key ≠ b ∧ z.key ≠ a := fun z h => ⟨(hz z h).2, (hz z h).1⟩
        unfold specSwap
        rw [hl, find_two hy hx (fun e => hab e.symm) hz', find_split hy (fun z hz'' => (hz z (by simp [hz''])).2)]
        exact hmap.2
      refine fin d1 d2 _ n (hnext (S1 ++ .item y :: S2) S3 n (by simp) hn) e1 e2 g2 (em1.trans em2) p2 ?_ ?_
        (by intro n; simp only [List.mem_append, List.mem_cons]; grind)
      · rw [hsp]
        simp only [itemsOf_append, itemsOf_item, hS1, hS2, hS3]
        simp [itemsOf]
      · rw [hl]
        simp only [itemsOf_append, itemsOf_item, hS1, hS2, hS3]
        simp only [itemsOf, List.filterMap_nil, List.append_assoc, List.cons_append, List.nil_append]
        refine List.Perm.append_left _ ?_
        have h1 : List.Perm (x :: (I2 ++ y :: I3)) (x :: (y :: (I2 ++ I3))) :=
          List.Perm.cons _ List.perm_middle
        refine h1.trans ((List.Perm.swap _ _ _).trans (List.Perm.cons _ ?_))
        exact List.perm_middle.symm

end Verif.Lists
