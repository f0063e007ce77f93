import Verif.Lists.Items
import Verif.Lists.Calls
import Verif.Dom.ContextLemmas
/-! # Lemmas for the items of a DynamicList -/
namespace Verif.Lists
open Verif.Dom

/-! ## the plain list does not look at the content -/

section
variable {f : Item → Item} (hf : ∀ x, (f x).key = x.key)
include hf

theorem find_map (k : Key) (l : List Item) : find k (l.map f) = (find k l).map f := by
  unfold find
  rw [List.find?_map]
  congr 1
  apply congrArg (fun p => List.find? p l)
  funext x
  simp [hf]

theorem without_map (k : Key) (l : List Item) : without k (l.map f) = (without k l).map f := by
  unfold without
  rw [List.filter_map]
  congr 2
  funext x
  simp [hf]

theorem placeBefore_map (x : Item) (b : Key) (l : List Item) :
    placeBefore (f x) b (l.map f) = (placeBefore x b l).map f := by
  induction l with
  | nil => rfl
  | cons y ys ih =>
    simp only [List.map_cons, placeBefore, hf]
    split
    · rfl
    · rw [ih]; rfl

theorem place_map (x : Item) (b : Option Key) (l : List Item) : place (f x) b (l.map f) = (place x b l).map f := by
  cases b with
  | none => simp [place]
  | some b => exact placeBefore_map hf x b l

theorem specStep_map {l : List Item} {op : Op} (hc : ∀ k ns, op ≠ .content k ns)
    (hi : ∀ k b x y, op = .insert k b x y → f ⟨k, x, y, []⟩ = ⟨k, x, y, []⟩) :
    specStep (l.map f) op = (specStep l op).map f := by
  cases op with
  | insert k b x y =>
    have e := hi k b x y rfl
    simp only [specStep, specInsert]
    split
    · rw [List.map_map, List.map_map]
      apply List.map_congr_left
      intro z _
      simp only [Function.comp, hf]
      split
      · rw [e]
      · rfl
    · rw [without_map hf]
      conv => lhs; rw [← e]
      exact place_map hf _ _ _
  | remove k => exact without_map hf k l
  | moveBefore k b =>
    simp only [specStep, specMove, find_map hf]
    cases find k l with
    | none => rfl
    | some x =>
      simp only [Option.map_some]
      rw [without_map hf, place_map hf]
  | swap a b =>
    simp only [specStep, specSwap, find_map hf]
    cases find a l with
    | none => rfl
    | some x =>
      cases find b l with
      | none => rfl
      | some y =>
        simp only [Option.map_some]
        rw [List.map_map, List.map_map]
        apply List.map_congr_left
        intro z _
        simp only [Function.comp, hf]
        split
        · rfl
        · split <;> rfl
  | retain p =>
    simp only [specStep]
    rw [List.filter_map]
    congr 2
    funext x
    simp [hf]
  | content k ns => exact absurd rfl (hc k ns)
  | _ => rfl

theorem specAnswer_map (l : List Item) (op : Op) : specAnswer (l.map f) op = specAnswer l op := by
  cases op <;> simp [specAnswer, find_map hf]

theorem has_map {l : List Item} {k : Key} : Has (l.map f) k ↔ Has l k := by
  constructor
  · rintro ⟨x, hx, rfl⟩
    obtain ⟨y, hy, rfl⟩ := List.mem_map.1 hx
    exact ⟨y, hy, (hf y).symm⟩
  · rintro ⟨x, hx, rfl⟩
    exact ⟨f x, List.mem_map_of_mem hx, hf x⟩

theorem directlyBefore_map {l : List Item} {a b : Key} : directlyBefore a b (l.map f) ↔ directlyBefore a b l := by
  unfold directlyBefore
  rw [List.map_map]
  have : (Item.key ∘ f) = Item.key := by funext x; simp [hf]
  rw [show ((fun x : Item => x.key) ∘ f) = fun x : Item => x.key from this]

end

/-! ## which items a call takes out -/

/-- The call takes the item out of the list. -/
def Gone : Op → Item → Prop
  | .insert k _ _ _, x => x.key = k
  | .remove k, x => x.key = k
  | .retain p, x => p x.key = false
  | _, _ => False

def newItem : Op → Option Item
  | .insert k _ x y => some ⟨k, x, y, []⟩
  | _ => none

theorem mem_placeBefore_iff {x y : Item} {b : Key} {l : List Item} (h : Has l b) :
    y ∈ placeBefore x b l ↔ y = x ∨ y ∈ l := by
  induction l with
  | nil => obtain ⟨z, hz, -⟩ := h; cases hz
  | cons z zs ih =>
    unfold placeBefore
    split
    · simp
    · rename_i hz
      have : Has zs b := by
        obtain ⟨w, hw, hk⟩ := h
        rcases List.mem_cons.1 hw with rfl | hw
        · exact absurd hk hz
        · exact ⟨w, hw, hk⟩
      rw [List.mem_cons, ih this, List.mem_cons]
      grind

theorem mem_place_iff {x y : Item} {b : Option Key} {l : List Item} (h : ∀ k, b = some k → Has l k) :
    y ∈ place x b l ↔ y = x ∨ y ∈ l := by
  cases b with
  | none => simp [place, or_comm]
  | some b => exact mem_placeBefore_iff (h b rfl)

theorem mem_without {k : Key} {l : List Item} {y : Item} : y ∈ without k l ↔ y ∈ l ∧ y.key ≠ k := by
  simp [without, List.mem_filter]

theorem has_without {k k' : Key} {l : List Item} (h : Has l k') (hne : k' ≠ k) : Has (without k l) k' := by
  obtain ⟨x, hx, rfl⟩ := h
  exact ⟨x, mem_without.2 ⟨hx, hne⟩, rfl⟩

theorem key_inj {l : List Item} (hk : (l.map Item.key).Nodup) {x y : Item} (hx : x ∈ l) (hy : y ∈ l)
    (h : x.key = y.key) : x = y := by
  induction l with
  | nil => cases hx
  | cons z zs ih =>
    simp only [List.map_cons, List.nodup_cons] at hk
    rcases List.mem_cons.1 hx with rfl | hx' <;> rcases List.mem_cons.1 hy with rfl | hy'
    · rfl
    · exact absurd (h ▸ List.mem_map_of_mem hy') hk.1
    · exact absurd (h ▸ List.mem_map_of_mem hx') hk.1
    · exact ih hk.2 hx' hy'

theorem mem_specStep {l : List Item} {op : Op} {y : Item} (hk : (l.map Item.key).Nodup) (hok : CallOk l op) :
    y ∈ specStep l op ↔ newItem op = some y ∨ (y ∈ l ∧ ¬ Gone op y) := by
  cases op with
  | insert k b x z =>
    simp only [specStep, specInsert, newItem, Gone, Option.some.injEq]
    split
    · rename_i hb
      obtain ⟨w, hw, hwk⟩ := hok k hb
      rw [List.mem_map]
      constructor
      · rintro ⟨v, hv, rfl⟩
        split
        · exact .inl rfl
        · rename_i h; exact .inr ⟨hv, h⟩
      · rintro (rfl | ⟨h1, h2⟩)
        · exact ⟨w, hw, by rw [if_pos hwk]⟩
        · exact ⟨y, h1, by rw [if_neg h2]⟩
    · rename_i hb
      rw [mem_place_iff, mem_without]
      · exact or_congr_left eq_comm
      · intro k' hk'
        refine has_without (hok k' hk') ?_
        rintro rfl
        exact hb hk'
  | remove k => simp [specStep, newItem, Gone, mem_without]
  | moveBefore k b =>
    obtain ⟨w, hw, hwk⟩ := hok.1
    simp only [specStep, specMove, newItem, Gone, not_false_eq_true, and_true, reduceCtorEq, false_or]
    split
    · rename_i x hx
      obtain ⟨h1, h2⟩ := find_mem hx
      rw [mem_place_iff, mem_without]
      · constructor
        · rintro (rfl | h)
          · exact h1
          · exact h.1
        · intro h
          by_cases e : y.key = k
          · exact .inl (key_inj hk h h1 (e.trans h2.symm))
          · exact .inr ⟨h, e⟩
      · intro k' hk'
        obtain ⟨h3, h4⟩ := hok.2 k' hk'
        exact has_without h3 h4
    · exact Iff.rfl
  | swap a b =>
    obtain ⟨⟨u, hu, hua⟩, ⟨v, hv, hvb⟩, -⟩ := hok
    simp only [specStep, specSwap, newItem, Gone, not_false_eq_true, and_true, reduceCtorEq, false_or]
    split
    · rename_i x z hx hz
      obtain ⟨h1, h2⟩ := find_mem hx
      obtain ⟨h3, h4⟩ := find_mem hz
      rw [List.mem_map]
      constructor
      · rintro ⟨w, hw, rfl⟩
        split
        · exact h3
        · split
          · exact h1
          · exact hw
      · intro h
        by_cases ea : y.key = a
        · have : y = x := key_inj hk h h1 (ea.trans h2.symm)
          subst this
          by_cases hab : b = a
          · subst hab
            exact ⟨y, h, by rw [if_pos ea]; exact key_inj hk h3 h (h4.trans ea.symm)⟩
          · exact ⟨z, h3, by rw [if_neg (by rw [h4]; exact hab), if_pos h4]⟩
        · by_cases eb : y.key = b
          · have : y = z := key_inj hk h h3 (eb.trans h4.symm)
            subst this
            exact ⟨x, h1, by rw [if_pos h2]⟩
          · exact ⟨y, h, by rw [if_neg ea, if_neg eb]⟩
    · exact Iff.rfl
  | retain p => simp [specStep, newItem, Gone, List.mem_filter]
  | _ => exact hok.elim

theorem mem_specLeft {l : List Item} {left : List NodeId} {op : Op} {n : NodeId} (hk : (l.map Item.key).Nodup)
    (hc : op.isCall = true) :
    n ∈ specLeft l left op ↔ n ∈ left ∨ ∃ x ∈ l, Gone op x ∧ n ∈ x.content := by
  have key : ∀ k, n ∈ (match find k l with | some x => x.content ++ left | none => left) ↔
      n ∈ left ∨ ∃ x ∈ l, x.key = k ∧ n ∈ x.content := by
    intro k
    cases hx : find k l with
    | none =>
      refine ⟨.inl, ?_⟩
      rintro (h | ⟨x, h1, h2, -⟩)
      · exact h
      · exact absurd ⟨x, h1, h2⟩ (find_none.1 hx)
    | some x =>
      obtain ⟨h1, h2⟩ := find_mem hx
      rw [List.mem_append, or_comm]
      refine or_congr_right ⟨fun h => ⟨x, h1, h2, h⟩, ?_⟩
      rintro ⟨y, h3, h4, h5⟩
      rwa [key_inj hk h1 h3 (h2.trans h4.symm)]
  cases op with
  | insert k b x y => exact key k
  | remove k => exact key k
  | retain p =>
    simp only [specLeft, Gone, List.mem_append, List.mem_flatMap, List.mem_filter, Bool.not_eq_true']
    rw [or_comm]
    refine or_congr_right ?_
    constructor
    · rintro ⟨x, ⟨h1, h2⟩, h3⟩; exact ⟨x, h1, h2, h3⟩
    · rintro ⟨x, h1, h2, h3⟩; exact ⟨x, ⟨h1, h2⟩, h3⟩
  | moveBefore => simp [specLeft, Gone]
  | swap => simp [specLeft, Gone]
  | _ => cases hc

/-! ## which nodes are where -/

def orphansOf (segs : List Seg) : List NodeId := segs.flatMap fun
  | .item _ => []
  | .orphan n => [n]

theorem mem_orphansOf {segs : List Seg} {n : NodeId} : n ∈ orphansOf segs ↔ Seg.orphan n ∈ segs := by
  unfold orphansOf
  rw [List.mem_flatMap]
  constructor
  · rintro ⟨g, hg, h⟩
    cases g with
    | item => cases h
    | orphan m => rw [List.mem_singleton] at h; subst h; exact hg
  · intro h; exact ⟨_, h, by simp⟩

theorem flat_perm (segs : List Seg) : (flat segs).Perm
    ((itemsOf segs).flatMap (fun x => [x.start, x.stop]) ++ ((itemsOf segs).flatMap Item.content ++ orphansOf segs)) := by
  induction segs with
  | nil => exact List.Perm.refl _
  | cons g gs ih =>
    cases g with
    | orphan n =>
      have e1 : flat (.orphan n :: gs) = n :: flat gs := rfl
      have e2 : itemsOf (.orphan n :: gs) = itemsOf gs := rfl
      have e3 : orphansOf (.orphan n :: gs) = n :: orphansOf gs := rfl
      rw [e1, e2, e3, ← List.append_assoc]
      refine List.Perm.trans ?_ List.perm_middle.symm
      rw [List.append_assoc]
      exact ih.cons n
    | item x =>
      have e1 : flat (.item x :: gs) = x.start :: (x.content ++ [x.stop] ++ flat gs) := rfl
      have e2 : itemsOf (.item x :: gs) = x :: itemsOf gs := rfl
      have e3 : orphansOf (.item x :: gs) = orphansOf gs := rfl
      rw [e1, e2, e3]
      simp only [List.flatMap_cons, List.cons_append, List.nil_append, List.append_assoc]
      refine List.Perm.cons _ ?_
      have p1 : (x.content ++ x.stop :: flat gs).Perm (x.stop :: (x.content ++ flat gs)) := List.perm_middle
      refine p1.trans (List.Perm.cons _ ?_)
      refine (ih.append_left x.content).trans ?_
      rw [← List.append_assoc, ← List.append_assoc _ x.content]
      exact List.perm_append_comm.append_right _

/-- Everything in the list is in the container, and the markers, the content of the items and what was
left behind are different nodes. -/
theorem good_nodes {s : Sys} {l : List Item} {left : List NodeId} (hg : Good s l left) :
    ∃ O : List NodeId, (∀ n, n ∈ O ↔ n ∈ left) ∧
      (s.list.listStart :: s.list.listEnd :: (l.flatMap (fun x => [x.start, x.stop]) ++ (l.flatMap Item.content ++ O))).Nodup ∧
      ∀ n ∈ s.list.listStart :: s.list.listEnd :: (l.flatMap (fun x => [x.start, x.stop]) ++ (l.flatMap Item.content ++ O)),
        n ∈ s.dom.kids s.list.container := by
  obtain ⟨pre, segs, post, hgeo, hit, -, hor⟩ := hg.geo
  refine ⟨orphansOf segs, fun n => mem_orphansOf.trans (hor n), ?_, ?_⟩
  · have hnd := hg.proper.1 s.list.container
    rw [hgeo, List.nodup_append] at hnd
    have h2 := hnd.2.1
    have hp := flat_perm segs
    rw [hit] at hp
    rw [List.nodup_cons] at h2 ⊢
    have h3 := (List.perm_middle (a := s.list.listEnd) (l₁ := flat segs) (l₂ := post)).nodup_iff.1 h2.2
    have h4 : (s.list.listEnd :: flat segs).Nodup := by
      rw [List.nodup_cons, List.nodup_append] at h3
      rw [List.nodup_cons]
      exact ⟨fun h => h3.1 (by simp [h]), h3.2.1⟩
    refine ⟨?_, ((hp.cons s.list.listEnd).nodup_iff).1 h4⟩
    intro h
    rw [← (hp.cons s.list.listEnd).mem_iff] at h
    apply h2.1
    simp only [List.mem_append, List.mem_cons] at h ⊢
    grind
  · intro n hn
    have hp := flat_perm segs
    rw [hit] at hp
    rw [List.mem_cons, ← (hp.cons s.list.listEnd).mem_iff] at hn
    rw [hgeo]
    simp only [List.mem_append, List.mem_cons] at hn ⊢
    grind

theorem good_congr {s : Sys} {l : List Item} {left left' : List NodeId} (hg : Good s l left)
    (h : ∀ n, n ∈ left ↔ n ∈ left') : Good s l left' := by
  obtain ⟨h1, ⟨pre, segs, post, g1, g2, g3, g4⟩, h3, h4, h5⟩ := hg
  exact ⟨h1, ⟨pre, segs, post, g1, g2, g3, fun n => (g4 n).trans (h n)⟩, h3, h4, h5⟩

/-! ## taking nodes of items away -/

def keepSeg (q : NodeId → Bool) : Seg → Option Seg
  | .item x => some (.item { x with content := x.content.filter q })
  | .orphan n => if q n then some (.orphan n) else none

theorem keep_flat {q : NodeId → Bool} {segs : List Seg} (h : ∀ x ∈ itemsOf segs, q x.start = true ∧ q x.stop = true) :
    flat (segs.filterMap (keepSeg q)) = (flat segs).filter q := by
  induction segs with
  | nil => rfl
  | cons g gs ih =>
    cases g with
    | orphan n =>
      have ih' := ih h
      have e1 : flat (.orphan n :: gs) = n :: flat gs := rfl
      rw [e1, List.filterMap_cons, List.filter_cons]
      simp only [keepSeg]
      split
      · rename_i hq
        split at hq
        · cases hq
        · rename_i hq'; rw [if_neg (by simpa using hq'), ih']
      · rename_i g hq
        split at hq
        · rename_i hq'
          cases hq
          rw [if_pos hq', ← ih']; rfl
        · cases hq
    | item x =>
      have ih' := ih (fun y hy => h y (by rw [itemsOf_item]; exact List.mem_cons_of_mem _ hy))
      obtain ⟨h1, h2⟩ := h x (by rw [itemsOf_item]; simp)
      have e1 : flat (.item x :: gs) = x.nodes ++ flat gs := rfl
      have e2 : (Seg.item x :: gs).filterMap (keepSeg q) =
        .item { x with content := x.content.filter q } :: gs.filterMap (keepSeg q) := rfl
      rw [e1, e2, List.filter_append, ← ih']
      simp only [flat, List.flatMap_cons, Seg.nodes, Item.nodes]
      simp [h1, h2]

theorem keep_items {q : NodeId → Bool} {segs : List Seg} : itemsOf (segs.filterMap (keepSeg q)) =
    (itemsOf segs).map fun x => { x with content := x.content.filter q } := by
  induction segs with
  | nil => rfl
  | cons g gs ih =>
    cases g with
    | orphan n =>
      rw [List.filterMap_cons]
      simp only [keepSeg]
      split
      · exact ih
      · rename_i g hq
        split at hq
        · cases hq; exact ih
        · cases hq
    | item x =>
      have e2 : (Seg.item x :: gs).filterMap (keepSeg q) =
        .item { x with content := x.content.filter q } :: gs.filterMap (keepSeg q) := rfl
      rw [e2, itemsOf_item, itemsOf_item, List.map_cons, ih]

theorem keep_orphan {q : NodeId → Bool} {segs : List Seg} {n : NodeId} :
    Seg.orphan n ∈ segs.filterMap (keepSeg q) ↔ Seg.orphan n ∈ segs ∧ q n = true := by
  rw [List.mem_filterMap]
  constructor
  · rintro ⟨g, hg, h⟩
    cases g with
    | item x => simp [keepSeg] at h
    | orphan m =>
      simp only [keepSeg] at h
      split at h
      · rename_i hq
        cases h
        exact ⟨hg, hq⟩
      · cases h
  · rintro ⟨h1, h2⟩
    exact ⟨_, h1, by simp [keepSeg, h2]⟩

theorem good_filter {s : Sys} {l : List Item} {left : List NodeId} (hg : Good s l left) {q : NodeId → Bool}
    (hs : q s.list.listStart = true) (he : q s.list.listEnd = true)
    (hm : ∀ x ∈ l, q x.start = true ∧ q x.stop = true) :
    Good ⟨⟨fun c => if c = s.list.container then (s.dom.kids c).filter q else s.dom.kids c⟩, s.list⟩
      (l.map fun x => { x with content := x.content.filter q }) (left.filter q) := by
  obtain ⟨pre, segs, post, hgeo, hit, hfr, hor⟩ := hg.geo
  refine ⟨?_, ⟨pre.filter q, segs.filterMap (keepSeg q), post.filter q, ?_, ?_, ?_, ?_⟩, ?_, ?_, ?_⟩
  · refine proper_sub hg.proper fun x => ?_
    show List.Sublist (if x = s.list.container then _ else _) _
    split
    · exact List.filter_sublist
    · exact List.Sublist.refl _
  · unfold Geo at hgeo ⊢
    simp only [if_true]
    rw [hgeo, keep_flat (by rw [hit]; exact hm)]
    simp [hs, he]
  · rw [keep_items, hit]
  · intro h
    obtain ⟨rfl, rfl⟩ := hfr h
    exact ⟨rfl, rfl⟩
  · intro n
    rw [keep_orphan, hor, List.mem_filter]
  · rw [List.map_map]; exact hg.perm
  · rw [List.map_map]; exact hg.keys
  · intro h
    show (if s.list.frag = s.list.container then _ else _) = _
    rw [if_neg (fun e => h e.symm)]
    exact hg.empty h

/-! ## showing a node -/

theorem good_set {s : Sys} {l : List Item} {left : List NodeId} (hg : Good s l left) {x : Item} (hx : x ∈ l) {ns : List NodeId}
    (hnd : ns.Nodup) (hns : ∀ n ∈ ns, n ∈ x.content ∨ Fresh s.dom n) :
    ∃ P Q, s.dom.kids s.list.container = P ++ x.start :: (x.content ++ x.stop :: Q) ∧
      Good ⟨⟨fun c => if c = s.list.container then P ++ x.start :: (ns ++ x.stop :: Q) else s.dom.kids c⟩, s.list⟩
        (specContent x.key ns l) left := by
  obtain ⟨pre, segs, post, hgeo, hit, hfr, hor⟩ := hg.geo
  obtain ⟨I1, I2, eI⟩ := List.append_of_mem hx
  obtain ⟨S1, S2, rfl, hS1, hS2⟩ := segs_split (hit.trans eI)
  have hpn := hg.proper.1 s.list.container
  have hk1 : s.dom.kids s.list.container = (pre ++ s.list.listStart :: flat S1) ++ x.start ::
      (x.content ++ x.stop :: (flat S2 ++ s.list.listEnd :: post)) := by
    rw [hgeo]; simp [flat, Seg.nodes, Item.nodes]
  refine ⟨_, _, hk1, ?_⟩
  have hk2 : s.dom.kids s.list.container = ((pre ++ s.list.listStart :: flat S1) ++ x.start :: x.content) ++ x.stop ::
      (flat S2 ++ s.list.listEnd :: post) := by
    rw [hk1]; simp
  have hset : setBetween x.start x.stop ns (s.dom.kids s.list.container) =
      (pre ++ s.list.listStart :: flat S1) ++ x.start :: (ns ++ x.stop :: (flat S2 ++ s.list.listEnd :: post)) := by
    unfold setBetween
    have h1 : x.start ∉ pre ++ s.list.listStart :: flat S1 := by
      rw [hk1, List.nodup_append] at hpn
      exact fun h => hpn.2.2 _ h _ (by simp) rfl
    have h2 : x.stop ∉ (pre ++ s.list.listStart :: flat S1) ++ x.start :: x.content := by
      rw [hk2, List.nodup_append] at hpn
      exact fun h => hpn.2.2 _ h _ (by simp) rfl
    conv => lhs; arg 1; rw [hk1, takeWhile_ne h1]
    rw [hk2, dropWhile_ne h2]
  obtain ⟨s', e1, g1⟩ := good_content hg (k := x.key) (ns := ns) ⟨x, hx, rfl, hnd, hns⟩
  have hget := get_of_mem hg.perm hg.keys hx
  simp only [step, hget, Option.map_some, Option.some.injEq, Prod.mk.injEq, and_true, Item.stored] at e1
  rw [← e1] at g1
  have e2 : (fun c => if c = s.list.container then setBetween x.start x.stop ns (s.dom.kids c) else s.dom.kids c) =
      fun c => if c = s.list.container then (pre ++ s.list.listStart :: flat S1) ++ x.start ::
        (ns ++ x.stop :: (flat S2 ++ s.list.listEnd :: post)) else s.dom.kids c := by
    funext c
    by_cases h : c = s.list.container
    · rw [if_pos h, if_pos h, h, hset]
    · rw [if_neg h, if_neg h]
  rw [e2] at g1
  exact g1

end Verif.Lists
