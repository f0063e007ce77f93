import Verif.Lists.Work
import Verif.Lists.ModeledProps
import Verif.Lists.DiffedProps
/-! # Lemmas: the counted functions are those of the model, and what they cost -/
namespace Verif.Lists
open Verif.Dom

/-- `x` does what `o` does, with at most `k` elementary operations. -/
def Counts {α : Type} (x : W α) (o : Option α) (k : Nat) : Prop :=
  ∀ n, (o = none → x n = none) ∧ ∀ a, o = some a → ∃ c, c ≤ k ∧ x n = some (a, n + c)

theorem Counts.mono {α : Type} {x : W α} {o : Option α} {k k' : Nat} (h : Counts x o k) (hk : k ≤ k') :
    Counts x o k' := by
  intro n
  refine ⟨(h n).1, fun a ha => ?_⟩
  obtain ⟨c, hc, e⟩ := (h n).2 a ha
  exact ⟨c, by omega, e⟩

theorem counts_pure {α : Type} (a : α) : Counts (pure a : W α) (some a) 0 := by
  intro n
  exact ⟨fun h => (by cases h), fun b h => ⟨0, Nat.le_refl _, by cases h; rfl⟩⟩

theorem counts_tick (k : Nat) : Counts (tick k) (some ()) k := by
  intro n
  exact ⟨fun h => (by cases h), fun b _ => ⟨k, Nat.le_refl _, rfl⟩⟩

theorem counts_free {α : Type} (o : Option α) : Counts (free o) o 0 := by
  intro n
  refine ⟨fun h => by subst h; rfl, fun a h => ⟨0, Nat.le_refl _, by subst h; rfl⟩⟩

theorem counts_bind {α β : Type} {x : W α} {o : Option α} {f : α → W β} {g : α → Option β} {k k' : Nat}
    (h : Counts x o k) (hf : ∀ a, o = some a → Counts (f a) (g a) k') : Counts (x >>= f) (o.bind g) (k + k') := by
  intro n
  cases o with
  | none =>
    refine ⟨fun _ => ?_, fun a ha => by cases ha⟩
    show (x n).bind _ = none
    rw [(h n).1 rfl]
    rfl
  | some a =>
    obtain ⟨c, hc, e⟩ := (h n).2 a rfl
    have hb : (x >>= f) n = f a (n + c) := by
      show (x n).bind _ = _
      rw [e]
      rfl
    rw [hb]
    refine ⟨(hf a rfl (n + c)).1, fun b hb => ?_⟩
    obtain ⟨c', hc', e'⟩ := (hf a rfl (n + c)).2 b hb
    exact ⟨c + c', by omega, by rw [e']; simp [Nat.add_assoc]⟩

/-- a step that is counted before the rest -/
theorem counts_then {α : Type} {f : W α} {o : Option α} {k k' : Nat} (h : Counts f o k') :
    Counts (tick k >>= fun _ => f) o (k + k') :=
  counts_bind (g := fun _ => o) (counts_tick k) (fun _ _ => h)

theorem counts_domCall (o : Option Dom) : Counts (domCall o) o 1 := counts_then (counts_free o)

theorem counts_removeMarkers (d : Dom) (c : NodeId) (x : Stored) :
    Counts (removeMarkersW d c x) (removeMarkers d c x) 2 :=
  counts_bind (counts_domCall _) (fun _ _ => counts_domCall _)

theorem counts_moveLoop (src dst stop : NodeId) (after : Option NodeId) (fuel : Nat) : ∀ (d : Dom) (node : NodeId),
    Counts (moveLoopW src dst stop after fuel d node) (moveLoop src dst stop after fuel d node) (3 * fuel) := by
  induction fuel with
  | zero => intro d node; exact counts_free none
  | succ fuel ih =>
    intro d node
    refine Counts.mono (k := 1 + (1 + (1 + 3 * fuel))) (counts_then (counts_bind (counts_domCall _) fun d1 _ =>
      counts_then ?_)) (by omega)
    by_cases h : node = stop
    · rw [if_pos h, if_pos h]
      exact (counts_pure _).mono (by omega)
    · rw [if_neg h, if_neg h]
      cases nextIn node (d.kids src) with
      | none => exact (counts_free none).mono (by omega)
      | some n => exact ih d1 n

/-- more fuel changes nothing once the loop has ended -/
theorem moveLoopW_fuel (src dst stop : NodeId) (after : Option NodeId) (f : Nat) :
    ∀ (fuel : Nat) (d : Dom) (node : NodeId) (n : Nat) (r : Dom × Nat), f ≤ fuel →
      moveLoopW src dst stop after f d node n = some r → moveLoopW src dst stop after fuel d node n = some r := by
  induction f with
  | zero => intro fuel d node n r _ h; cases h
  | succ f ih =>
    intro fuel d node n r hf h
    cases fuel with
    | zero => omega
    | succ fuel =>
      change ((domCall (d.insertBefore dst node after)) (n + 1)).bind _ = some r at h
      change ((domCall (d.insertBefore dst node after)) (n + 1)).bind _ = some r
      rw [Option.bind_eq_some_iff] at h ⊢
      obtain ⟨⟨d1, n1⟩, h1, h2⟩ := h
      refine ⟨(d1, n1), h1, ?_⟩
      by_cases hs : node = stop
      · simp only [hs, if_true] at h2 ⊢
        exact h2
      · simp only [if_neg hs] at h2 ⊢
        cases hn : nextIn node (d.kids src) with
        | none => rw [hn] at h2; cases h2
        | some m =>
          rw [hn] at h2
          exact ih fuel d1 m (n1 + 1) r (by omega) h2

theorem moveLoop_fuel {src dst stop : NodeId} {after : Option NodeId} {f fuel : Nat} {d d' : Dom} {node : NodeId}
    (hf : f ≤ fuel) (h : moveLoop src dst stop after f d node = some d') :
    Counts (moveLoopW src dst stop after fuel d node) (moveLoop src dst stop after fuel d node) (3 * f) := by
  have hc : ∀ n, ∃ c, c ≤ 3 * f ∧ moveLoopW src dst stop after fuel d node n = some (d', n + c) := by
    intro n
    obtain ⟨c, hc, e⟩ := (counts_moveLoop src dst stop after f d node n).2 d' h
    exact ⟨c, hc, moveLoopW_fuel _ _ _ _ _ _ _ _ _ _ hf e⟩
  intro n
  obtain ⟨c, hc, e⟩ := hc n
  have h0 := counts_moveLoop src dst stop after fuel d node n
  refine ⟨fun hn => (by rw [h0.1 hn] at e; cases e), fun a ha => ?_⟩
  obtain ⟨c', -, e'⟩ := h0.2 a ha
  rw [e] at e'
  simp only [Option.some.injEq, Prod.mk.injEq] at e'
  exact ⟨c, hc, by rw [e, e'.1]⟩

/-- a block moved before a child outside it -/
theorem counts_block {d : Dom} {c r start stop : NodeId} {A B rest : List NodeId}
    (hk : d.kids c = A ++ (start :: rest) ++ B) (hd : (d.kids c).Nodup) (hl : (start :: rest).getLast? = some stop)
    (hr : r ∈ A ∨ r ∈ B) :
    Counts (moveNodesW d c c start stop (some r)) (moveNodes d c c start stop (some r)) (3 * (start :: rest).length) ∧
      ∀ d', moveNodes d c c start stop (some r) = some d' → (d'.kids c).Perm (d.kids c) := by
  have hlen : (start :: rest).length ≤ (d.kids c).length + 1 := by rw [hk]; simp only [List.length_append]; omega
  rcases hr with hr | hr
  · obtain ⟨A1, A2, rfl⟩ := List.append_of_mem hr
    have hk' : d.kids c = A1 ++ [] ++ r :: (A2 ++ (start :: rest) ++ B) := by rw [hk]; simp
    obtain ⟨d1, h1, -⟩ := moveLoop_left _ _ d A1 [] A2 B start rest rfl hk' hd hl (Nat.le_refl _)
    refine ⟨moveLoop_fuel hlen h1, ?_⟩
    intro d' h'
    obtain ⟨d2, h2, h3, -⟩ := moveLoop_left _ ((d.kids c).length + 1) d A1 [] A2 B start rest rfl hk' hd hl hlen
    have e : d' = d2 := by
      have : moveLoop c c stop (some r) ((d.kids c).length + 1) d start = some d' := h'
      rw [h2] at this; cases this; rfl
    subst e
    rw [h3, hk']
    simp only [List.append_nil, List.append_assoc]
    refine List.Perm.append_left A1 ?_
    refine (List.perm_middle (a := r) (l₁ := start :: rest) (l₂ := A2 ++ B)).trans (List.Perm.cons r ?_)
    rw [← List.append_assoc, ← List.append_assoc]
    exact List.Perm.append_right B List.perm_append_comm
  · obtain ⟨B1, B2, rfl⟩ := List.append_of_mem hr
    have hk' : d.kids c = A ++ (start :: rest) ++ B1 ++ [] ++ r :: B2 := by rw [hk]; simp
    obtain ⟨d1, h1, -⟩ := moveLoop_right _ _ d A B1 [] B2 start rest rfl hk' hd hl (Nat.le_refl _)
    refine ⟨moveLoop_fuel hlen h1, ?_⟩
    intro d' h'
    obtain ⟨d2, h2, h3, -⟩ := moveLoop_right _ ((d.kids c).length + 1) d A B1 [] B2 start rest rfl hk' hd hl hlen
    have e : d' = d2 := by
      have : moveLoop c c stop (some r) ((d.kids c).length + 1) d start = some d' := h'
      rw [h2] at this; cases this; rfl
    subst e
    rw [h3, hk']
    simp only [List.append_nil, List.append_assoc]
    refine List.Perm.append_left A ?_
    rw [← List.append_assoc, ← List.append_assoc]
    exact List.Perm.append_right (r :: B2) List.perm_append_comm

/-! ## the calls -/

theorem counts_insert (d : Dom) (L : DynList) (k : Key) (b : Option Key) (x y : NodeId) :
    Counts (insertW d L k b x y) (insert d L k b x y) 10 := by
  refine Counts.mono (k := 2 + (1 + (0 + (1 + (1 + (1 + (1 + 3))))))) ?_ (by omega)
  refine counts_then (counts_then (counts_bind (counts_free _) fun r _ => counts_bind (counts_domCall _) fun d1 _ =>
    counts_bind (counts_domCall _) fun d2 _ => counts_then (counts_then ?_)))
  cases L.get k with
  | none => exact (counts_pure _).mono (by omega)
  | some old =>
    exact (counts_then (k := 1) (k' := 2 + 0) (counts_bind (counts_removeMarkers _ _ _) fun _ _ => counts_pure _)).mono (by omega)

theorem counts_remove (d : Dom) (L : DynList) (k : Key) : Counts (removeW d L k) (remove d L k) 4 := by
  refine Counts.mono (k := 1 + 3) (counts_then ?_) (by omega)
  unfold remove
  cases L.get k with
  | none => exact (counts_pure _).mono (by omega)
  | some old =>
    exact (counts_then (k := 1) (k' := 2 + 0) (counts_bind (counts_removeMarkers _ _ _) fun _ _ => counts_pure _)).mono (by omega)

theorem counts_retainLoop (c : NodeId) (keep : Key → Bool) (es : List (Key × Stored)) : ∀ (d : Dom),
    Counts (retainLoopW c keep es d) (retainLoop c keep es d) (4 * es.length) := by
  induction es with
  | nil => intro d; exact counts_pure d
  | cons e es ih =>
    intro d
    refine Counts.mono (k := 2 + (2 + 4 * es.length)) (counts_then ?_) (by simp only [List.length_cons]; omega)
    unfold retainLoop
    by_cases h : keep e.1 = true
    · rw [if_pos h, if_pos h]
      exact (ih d).mono (by omega)
    · rw [if_neg h, if_neg h]
      exact counts_bind (counts_removeMarkers _ _ _) fun d1 _ => ih d1

theorem counts_retain (d : Dom) (L : DynList) (keep : Key → Bool) :
    Counts (retainW d L keep) (retain d L keep) (4 * L.items.length) :=
  counts_bind (k' := 0) (counts_retainLoop _ _ _ _) fun _ _ => counts_pure _

/-! ## moves -/

/-- the item of a key and the children around it -/
theorem item_place {s : Sys} {l : List Item} {left : List NodeId} (hg : Good s l left) {x : Item} (hx : x ∈ l) :
    ∃ A B, s.dom.kids s.list.container = A ++ x.nodes ++ B ∧ s.list.listEnd ∈ B := by
  obtain ⟨pre, segs, post, hgeo, hit, -, -⟩ := hg.geo
  obtain ⟨I1, I2, rfl⟩ := List.append_of_mem hx
  obtain ⟨S1, S2, rfl, -, -⟩ := segs_split hit
  refine ⟨pre ++ s.list.listStart :: flat S1, flat S2 ++ s.list.listEnd :: post, ?_, by simp⟩
  rw [hgeo]
  simp [flat, Seg.nodes]

theorem items_apart {s : Sys} {l : List Item} {left : List NodeId} (hg : Good s l left) {x y : Item} (hx : x ∈ l)
    (hy : y ∈ l) (hne : x.key ≠ y.key) : ∀ n ∈ y.nodes, n ∉ x.nodes := by
  have hnd := (hg.proper.1 s.list.container).sublist (shows_sublist hg.shows)
  intro n hny hnx
  have key : ∀ (l : List Item), (l.flatMap Item.nodes).Nodup → x ∈ l → y ∈ l → False := by
    intro l
    induction l with
    | nil => intro _ h; cases h
    | cons z zs ih =>
      intro hn h1 h2
      rw [List.flatMap_cons, List.nodup_append] at hn
      rcases List.mem_cons.1 h1 with e1 | h3 <;> rcases List.mem_cons.1 h2 with e2 | h4
      · exact hne (by rw [e1, e2])
      · subst e1
        exact hn.2.2 n hnx n (List.mem_flatMap.2 ⟨y, h4, hny⟩) rfl
      · subst e2
        exact hn.2.2 n hny n (List.mem_flatMap.2 ⟨x, h3, hnx⟩) rfl
      · exact ih hn.2.1 h3 h4
  exact key l hnd hx hy

theorem around {A M B : List NodeId} {r : NodeId} (h : r ∈ A ++ M ++ B) (hn : r ∉ M) : r ∈ A ∨ r ∈ B := by
  simp only [List.mem_append] at h
  rcases h with (h | h) | h
  · exact Or.inl h
  · exact absurd h hn
  · exact Or.inr h

/-- an item moved before a child outside it -/
theorem counts_item {s : Sys} {l : List Item} {left : List NodeId} (hg : Good s l left) {x : Item} (hx : x ∈ l)
    {r : NodeId} (hr : r ∈ s.dom.kids s.list.container) (hn : r ∉ x.nodes) :
    Counts (moveNodesW s.dom s.list.container s.list.container x.start x.stop (some r))
      (moveNodes s.dom s.list.container s.list.container x.start x.stop (some r)) (3 * x.nodes.length) ∧
      ∀ d', moveNodes s.dom s.list.container s.list.container x.start x.stop (some r) = some d' →
        (d'.kids s.list.container).Perm (s.dom.kids s.list.container) := by
  obtain ⟨A, B, hk, -⟩ := item_place hg hx
  rw [hk] at hr
  exact counts_block (rest := x.content ++ [x.stop]) hk (hg.proper.1 _) (nodes_last x) (around hr hn)

/-- the place before a key is not inside another item -/
theorem after_place {s : Sys} {l : List Item} {left : List NodeId} (hg : Good s l left) {x : Item} (hx : x ∈ l)
    {b : Option Key} (hb : ∀ k, b = some k → Has l k ∧ k ≠ x.key) {r : NodeId} (hr : s.list.after b = some r) :
    r ∈ s.dom.kids s.list.container ∧ r ∉ x.nodes := by
  cases b with
  | none =>
    cases hr
    obtain ⟨A, B, hk, hB⟩ := item_place hg hx
    have hnd := hg.proper.1 s.list.container
    refine ⟨by rw [hk]; exact List.mem_append_right _ hB, ?_⟩
    rw [hk, List.nodup_append] at hnd
    intro h
    exact hnd.2.2 _ (List.mem_append_right _ h) _ hB rfl
  | some k =>
    obtain ⟨⟨y, hy, rfl⟩, hne⟩ := hb k rfl
    simp only [DynList.after, get_of_mem hg.perm hg.keys hy, Option.map_some, Option.some.injEq] at hr
    subst hr
    refine ⟨(shows_sublist hg.shows).subset (List.mem_flatMap.2 ⟨y, hy, by simp [Item.nodes, Item.stored]⟩), ?_⟩
    exact items_apart hg hx hy (fun e => hne e.symm) _ (by simp [Item.nodes, Item.stored])

theorem counts_move {s : Sys} {l : List Item} {left : List NodeId} (hg : Good s l left) {x : Item} (hx : x ∈ l)
    {b : Option Key} (hb : ∀ k, b = some k → Has l k ∧ k ≠ x.key) :
    Counts (moveBeforeW s.dom s.list x.key b) (moveBefore s.dom s.list x.key b) (2 + 3 * x.nodes.length) := by
  refine Counts.mono (k := 1 + (0 + (1 + (0 + 3 * x.nodes.length)))) ?_ (by omega)
  refine counts_then (counts_bind (counts_free _) fun r hr => counts_then (counts_bind (counts_free _) fun y hy => ?_))
  rw [get_of_mem hg.perm hg.keys hx] at hy
  cases hy
  obtain ⟨h1, h2⟩ := after_place hg hx hb hr
  exact (counts_item hg hx h1 h2).1

/-- what follows an item is not the other item, unless that is directly behind it -/
theorem next_outside {s : Sys} {l : List Item} {left : List NodeId} (hg : Good s l left) {x y : Item} (hx : x ∈ l)
    (hy : y ∈ l) (hne : x.key ≠ y.key) (hd : ¬ directlyBefore x.key y.key l) :
    ∃ r, nextIn x.stop (s.dom.kids s.list.container) = some r ∧ r ∈ s.dom.kids s.list.container ∧ r ∉ y.nodes := by
  obtain ⟨pre, segs, post, hgeo, hit, -, -⟩ := hg.geo
  obtain ⟨I1, I2, rfl⟩ := List.append_of_mem hx
  obtain ⟨S1, S2, rfl, rfl, rfl⟩ := segs_split hit
  have hk : s.dom.kids s.list.container =
      (pre ++ s.list.listStart :: (flat S1 ++ (x.start :: x.content))) ++ x.stop :: (flat S2 ++ s.list.listEnd :: post) := by
    rw [hgeo]
    simp [flat, Seg.nodes, Item.nodes]
  have hnd := hg.proper.1 s.list.container
  rw [hk, List.nodup_append, List.nodup_cons] at hnd
  obtain ⟨-, ⟨-, hnd2⟩, hnd3⟩ := hnd
  have hnext : nextIn x.stop (s.dom.kids s.list.container) = (flat S2 ++ s.list.listEnd :: post).head? := by
    rw [hk, nextIn_split]
    intro h
    exact hnd3 _ h _ (by simp) rfl
  obtain ⟨r, hr⟩ : ∃ r, (flat S2 ++ s.list.listEnd :: post).head? = some r := by
    cases h : flat S2 with
    | nil => exact ⟨_, rfl⟩
    | cons a as => exact ⟨_, rfl⟩
  have hrm := List.mem_of_head? hr
  refine ⟨r, by rw [hnext, hr], by rw [hk]; exact List.mem_append_right _ (List.mem_cons_of_mem _ hrm), ?_⟩
  intro hry
  have hy' : Seg.item y ∈ S1 ∨ Seg.item y ∈ S2 := by
    have hmem : ∀ (S : List Seg), y ∈ itemsOf S → Seg.item y ∈ S := by
      intro S h
      obtain ⟨g, hg1, hg2⟩ := List.mem_filterMap.1 h
      cases g with
      | orphan n => cases hg2
      | item z => cases hg2; exact hg1
    rcases List.mem_append.1 hy with h | h
    · exact Or.inl (hmem S1 h)
    · rcases List.mem_cons.1 h with h | h
      · exact absurd (by rw [h]) hne
      · exact Or.inr (hmem S2 h)
  rcases hy' with h | h
  · refine hnd3 r ?_ r (List.mem_cons_of_mem _ hrm) rfl
    have : r ∈ flat S1 := List.mem_flatMap.2 ⟨_, h, hry⟩
    simp only [List.mem_append, List.mem_cons]
    exact Or.inr (Or.inr (Or.inl this))
  · cases S2 with
    | nil => cases h
    | cons g S2 =>
      rcases List.mem_cons.1 h with rfl | h
      · refine hd ⟨(itemsOf S1).map Item.key, (itemsOf S2).map Item.key, ?_⟩
        simp [itemsOf, Seg.item?]
      · have hgr : r ∈ g.nodes := by
          cases g with
          | orphan n =>
            simp only [flat, List.flatMap_cons, Seg.nodes, List.cons_append, List.nil_append, List.head?_cons,
              Option.some.injEq] at hr
            simp [Seg.nodes, hr]
          | item z =>
            simp only [flat, List.flatMap_cons, Seg.nodes, Item.nodes, List.cons_append, List.head?_cons,
              Option.some.injEq] at hr
            simp [Seg.nodes, Item.nodes, hr]
        have : r ∈ flat S2 := List.mem_flatMap.2 ⟨_, h, hry⟩
        simp only [flat, List.flatMap_cons, List.append_assoc] at hnd2
        rw [List.nodup_append] at hnd2
        exact hnd2.2.2 r hgr r (List.mem_append_left _ this) rfl

theorem specMove_mem {k : Key} {b : Option Key} {l : List Item} {y : Item}
    (hy : y ∈ l) (hne : y.key ≠ k) : y ∈ specMove k b l := by
  unfold specMove
  split
  · exact mem_place_old (List.mem_filter.2 ⟨hy, by simpa using hne⟩)
  · exact hy

theorem counts_swap {s : Sys} {l : List Item} {left : List NodeId} (hg : Good s l left) {x y : Item} (hx : x ∈ l)
    (hy : y ∈ l) (hd : ¬ directlyBefore x.key y.key l) :
    Counts (swapW s.dom s.list x.key y.key) (swap s.dom s.list x.key y.key)
      (3 + 3 * x.nodes.length + 3 * y.nodes.length) := by
  refine Counts.mono (k := 1 + (0 + (1 + (0 + (1 + (3 * x.nodes.length + 3 * y.nodes.length)))))) ?_ (by omega)
  refine counts_then (counts_bind (counts_free _) fun x' hx' => counts_then (counts_bind (counts_free _) fun y' hy' => ?_))
  rw [get_of_mem hg.perm hg.keys hx] at hx'
  rw [get_of_mem hg.perm hg.keys hy] at hy'
  cases hx'
  cases hy'
  by_cases hne : x.key = y.key
  · rw [if_pos hne, if_pos hne]
    exact (counts_pure _).mono (by omega)
  · rw [if_neg hne, if_neg hne]
    have hb : ∀ k, some y.key = some k → Has l k ∧ k ≠ x.key := by
      intro k h
      cases h
      exact ⟨⟨y, hy, rfl⟩, fun e => hne e.symm⟩
    have hafter : s.list.after (some y.key) = some y.start := by
      simp only [DynList.after, get_of_mem hg.perm hg.keys hy]; rfl
    obtain ⟨h1, h2⟩ := after_place hg hx hb hafter
    obtain ⟨c1, c2⟩ := counts_item hg hx h1 h2
    refine counts_then (counts_bind c1 fun d1 hd1 => ?_)
    obtain ⟨s1, e1, g1⟩ := good_move hg (k := x.key) (before := some y.key) ⟨⟨x, hx, rfl⟩, hb⟩
    have hs1 : s1 = ⟨d1, s.list⟩ := by
      have : moveNodes s.dom s.list.container s.list.container x.stored.start x.stored.stop (some y.start) = some d1 := hd1
      simp only [step, moveBefore, hafter, get_of_mem hg.perm hg.keys hx, bind, Option.bind, this, Option.map_some,
        Option.some.injEq, Prod.mk.injEq, and_true] at e1
      exact e1.symm
    subst hs1
    obtain ⟨r, n1, n2, n3⟩ := next_outside hg hx hy hne hd
    have n1' : nextIn x.stored.stop (s.dom.kids s.list.container) = some r := n1
    rw [n1']
    have hy1 : y ∈ specMove x.key (some y.key) l := specMove_mem hy (fun e => hne e.symm)
    exact (counts_item g1 hy1 ((c2 d1 hd1).mem_iff.2 n2) n3).1

/-! ## sequences of calls -/

/-- How many operations a call takes; `b` bounds the nodes of an item and `n` is the number of items. -/
def callCost (b n : Nat) : Op → Nat
  | .insert _ _ _ _ => 10
  | .remove _ => 4
  | .moveBefore _ _ => 2 + 3 * b
  | .swap _ _ => 3 + 6 * b
  | .retain _ => 4 * n
  | _ => 0

/-- No item has more nodes than that. -/
def FewNodes (b : Nat) (l : List Item) : Prop := ∀ x ∈ l, x.nodes.length ≤ b

theorem counts_step {s : Sys} {l : List Item} {left : List NodeId} (hg : Good s l left) {b : Nat} (hb : FewNodes b l)
    {op : Op} (hok : CallOk l op) : Counts (stepW s op) (step s op) (callCost b l.length op) := by
  have map : ∀ {α β : Type} {x : W α} {o : Option α} {k : Nat} (f : α → β), Counts x o k →
      Counts (x >>= fun a => pure (f a)) (o.map f) k := by
    intro α β x o k f h
    have := counts_bind h (fun a _ => counts_pure (f a))
    rw [show o.map f = o.bind fun a => some (f a) by cases o <;> rfl]
    exact this
  cases op with
  | insert k b x y => exact map _ (counts_insert _ _ _ _ _ _)
  | remove k => exact map _ (counts_remove _ _ _)
  | moveBefore k b' =>
    obtain ⟨⟨x, hx, rfl⟩, h2⟩ := hok
    refine map _ ((counts_move hg hx h2).mono ?_)
    have := hb x hx
    simp only [callCost]
    omega
  | swap k k' =>
    obtain ⟨⟨x, hx, rfl⟩, ⟨y, hy, rfl⟩, h3⟩ := hok
    refine map _ ((counts_swap hg hx hy h3).mono ?_)
    have := hb x hx
    have := hb y hy
    simp only [callCost]
    omega
  | retain p =>
    refine map _ ((counts_retain _ _ _).mono ?_)
    have := hg.perm.length_eq
    rw [List.length_map] at this
    simp only [callCost]
    omega
  | _ => exact hok.elim

theorem fewNodes_call {b : Nat} (h2 : 2 ≤ b) {l : List Item} (hb : FewNodes b l) {op : Op} (hc : op.isCall = true) :
    FewNodes b (specStep l op) := by
  intro x hx
  cases op with
  | insert k c s e =>
    simp only [specStep, specInsert] at hx
    split at hx
    · obtain ⟨y, hy, e⟩ := List.mem_map.1 hx
      split at e
      · rw [← e]; simpa [Item.nodes] using h2
      · exact hb x (e ▸ hy)
    · rcases mem_place hx with rfl | hx
      · simpa [Item.nodes] using h2
      · exact hb x (List.mem_filter.1 hx).1
  | remove k => exact hb x (List.mem_filter.1 hx).1
  | moveBefore k c =>
    simp only [specStep, specMove] at hx
    split at hx
    · rename_i y hy
      rcases mem_place hx with rfl | hx
      · exact hb _ (find_mem hy).1
      · exact hb x (List.mem_filter.1 hx).1
    · exact hb x hx
  | swap a c =>
    simp only [specStep, specSwap] at hx
    split at hx
    · rename_i y z hy hz
      obtain ⟨w, hw, e⟩ := List.mem_map.1 hx
      split at e
      · exact hb x (e ▸ (find_mem hz).1)
      · split at e
        · exact hb x (e ▸ (find_mem hy).1)
        · exact hb x (e ▸ hw)
    · exact hb x hx
  | retain p => exact hb x (List.mem_filter.1 hx).1
  | _ => cases hc

/-- the operations of calls in a row -/
def callsCost (b : Nat) (l : List Item) : List Op → Nat
  | [] => 0
  | op :: ops => 1 + callCost b l.length op + callsCost b (specStep l op) ops

theorem counts_run {b : Nat} (h2 : 2 ≤ b) (ops : List Op) : ∀ {s : Sys} {l : List Item} {given : List NodeId},
    Tracks s l given → CallsOk l ops → (ops.flatMap madeBy).Nodup → (∀ n ∈ ops.flatMap madeBy, Fresh s.dom n) →
    FewNodes b l → Counts (runW s ops) (run s ops) (callsCost b l ops) := by
  induction ops with
  | nil => intro s l given _ _ _ _ _; exact counts_pure _
  | cons op ops ih =>
    intro s l given h hok hnd hfr hb
    obtain ⟨left, hg, -⟩ := h.good
    have hok1 := hok.1
    obtain ⟨s1, r1, t1, f1⟩ := run_calls [op] h ⟨hok1, trivial⟩
      (by rw [List.flatMap_cons, List.nodup_append] at hnd; simpa using hnd.1)
      (fun n hn => hfr n (by simp only [List.flatMap_cons, List.flatMap_nil, List.append_nil] at hn; simp [hn]))
    have e1 : step s op = some (s1, specAnswer l op) := by
      simp only [run, Option.bind_eq_bind, Option.bind_eq_some_iff, pure, Option.some.injEq, Prod.mk.injEq] at r1
      obtain ⟨⟨s2, a⟩, e, ⟨s3, as⟩, ⟨rfl, rfl⟩, rfl, ha⟩ := r1
      simp only [answers, List.cons.injEq, and_true] at ha
      rw [e, ha]
    refine Counts.mono (k := 1 + (callCost b l.length op + (callsCost b (specStep l op) ops + 0))) ?_
      (by simp only [callsCost]; omega)
    refine counts_then (counts_bind (counts_step hg hb hok1) fun r hr => ?_)
    rw [e1] at hr
    cases hr
    refine counts_bind ?_ (fun _ _ => counts_pure _)
    rw [List.flatMap_cons, List.nodup_append] at hnd
    refine ih t1 hok.2 hnd.2.1 ?_ (fewNodes_call h2 hb hok1.call)
    intro n hn
    refine f1 n (hfr n (by simp [hn])) ?_
    simp only [List.flatMap_cons, List.flatMap_nil, List.append_nil]
    intro hm
    exact hnd.2.2 n hm n hn rfl

end Verif.Lists
