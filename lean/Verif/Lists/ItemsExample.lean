import Verif.Lists.ItemsProps
import Verif.Lists.DynamicExample
/-! # A history of a list whose items are futures -/
namespace Verif.Lists
open Verif.Dom

/-- the nodes that a step brings into the document -/
def itemMade : ItemOp → List NodeId
  | .list op => madeBy op
  | .add _ _ n => [n]
  | _ => []

/-- `ItemAllowed`, for the steps that the example uses, without looking at the document. -/
def itemAllowedB (frag : NodeId) (rendered : Bool) (used : List NodeId) (V : View) : ItemOp → Bool
  | .list (.insert _ b x y) => (match b with | none => true | some k => hasB V.rows k) &&
      !used.contains x && !used.contains y && x != y && V.parts.all fun p => p.stop != y
  | .list (.remove _) => true
  | .list (.moveBefore k b) => hasB V.rows k && (match b with | none => true | some k' => hasB V.rows k' && k' != k)
  | .list .unrender => rendered
  | .render c none => !rendered && c.containingNode != frag
  | .add y path n => rendered && (V.rows.any fun x => x.stop == y) && !used.contains n &&
      V.parts.all fun p => !(p.stop == y && p.path == path)
  | .hide _ path => rendered && path.all fun i => decide (i + 1 < 2 ^ 32)
  | .finish _ => rendered
  | _ => false

def itemRendered (rendered : Bool) : ItemOp → Bool
  | .render _ _ => true
  | .list .unrender => false
  | _ => rendered

def itemAllowedRunB (frag : NodeId) : Bool → List NodeId → View → List ItemOp → Bool
  | _, _, _, [] => true
  | rendered, used, V, op :: ops => itemAllowedB frag rendered used V op &&
      itemAllowedRunB frag (itemRendered rendered op) (itemMade op ++ used) (V.step op) ops

structure Known (frag : NodeId) (rendered : Bool) (used : List NodeId) (s : ItemSys) : Prop where
  ctx : s.ctx.isSome = rendered
  frag_eq : s.list.frag = frag
  container : rendered = true ↔ s.list.container ≠ frag
  fresh : ∀ n, n ∉ used → Fresh s.st.dom n

theorem allowed_of_static {frag : NodeId} {rendered : Bool} {used : List NodeId} {s : ItemSys} {V : View} {op : ItemOp}
    (hk : Known frag rendered used s) (h : itemAllowedB frag rendered used V op = true) : ItemAllowed s V op := by
  have hn : ∀ n, (!used.contains n) = true → Fresh s.st.dom n := by
    intro n hn
    refine hk.fresh n ?_
    simpa using hn
  cases op with
  | list op =>
    cases op with
    | insert k b x y =>
      simp only [itemAllowedB, Bool.and_eq_true, bne_iff_ne, ne_eq, List.all_eq_true] at h
      obtain ⟨⟨⟨⟨h1, h2⟩, h3⟩, h4⟩, h5⟩ := h
      refine ⟨⟨?_, hn _ h2, hn _ h3, h4⟩, h5⟩
      rintro k rfl
      exact has_of h1
    | remove k => trivial
    | moveBefore k b =>
      simp only [itemAllowedB, Bool.and_eq_true] at h
      refine ⟨has_of h.1, ?_⟩
      rintro k rfl
      have := h.2
      simp only [Bool.and_eq_true, bne_iff_ne, ne_eq] at this
      exact ⟨has_of this.1, this.2⟩
    | unrender =>
      have := hk.container.1 h
      rw [← hk.frag_eq] at this
      exact this
    | _ => cases h
  | render c a =>
    cases a with
    | some r => cases h
    | none =>
      simp only [itemAllowedB, Bool.and_eq_true, Bool.not_eq_true', bne_iff_ne, ne_eq] at h
      refine ⟨?_, ?_, ?_⟩
      · apply Classical.byContradiction
        intro hne
        have := hk.container.2 (by rw [← hk.frag_eq]; exact hne)
        rw [h.1] at this
        cases this
      · show c.containingNode ≠ s.list.frag
        rw [hk.frag_eq]; exact h.2
      · intro r hr; cases hr
  | add y path n =>
    simp only [itemAllowedB, Bool.and_eq_true, List.any_eq_true, beq_iff_eq, List.all_eq_true] at h
    obtain ⟨⟨⟨h1, h2⟩, h3⟩, h4⟩ := h
    refine ⟨by rw [hk.ctx]; exact h1, h2, hn _ h3, ?_⟩
    intro p hp hpe
    have := h4 p hp
    simp [hpe.1, hpe.2] at this
  | hide y path =>
    simp only [itemAllowedB, Bool.and_eq_true, List.all_eq_true, decide_eq_true_eq] at h
    exact ⟨by rw [hk.ctx]; exact h.1, h.2⟩
  | finish y =>
    show s.ctx.isSome
    rw [hk.ctx]; exact h

theorem removeAll_fresh {c m : NodeId} (ns : List NodeId) : ∀ {d d' : Dom}, removeAll d c ns = some d' → Fresh d m →
    Fresh d' m := by
  induction ns with
  | nil => intro d d' h hm; cases h; exact hm
  | cons n ns ih =>
    intro d d' h hm
    simp only [removeAll, Option.bind_eq_bind, Option.bind_eq_some_iff] at h
    obtain ⟨d1, e1, h⟩ := h
    exact ih h (removeChild_fresh e1 hm)

theorem removeLoop_fresh {c m : NodeId} {p q : Pos} (fuel : Nat) : ∀ {g g' : Group} {d d' : Dom},
    removeLoop c p q fuel g d = some (g', d') → Fresh d m → Fresh d' m := by
  induction fuel with
  | zero => intro g g' d d' h; cases h
  | succ fuel ih =>
    intro g g' d d' h hm
    simp only [removeLoop] at h
    split at h
    · cases h; exact hm
    · simp only [Option.bind_eq_bind, Option.bind_eq_some_iff] at h
      obtain ⟨d1, e1, h⟩ := h
      exact ih h (removeChild_fresh e1 hm)

theorem removeHere_fresh {b : Build} {s s' : State} {g : GroupId} {c m : NodeId} {p : Pos}
    (h : removeHere b s g c p = some s') (hm : Fresh s.dom m) : Fresh s'.dom m := by
  simp only [removeHere, Option.bind_eq_bind, Option.bind_eq_some_iff, pure, Option.some.injEq] at h
  obtain ⟨⟨g', d'⟩, h, rfl⟩ := h
  show Fresh d' m
  unfold removeChildrenHere at h
  split at h
  · simp only [Option.bind_eq_bind, Option.bind_eq_some_iff, pure, Option.some.injEq, Prod.mk.injEq] at h
    obtain ⟨d1, e1, -, rfl⟩ := h
    exact removeAll_fresh _ e1 hm
  · simp only [Option.bind_eq_bind, Option.bind_eq_some_iff] at h
    obtain ⟨q, -, h⟩ := h
    split at h
    · cases h
    · exact removeLoop_fresh _ h hm

theorem insertAll_fresh {c r m : NodeId} (ns : List NodeId) : ∀ {d d' : Dom}, insertAll c r ns d = some d' → m ∉ ns →
    Fresh d m → Fresh d' m := by
  induction ns with
  | nil => intro d d' h _ hm; cases h; exact hm
  | cons n ns ih =>
    intro d d' h hn hm
    simp only [insertAll, Option.bind_eq_bind, Option.bind_eq_some_iff] at h
    obtain ⟨d1, e1, h⟩ := h
    simp only [List.mem_cons, not_or] at hn
    exact ih h hn.2 (insertBefore_fresh e1 hm hn.1)

theorem call_frag {s s' : Sys} {op : Op} {a : Option Bool} (hc : op.isCall = true)
    (h : step s op = some (s', a)) : s'.list.frag = s.list.frag ∧ s'.list.listStart = s.list.listStart ∧ s'.list.listEnd = s.list.listEnd := by
  cases op with
  | insert k b x y =>
    simp only [step, Verif.Lists.insert, Option.map_eq_some_iff, Option.bind_eq_bind, Option.bind_eq_some_iff] at h
    obtain ⟨r, ⟨af, -, d1, -, d2, -, h⟩, he⟩ := h
    split at h
    · obtain ⟨d3, -, h⟩ := Option.bind_eq_some_iff.1 h
      simp only [pure, Option.some.injEq] at h
      subst h; cases he; exact ⟨rfl, rfl, rfl⟩
    · simp only [pure, Option.some.injEq] at h
      subst h; cases he; exact ⟨rfl, rfl, rfl⟩
  | remove k =>
    simp only [step, remove, Option.map_eq_some_iff] at h
    obtain ⟨r, h, he⟩ := h
    split at h
    · simp only [Option.bind_eq_bind, Option.bind_eq_some_iff, pure, Option.some.injEq] at h
      obtain ⟨d1, -, h⟩ := h
      subst h; cases he; exact ⟨rfl, rfl, rfl⟩
    · cases h; cases he; exact ⟨rfl, rfl, rfl⟩
  | moveBefore k b =>
    simp only [step, Option.map_eq_some_iff] at h
    obtain ⟨d, -, he⟩ := h
    cases he; exact ⟨rfl, rfl, rfl⟩
  | swap a b =>
    simp only [step, Option.map_eq_some_iff] at h
    obtain ⟨d, -, he⟩ := h
    cases he; exact ⟨rfl, rfl, rfl⟩
  | retain p =>
    simp only [step, retain, Option.map_eq_some_iff, Option.bind_eq_bind, Option.bind_eq_some_iff, pure,
      Option.some.injEq] at h
    obtain ⟨r, ⟨d1, -, h⟩, he⟩ := h
    subst h; cases he; exact ⟨rfl, rfl, rfl⟩
  | _ => cases hc

theorem known_call {frag : NodeId} {rendered : Bool} {used : List NodeId} {s : ItemSys} {V : View} {op : Op} {r : Sys}
    {a : Option Bool} (hi : ItemInv s V) (hc : op.isCall = true)
    (hk : Known frag rendered used s) (h : step s.sys op = some (r, a)) (hr : itemRendered rendered (.list op) = rendered) :
    Known frag (itemRendered rendered (.list op)) (madeBy op ++ used) (s.withSys r) := by
  obtain ⟨left, hg, -⟩ := hi.good
  rw [hr]
  refine ⟨hk.ctx, (call_frag hc h).1.trans hk.frag_eq, ?_, ?_⟩
  · rw [hk.container]
    have : (s.withSys r).list.container = s.list.container := call_list_same hc h
    rw [this]
  · intro n hn
    simp only [List.mem_append, not_or] at hn
    exact call_fresh hg hc h (hk.fresh n hn.2) hn.1

theorem known_step {frag : NodeId} {rendered : Bool} {used : List NodeId} {b : Build} {s s' : ItemSys} {V : View} {op : ItemOp}
    {a : Option Bool} (hi : ItemInv s V) (hk : Known frag rendered used s)
    (hls : s.list.listStart ∈ used ∧ s.list.listEnd ∈ used)
    (hB : itemAllowedB frag rendered used V op = true)
    (h : itemStep b s op = some (s', a)) : Known frag (itemRendered rendered op) (itemMade op ++ used) s' := by
  cases op with
  | list op =>
    cases op with
    | insert k bf x y =>
      simp only [itemStep, Option.map_eq_some_iff] at h
      obtain ⟨r, h, he⟩ := h
      cases he
      have := known_call hi rfl hk h rfl
      exact ⟨this.ctx, this.frag_eq, this.container, this.fresh⟩
    | remove k =>
      simp only [itemStep, Option.map_eq_some_iff] at h
      obtain ⟨r, h, he⟩ := h
      cases he
      exact known_call hi rfl hk h rfl
    | moveBefore k bf =>
      simp only [itemStep, Option.map_eq_some_iff] at h
      obtain ⟨r, h, he⟩ := h
      cases he
      exact known_call hi rfl hk h rfl
    | unrender =>
      simp only [itemStep, step, unrender, Option.map_eq_some_iff, Option.bind_eq_bind, Option.bind_eq_some_iff, pure,
        Option.some.injEq] at h
      obtain ⟨r, ⟨r2, ⟨d, e1, rfl⟩, rfl⟩, he⟩ := h
      cases he
      refine ⟨rfl, hk.frag_eq, ?_, ?_⟩
      · refine ⟨fun h => (by cases h), fun h => ?_⟩
        exact absurd hk.frag_eq h
      · intro n hn
        simp only [itemMade, madeBy, List.nil_append] at hn
        refine moveLoop_fresh _ e1 (hk.fresh n hn) ?_
        rintro rfl
        exact hn hls.1
    | _ => cases hB
  | render c q =>
    simp only [itemStep, step, render, Option.map_eq_some_iff, Option.bind_eq_bind, Option.bind_eq_some_iff] at h
    obtain ⟨r, ⟨r2, ⟨d1, e1, d2, e2, d3, e3, d4, e4, h5⟩, rfl⟩, he⟩ := h
    split at h5
    · simp only [Option.bind_eq_some_iff, pure, Option.some.injEq] at h5
      obtain ⟨d5, e5, rfl⟩ := h5
      cases he
      refine ⟨rfl, hk.frag_eq, ?_, ?_⟩
      · cases q with
        | some _ => cases hB
        | none =>
          simp only [itemAllowedB, Bool.and_eq_true, bne_iff_ne, ne_eq] at hB
          exact ⟨fun _ => hB.2, fun _ => rfl⟩
      · intro n hn
        simp only [itemMade, List.nil_append] at hn
        have hn1 : n ≠ s.list.listStart := by rintro rfl; exact hn hls.1
        have hn2 : n ≠ s.list.listEnd := by rintro rfl; exact hn hls.2
        have f4 : Fresh d4 n := insertBefore_fresh e4 (removeChild_fresh e3 (insertBefore_fresh e2
          (insertBefore_fresh e1 (hk.fresh n hn) hn1) hn2)) hn1
        exact insertAll_fresh _ e5 (f4 _) f4
    · cases h5
  | add y path n =>
    simp only [itemStep, Option.bind_eq_bind, Option.bind_eq_some_iff, pure, Option.some.injEq, Prod.mk.injEq] at h
    obtain ⟨c, hc, st, e1, rfl, -⟩ := h
    refine ⟨hk.ctx, hk.frag_eq, hk.container, ?_⟩
    intro m hm
    simp only [itemMade, List.cons_append, List.nil_append, List.mem_cons, not_or] at hm
    rw [item_add] at e1
    simp only [addHere, Option.bind_eq_bind, Option.bind_eq_some_iff, pure, Option.some.injEq] at e1
    obtain ⟨d, e1, -, -, rfl⟩ := e1
    exact insertBefore_fresh e1 (hk.fresh m hm.2) hm.1
  | hide y path =>
    simp only [itemStep, Option.bind_eq_bind, Option.bind_eq_some_iff, pure, Option.some.injEq, Prod.mk.injEq] at h
    obtain ⟨c, hc, st, e1, rfl, -⟩ := h
    rw [item_remove] at e1
    exact ⟨hk.ctx, hk.frag_eq, hk.container, fun m hm => removeHere_fresh e1 (hk.fresh m hm)⟩
  | finish y =>
    simp only [itemStep, Option.bind_eq_bind, Option.bind_eq_some_iff, pure, Option.some.injEq, Prod.mk.injEq] at h
    obtain ⟨c, hc, st, e1, rfl, -⟩ := h
    have e2 : (itemCtx c y).removeChild b s.st [] = (below (itemCtx c y) []).removeChild b s.st [] := rfl
    rw [e2, item_remove] at e1
    exact ⟨hk.ctx, hk.frag_eq, hk.container, fun m hm => removeHere_fresh e1 (hk.fresh m hm)⟩

/-- the list's own markers never change -/
theorem items_markers {frag : NodeId} {rendered : Bool} {used : List NodeId} {V : View} {b : Build} {s s' : ItemSys}
    {op : ItemOp} {a : Option Bool} (hB : itemAllowedB frag rendered used V op = true)
    (h : itemStep b s op = some (s', a)) :
    s'.list.listStart = s.list.listStart ∧ s'.list.listEnd = s.list.listEnd := by
  cases op with
  | list op =>
    cases op with
    | insert k bf x y =>
      simp only [itemStep, Option.map_eq_some_iff] at h
      obtain ⟨r, h, he⟩ := h
      cases he
      exact (call_frag rfl h).2
    | remove k =>
      simp only [itemStep, Option.map_eq_some_iff] at h
      obtain ⟨r, h, he⟩ := h
      cases he
      exact (call_frag rfl h).2
    | moveBefore k bf =>
      simp only [itemStep, Option.map_eq_some_iff] at h
      obtain ⟨r, h, he⟩ := h
      cases he
      exact (call_frag rfl h).2
    | unrender =>
      simp only [itemStep, step, unrender, Option.map_eq_some_iff, Option.bind_eq_bind, Option.bind_eq_some_iff, pure,
        Option.some.injEq] at h
      obtain ⟨r, ⟨r2, ⟨d, e1, rfl⟩, rfl⟩, he⟩ := h
      cases he
      exact ⟨rfl, rfl⟩
    | _ => cases hB
  | render c q =>
    simp only [itemStep, step, render, Option.map_eq_some_iff, Option.bind_eq_bind, Option.bind_eq_some_iff] at h
    obtain ⟨r, ⟨r2, ⟨d1, e1, d2, e2, d3, e3, d4, e4, h5⟩, rfl⟩, he⟩ := h
    split at h5
    · simp only [Option.bind_eq_some_iff, pure, Option.some.injEq] at h5
      obtain ⟨d5, e5, rfl⟩ := h5
      cases he
      exact ⟨rfl, rfl⟩
    · cases h5
  | add y path n =>
    simp only [itemStep, Option.bind_eq_bind, Option.bind_eq_some_iff, pure, Option.some.injEq, Prod.mk.injEq] at h
    obtain ⟨c, hc, st, e1, rfl, -⟩ := h
    exact ⟨rfl, rfl⟩
  | hide y path =>
    simp only [itemStep, Option.bind_eq_bind, Option.bind_eq_some_iff, pure, Option.some.injEq, Prod.mk.injEq] at h
    obtain ⟨c, hc, st, e1, rfl, -⟩ := h
    exact ⟨rfl, rfl⟩
  | finish y =>
    simp only [itemStep, Option.bind_eq_bind, Option.bind_eq_some_iff, pure, Option.some.injEq, Prod.mk.injEq] at h
    obtain ⟨c, hc, st, e1, rfl, -⟩ := h
    exact ⟨rfl, rfl⟩

theorem allowedRun_of_static {frag : NodeId} {b : Build} (ops : List ItemOp) : ∀ {rendered : Bool} {used : List NodeId}
    {s : ItemSys} {V : View}, ItemInv s V → Known frag rendered used s → frag ∈ used →
    (s.list.listStart ∈ used ∧ s.list.listEnd ∈ used) → itemAllowedRunB frag rendered used V ops = true →
    ItemAllowedRun b s V ops := by
  induction ops with
  | nil => intros; trivial
  | cons op ops ih =>
    intro rendered used s V hi hk hf hm h
    simp only [itemAllowedRunB, Bool.and_eq_true] at h
    have ha := allowed_of_static hk h.1
    refine ⟨ha, ?_⟩
    intro s' a hs
    have hm' := items_markers h.1 hs
    obtain ⟨s2, e2, hi'⟩ := inv_step hi b ha
    rw [e2] at hs
    cases hs
    refine ih hi' (known_step hi hk hm h.1 e2) (List.mem_append_right _ hf) ?_ h.2
    rw [hm'.1, hm'.2]
    exact ⟨List.mem_append_right _ hm.1, List.mem_append_right _ hm.2⟩

/-- the start system of the example: fragment 100, list markers 1 and 2 -/
def freshItems : ItemSys := ⟨⟨fun _ => [], fresh.dom⟩, fresh.list, none⟩

/-- Items 7 and 8; the list is rendered in node 200. The future of 7 displays 50; the future of 8 displays 61
and then 60 before it. 8 is moved before 7, its node 61 goes away, item 9 comes between them and displays
70; 7 is removed while 50 is still displayed, then its future is dropped and 50 goes. -/
def itemSample : List ItemOp :=
  [.list (.insert 7 none 11 12), .list (.insert 8 none 13 14), .render (.container 0 200) none, .add 12 [0] 50,
   .add 14 [0, 1] 61, .add 14 [0, 0] 60, .list (.moveBefore 8 (some 7)), .hide 14 [0, 1],
   .list (.insert 9 (some 7) 15 16), .add 16 [] 70, .list (.remove 7), .finish 12]

theorem itemSample_allowed (b : Build) (ops : List ItemOp)
    (h : itemAllowedRunB 100 false [100, 1, 2] ⟨[], []⟩ ops = true) : ItemAllowedRun b freshItems ⟨[], []⟩ ops := by
  obtain ⟨d0, L0, hn, hg⟩ := good_new proper_blank (frag := 100) (ls := 1) (le := 2) rfl (by decide)
  rw [new_blank] at hn
  cases hn
  refine allowedRun_of_static (frag := 100) (rendered := false) (used := [100, 1, 2]) ops (inv_start hg) ?_ (by simp)
    (by simp [freshItems, fresh]) h
  refine ⟨rfl, rfl, by simp [freshItems, fresh], ?_⟩
  intro n hn c hc
  simp only [freshItems, fresh] at hc
  split at hc
  · simp only [List.mem_cons, List.not_mem_nil, or_false, not_or] at hn hc
    rcases hc with h | h
    · exact hn.2.1 h
    · exact hn.2.2 h
  · cases hc

/-- The history meets the hypotheses of `listItems_shown_partial`. It ends with the items 8 and 9, showing 60 and 70. -/
example (b : Build) : ∃ s', itemRun b freshItems itemSample =
      some (s', [some false, some false, none, none, none, none, none, none, some false, none, some true, none]) ∧
    (View.run ⟨[], []⟩ itemSample).1 = ⟨[⟨8, 13, 14, []⟩, ⟨9, 15, 16, []⟩], [⟨16, [], 70⟩, ⟨14, [0, 0], 60⟩]⟩ ∧
    (View.run ⟨[], []⟩ itemSample).1.ShownIn s'.st.dom s'.list := by
  obtain ⟨d0, L0, h, ht⟩ := listItems_shown_partial proper_blank (frag := 100) (ls := 1) (le := 2) rfl (by decide) b
    itemSample
  rw [new_blank] at h
  cases h
  obtain ⟨s', e, hs, -⟩ := ht (itemSample_allowed b itemSample (by rfl))
  exact ⟨s', e, by rfl, hs⟩

/-- … and these are the children of node 200 -/
example : (itemRun .release freshItems itemSample).map (fun r => r.1.st.dom.kids 200) = some [1, 13, 60, 14, 15, 70, 16, 2] := by
  rfl

/-- Before `finish`, the removed item 7 has left its node behind. -/
example : (itemRun .release freshItems (itemSample.take 11)).map (fun r => r.1.st.dom.kids 200) =
    some [1, 13, 60, 14, 15, 70, 16, 50, 2] := by rfl

/-- `removed_item_panics` on a history: the future of item 7 removes item 7 and then displays a node. -/
example : itemRun .release freshItems [.list (.insert 7 none 11 12), .render (.container 0 200) none, .add 12 [0] 50,
    .list (.remove 7), .add 12 [1] 51] = none := by rfl

/-- Displaying a node *before* the one that it already displays does not panic, and leaves the node outside any item. -/
example : (itemRun .release freshItems [.list (.insert 7 none 11 12), .render (.container 0 200) none, .add 12 [1] 50,
    .list (.remove 7), .add 12 [0] 51]).map (fun r => r.1.st.dom.kids 200) = some [1, 51, 50, 2] := by rfl

end Verif.Lists
