import Verif.Lists.RenderSteps2
/-!
# C34: a rendered DynamicList keeps its place among its siblings

The claim is false as stated: `render` leaves no entry for the list in the order its parent keeps, so
a sibling that comes before the list and is rendered after it cannot know where the list is
(`earlier_sibling_misplaced`). What holds is `list_keeps_place_partial`.

The events are those of C01 (`Verif.Dom.Op`). Inserting, moving and removing items of the list are
foreign events there.
-/
namespace Verif.Lists
open Verif.Dom

/-- **C34 (partial).** After any history, the list is rendered; then any history follows in which
nobody takes the list's markers away and a sibling in front of the list is only rendered while
another one between it and the list is displayed. Nothing panics, and after every such history the
list is at its own place: behind the displayed components that come before it in source order and in
front of those that come after it.
Missing: siblings in front of the list that are rendered while nothing between is displayed; for
those see `earlier_sibling_misplaced`. -/
theorem list_keeps_place_partial (b : Build) {P : Places} {D : Display} {s : State} {ctx : Ctx} {L : DynList}
    {items : List NodeId} (hs : Starts D s) (ops1 ops2 : List Verif.Dom.Op) (hok1 : HistoryOk P D ops1)
    {s1 : State} (hrun : runOps b s ops1 = some s1)
    (hf : InFragment P (D.run ops1) s1.dom L items) (hr : CanRender P (D.run ops1) ctx L)
    {D2 : Display}
    (hD2 : D2 = moveList (D.run ops1) L.frag ctx.home (L.listStart :: (items ++ [L.listEnd])))
    (hok2 : HistoryOk P D2 ops2)
    (hq : QuietHistory ctx.group ctx.path L.listStart L.listEnd D2 ops2) :
    ∃ s2 s3, renderCtx b s1 ctx L = some (s2, { L with container := ctx.home }) ∧
      runOps b s2 ops2 = some s3 ∧
      List.Sublist (L.listStart :: (items ++ [L.listEnd])) (s2.dom.kids ctx.home) ∧
      InPlace P D2 s2.dom ctx.group ctx.path L.listStart L.listEnd ∧
      InPlace P (D2.run ops2) s3.dom ctx.group ctx.path L.listStart L.listEnd ∧
      Agrees P (D2.run ops2) s3 := by
  have hinv1 : Inv P (D.run ops1) s1 := by
    obtain ⟨s1', e1, h1⟩ := (Inv.start (P := P) hs).run b ops1 hok1
    rw [hrun] at e1
    exact (Option.some.inj e1) ▸ h1
  obtain ⟨s2, A, B, K1, K2, he, hg, hAB, hk, hsA, hsB, hA, hB, hk', hfr, hx⟩ := render_list b hinv1 hf hr
  have hinv2 := inv_render_list hinv1 hf hr.elsewhere hg hk hk' hfr hx
  have hpl := inPlace_render_list (items := items) (L := L) (s' := s2) hinv1 hr.place hAB hsA hsB hA hB hk'
  rw [← hD2] at hinv2
  have hc : (P ctx.group).1 = ctx.home := by rw [← hr.place]
  have hm : (P ctx.group).2 = ctx.marker := by rw [← hr.place]
  have hpl2 : InPlace P D2 s2.dom ctx.group ctx.path L.listStart L.listEnd := by
    subst hD2; exact hpl
  have hkeeps : Keeps P D2 s2 ctx.group ctx.path L.listStart L.listEnd := by
    refine ⟨hinv2, ?_, hpl2, ?_, ?_, ?_⟩
    · subst hD2; exact hr.free
    · subst hD2; rw [hc]; simp [moveList]
    · subst hD2; rw [hc]; simp [moveList]
    · intro r hr'
      subst hD2
      have h1 := hr.marker r (by rw [← hm]; exact hr')
      have h2 := hf.noMarker _ r hr'
      rw [hc]
      refine List.mem_append_right _ (List.mem_filter.2 ⟨h1, ?_⟩)
      simp only [Bool.not_eq_true', Bool.and_eq_false_iff, List.contains_eq_mem, decide_eq_false_iff_not]
      exact Or.inr h2
  obtain ⟨s3, hrun3, hk3⟩ := keeps_run b hkeeps ops2 hok2 hq
  refine ⟨s2, s3, he, hrun3, ?_, hpl2, hk3.place, hk3.inv.agrees⟩
  rw [hk', show K1 ++ L.listStart :: (items ++ L.listEnd :: K2) = K1 ++ ((L.listStart :: (items ++ [L.listEnd])) ++ K2) by simp]
  exact (List.sublist_append_left _ _).trans (List.sublist_append_right _ _)

/-- **C34 is false otherwise.** In the same situation (after any such histories), if a sibling that
comes *before* the list is then rendered while nothing displayed lies between the two, it always ends
up *behind* the list. -/
theorem earlier_sibling_misplaced (b : Build) {P : Places} {D : Display} {s : State} {ctx : Ctx} {L : DynList}
    {items : List NodeId} (hs : Starts D s) (ops1 ops2 : List Verif.Dom.Op) (hok1 : HistoryOk P D ops1)
    {s1 : State} (hrun : runOps b s ops1 = some s1)
    (hf : InFragment P (D.run ops1) s1.dom L items) (hr : CanRender P (D.run ops1) ctx L)
    {D2 : Display}
    (hD2 : D2 = moveList (D.run ops1) L.frag ctx.home (L.listStart :: (items ++ [L.listEnd])))
    (hok2 : HistoryOk P D2 ops2)
    (hq : QuietHistory ctx.group ctx.path L.listStart L.listEnd D2 ops2)
    (ctx' : Ctx) (n : NodeId) (hokn : (Verif.Dom.Op.render ctx' n).Ok P (D2.run ops2))
    (hgroup : ctx'.group = ctx.group) (hbefore : SourceBefore ctx'.path ctx.path)
    (hnothing : ¬ SomethingBetween (D2.run ops2) ctx.group ctx'.path ctx.path) :
    ∃ s2 s3 s4, renderCtx b s1 ctx L = some (s2, { L with container := ctx.home }) ∧
      runOps b s2 ops2 = some s3 ∧ (Verif.Dom.Op.render ctx' n).exec b s3 = some s4 ∧
      List.Sublist [L.listEnd, n] (s4.dom.kids ctx.home) := by
  have hinv1 : Inv P (D.run ops1) s1 := by
    obtain ⟨s1', e1, h1⟩ := (Inv.start (P := P) hs).run b ops1 hok1
    rw [hrun] at e1
    exact (Option.some.inj e1) ▸ h1
  obtain ⟨s2, A, B, K1, K2, he, hg, hAB, hk, hsA, hsB, hA, hB, hk', hfr, hx⟩ := render_list b hinv1 hf hr
  have hinv2 := inv_render_list hinv1 hf hr.elsewhere hg hk hk' hfr hx
  have hpl := inPlace_render_list (items := items) (L := L) (s' := s2) hinv1 hr.place hAB hsA hsB hA hB hk'
  rw [← hD2] at hinv2
  have hc : (P ctx.group).1 = ctx.home := by rw [← hr.place]
  have hm : (P ctx.group).2 = ctx.marker := by rw [← hr.place]
  have hpl2 : InPlace P D2 s2.dom ctx.group ctx.path L.listStart L.listEnd := by
    subst hD2; exact hpl
  have hkeeps : Keeps P D2 s2 ctx.group ctx.path L.listStart L.listEnd := by
    refine ⟨hinv2, ?_, hpl2, ?_, ?_, ?_⟩
    · subst hD2; exact hr.free
    · subst hD2; rw [hc]; simp [moveList]
    · subst hD2; rw [hc]; simp [moveList]
    · intro r hr'
      subst hD2
      have h1 := hr.marker r (by rw [← hm]; exact hr')
      have h2 := hf.noMarker _ r hr'
      rw [hc]
      refine List.mem_append_right _ (List.mem_filter.2 ⟨h1, ?_⟩)
      simp only [Bool.not_eq_true', Bool.and_eq_false_iff, List.contains_eq_mem, decide_eq_false_iff_not]
      exact Or.inr h2
  obtain ⟨s3, hrun3, hk3⟩ := keeps_run b hkeeps ops2 hok2 hq
  obtain ⟨s4, e4, -⟩ := hk3.inv.step b _ hokn
  obtain ⟨A', B', J1, J2, h1, h2, h4, h5, h6, h7, h8⟩ := render_exec hk3.inv b ctx' n hokn
  rw [hgroup] at h1 h2 h4 h5 h8
  obtain ⟨-, -, q3⟩ := render_side (n := n) hk3 h1 h2 h4 h5 h6 h7
  refine ⟨s2, s3, s4, he, hrun3, e4, ?_⟩
  rw [← hc, h8 s4 e4, if_pos rfl]
  exact q3 hbefore hnothing

/-! ## A concrete case

Container 0 with group 0; a list (markers 10, 11, one item 12, 13 in fragment 9) is rendered at index
1 after a sibling (node 20) at index 2. A sibling at index 0 then appears behind the list. -/

def demoPlaces : Places := fun _ => (0, none)
def demoStart : State := ⟨fun _ => [], ⟨fun x => if x = 9 then [10, 12, 13, 11] else []⟩⟩
def demoDisplay : Display := ⟨[], [(9, 10), (9, 12), (9, 13), (9, 11)]⟩
def demoList : DynList :=
  { items := [(5, ⟨12, 13⟩)], container := 9, frag := 9, listStart := 10, listEnd := 11 }
def demoCtx (i : Nat) : Ctx := .child (.container 0 0) i

theorem demo_starts : Starts demoDisplay demoStart := by
  refine ⟨rfl, fun _ => rfl, ?_, ?_, ?_⟩
  · intro c
    simp only [demoStart]
    split <;> decide
  · intro c n
    simp only [demoStart, demoDisplay]
    split <;> rename_i h
    · subst h; simp
    · simp [h]
  · intro c c' n h1 h2
    simp only [demoDisplay, List.mem_cons, Prod.mk.injEq, List.not_mem_nil, or_false] at h1 h2
    have hc := h1; grind

def demoBefore : List Verif.Dom.Op := [.render (demoCtx 2) 20]

theorem demo_before_ok : HistoryOk demoPlaces demoDisplay demoBefore := by
  refine ⟨⟨rfl, ?_, ?_, ?_⟩, trivial⟩
  · intro c; simp [Display.In, demoDisplay]
  · simp [demoDisplay]
  · intro r hr; cases hr

theorem demo_fragment : InFragment demoPlaces (demoDisplay.run demoBefore)
    ⟨fun x => if x = 9 then [10, 12, 13, 11] else if x = 0 then [20] else []⟩ demoList [12, 13] := by
  refine ⟨rfl, rfl, ?_, ?_⟩
  · decide
  · intro g r hr; cases hr

theorem demo_canRender : CanRender demoPlaces (demoDisplay.run demoBefore) (demoCtx 1) demoList := by
  refine ⟨rfl, ?_, by decide, ?_, by decide⟩
  · intro x hx _
    simp only [Display.run, demoBefore, List.foldl, Display.step, demoDisplay, List.mem_singleton] at hx
    subst hx
    decide
  · intro r hr; cases hr

/-- afterwards: a sibling at 3, then one at 0 while … nothing is between 0 and 1 -/
def demoAfter : List Verif.Dom.Op := [.render (demoCtx 3) 21, .unrender (demoCtx 2)]

theorem demo_after_ok : HistoryOk demoPlaces (moveList (demoDisplay.run demoBefore) 9 0 [10, 12, 13, 11]) demoAfter := by
  refine ⟨⟨rfl, ?_, ?_, ?_⟩, ⟨rfl, by decide⟩, trivial⟩
  · intro c
    simp [Display.In, demoDisplay, moveList, demoBefore, Display.run, Display.step]
  · decide
  · intro r hr; cases hr

theorem demo_after_quiet : QuietHistory 0 [1] 10 11 (moveList (demoDisplay.run demoBefore) 9 0 [10, 12, 13, 11]) demoAfter := by
  refine ⟨fun _ => ⟨by decide, fun h => ?_⟩, trivial, trivial⟩
  rw [sourceBefore_iff] at h
  exact absurd h (by decide)

/-- the concrete case meets the hypotheses of `list_keeps_place_partial` and of
`earlier_sibling_misplaced`, and the document ends with the first sibling behind the list -/
example : ∃ s1 s2 s3 s4, runOps .debug demoStart demoBefore = some s1 ∧
    renderCtx .debug s1 (demoCtx 1) demoList = some (s2, { demoList with container := 0 }) ∧
    runOps .debug s2 demoAfter = some s3 ∧ s3.dom.kids 0 = [10, 12, 13, 11, 21] ∧
    (Verif.Dom.Op.render (demoCtx 0) 22).exec .debug s3 = some s4 ∧
    s4.dom.kids 0 = [10, 12, 13, 11, 22, 21] := by
  refine ⟨_, _, _, _, rfl, rfl, rfl, ?_, rfl, ?_⟩ <;> decide

example : (Verif.Dom.Op.render (demoCtx 0) 22).Ok demoPlaces
      ((moveList (demoDisplay.run demoBefore) 9 0 [10, 12, 13, 11]).run demoAfter) ∧
    SourceBefore (demoCtx 0).path (demoCtx 1).path ∧
    ¬ SomethingBetween ((moveList (demoDisplay.run demoBefore) 9 0 [10, 12, 13, 11]).run demoAfter) 0
      (demoCtx 0).path (demoCtx 1).path := by
  refine ⟨⟨rfl, ?_, by decide, ?_⟩, ?_, ?_⟩
  · intro c
    have e : ((moveList (demoDisplay.run demoBefore) 9 0 [10, 12, 13, 11]).run demoAfter).shown = [⟨0, [3], 21⟩] := by decide
    have e2 : ((moveList (demoDisplay.run demoBefore) 9 0 [10, 12, 13, 11]).run demoAfter).foreign =
      [(0, 10), (0, 12), (0, 13), (0, 11)] := by decide
    simp [Display.In, e, e2]
  · intro r hr; cases hr
  · rw [sourceBefore_iff]; decide
  · rintro ⟨x, hx, -, h1, h2⟩
    have e : ((moveList (demoDisplay.run demoBefore) 9 0 [10, 12, 13, 11]).run demoAfter).shown = [⟨0, [3], 21⟩] := by decide
    rw [e, List.mem_singleton] at hx
    subst hx
    rw [sourceBefore_iff] at h2
    exact absurd h2 (by decide)

/-- **C34.** A list that has been rendered in some context cannot be rendered again, in whatever
context, state and build: it panics. -/
theorem second_render_ctx_panics {b b2 : Build} {s s' s2 : State} {ctx ctx2 : Ctx} {L L' : DynList}
    (h : renderCtx b s ctx L = some (s', L')) (hne : ctx.home ≠ L.frag) :
    renderCtx b2 s2 ctx2 L' = none := by
  simp only [renderCtx, Option.bind_eq_bind, Option.bind_eq_some_iff] at h
  obtain ⟨_, _, _, _, _, _, _, _, h⟩ := h
  split at h
  · obtain ⟨_, _, h⟩ := Option.bind_eq_some_iff.1 h
    cases h
    cases hr : renderCtx b2 s2 ctx2 { L with container := ctx.containingNode } with
    | none => rfl
    | some r =>
      simp only [renderCtx, Option.bind_eq_bind, Option.bind_eq_some_iff] at hr
      obtain ⟨_, _, _, _, _, _, _, _, hr⟩ := hr
      rw [if_neg (by rw [Ctx.containingNode_eq]; exact hne)] at hr
      cases hr
  · cases h

/-- a list that has been rendered, so that the theorem applies -/
example : ∃ s1 s2 L', runOps .debug demoStart demoBefore = some s1 ∧
    renderCtx .debug s1 (demoCtx 1) demoList = some (s2, L') ∧ (demoCtx 1).home ≠ demoList.frag := by
  refine ⟨_, _, _, rfl, rfl, ?_⟩; decide

end Verif.Lists
