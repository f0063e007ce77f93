import Verif.Dom.BlockLemmas
/-!
# Property theorems for C01, C02 and C04
-/
namespace Verif.Dom

/-- C01 (and the no-panic part of C02). Take any history of renders and un-renders in any
number of groups and containing nodes, mixed with insertions and removals of foreign nodes.
The code executes it without panic, and afterwards every node of the document has exactly the
expected children, each once, with the nodes of every group in source order and (for list
items) in front of their marker. -/
theorem render_history_agrees (b : Build) (P : Places) (D : Display) (s : State) (ops : List Op)
    (hstart : Starts D s) (hok : HistoryOk P D ops) :
    ∃ s', runOps b s ops = some s' ∧ Agrees P (D.run ops) s' := by
  obtain ⟨s', h1, h2⟩ := (Inv.start hstart).run b ops hok
  exact ⟨s', h1, h2.agrees⟩

/-- C01, in the shape of the user's expectation: of two displayed components of the same group,
the one that comes first in source order has its node first in the document. -/
theorem dom_order_is_source_order (b : Build) (P : Places) (D : Display) (s s' : State)
    (ops : List Op) (hstart : Starts D s) (hok : HistoryOk P D ops)
    (hrun : runOps b s ops = some s') (x y : Shown) (hx : x ∈ (D.run ops).shown)
    (hy : y ∈ (D.run ops).shown) (hg : x.group = y.group)
    (hxy : SourceBefore x.path y.path) :
    List.Sublist [x.node, y.node] (s'.dom.kids (P x.group).1) := by
  obtain ⟨s'', h1, h2⟩ := (Inv.start hstart).run b ops hok
  rw [hrun, Option.some.injEq] at h1
  subst h1
  obtain ⟨L, ⟨hperm, hsorted⟩, hsub, -⟩ := h2.agrees.order x.group
  refine List.Sublist.trans ?_ hsub
  have hxL : x ∈ L := hperm.mem_iff.2 (by simp [hx])
  have hyL : y ∈ L := hperm.mem_iff.2 (by simp [hy, hg])
  obtain ⟨L1, L2, rfl⟩ := List.append_of_mem hxL
  rcases List.mem_append.1 hyL with hyL | hyL
  · have := (List.pairwise_append.1 hsorted).2.2 y hyL x (by simp)
    rw [← lexCmp_lt_iff] at this hxy
    have h3 := lexCmp_trans this hxy
    have h4 := (lexCmp_eq_iff y.path y.path).2 rfl
    rw [h4] at h3
    cases h3
  · rcases List.mem_cons.1 hyL with rfl | hyL
    · rw [← lexCmp_lt_iff, (lexCmp_eq_iff _ _).2 rfl] at hxy
      cases hxy
    · obtain ⟨M1, M2, rfl⟩ := List.append_of_mem hyL
      simp only [List.map_append, List.map_cons]
      apply List.Sublist.trans _ (List.sublist_append_right ..)
      apply List.Sublist.cons_cons
      apply List.Sublist.trans _ (List.sublist_append_right ..)
      apply List.Sublist.cons_cons
      exact List.nil_sublist _

/-- C01: rendering does not disturb anything that is already there. -/
theorem render_keeps_others (b : Build) (P : Places) (D : Display) (s s1 s2 : State)
    (ops : List Op) (hstart : Starts D s) (hok : HistoryOk P D ops)
    (hrun : runOps b s ops = some s1) (ctx : Ctx) (n : NodeId)
    (hn : (Op.render ctx n).Ok P (D.run ops)) (hex : (Op.render ctx n).exec b s1 = some s2) :
    ∀ c, (s2.dom.kids c).filter (· != n) = s1.dom.kids c := by
  obtain ⟨s'', h1, h⟩ := (Inv.start hstart).run b ops hok
  rw [hrun, Option.some.injEq] at h1
  subst h1
  obtain ⟨hP, hfresh, hfree, hmark⟩ := hn
  have hfresh' := h.not_in_of_fresh hfresh
  have hp : ∀ e ∈ s1.groups ctx.group, e.1 ≠ ctx.path.reverse := by
    intro e he heq
    have := (h.agree ctx.group e.1 e.2).1 he
    exact hfree _ this ⟨rfl, by simp [heq]⟩
  obtain ⟨A, B, K1, K2, hm, hk, -, -, -, -, -, hex'⟩ :=
    addHere_spec h b ctx.group ctx.home ctx.marker ctx.path.reverse n hP hfresh' hp hmark
  simp only [Op.exec, Ctx.addChild_eq, List.nil_append] at hex
  rw [hex', Option.some.injEq] at hex
  subst hex
  intro c
  have hc := hfresh' c
  simp only
  split
  · next hcc =>
    subst hcc
    rw [hk] at hc ⊢
    simp only [List.mem_append, not_or] at hc
    rw [List.filter_append, List.filter_cons, filter_ne_self hc.1, filter_ne_self hc.2]
    simp
  · exact filter_ne_self hc

/-- C02. Un-rendering at a place in the component tree succeeds, and takes out of the
containing node exactly the nodes displayed at or below that place; everything else stays, in
the same order. -/
theorem unrender_exact (b : Build) (P : Places) (D : Display) (s s1 : State)
    (ops : List Op) (hstart : Starts D s) (hok : HistoryOk P D ops)
    (hrun : runOps b s ops = some s1) (ctx : Ctx)
    (hn : (Op.unrender ctx).Ok P (D.run ops)) :
    ∃ s2, (Op.unrender ctx).exec b s1 = some s2 ∧
      ∀ c, ∃ gone : List NodeId,
        (∀ n, n ∈ gone ↔ c = ctx.home ∧ ∃ x ∈ (D.run ops).shown,
          x.node = n ∧ x.group = ctx.group ∧ ctx.path <+: x.path) ∧
        s2.dom.kids c = (s1.dom.kids c).filter (fun n => decide (n ∉ gone)) := by
  obtain ⟨s'', h1, h⟩ := (Inv.start hstart).run b ops hok
  rw [hrun, Option.some.injEq] at h1
  subst h1
  refine ⟨_, unrender_spec h b ctx hn, fun c => ?_⟩
  by_cases hc : c = ctx.home
  · refine ⟨((s1.groups ctx.group).filter (fun e => ctx.path.isPrefixOf e.1.reverse)).map
      (·.2), ?_, ?_⟩
    · intro n
      have := mem_removed h ctx n
      simp only [List.contains_eq_mem, decide_eq_true_eq] at this
      rw [this]
      simp [hc, List.isPrefixOf_iff_prefix]
    · simp only [hc, if_true]
      apply List.filter_congr
      intro y _
      simp
  · refine ⟨[], by simp [hc], ?_⟩
    simp only [if_neg hc]
    symm
    rw [List.filter_eq_self]
    simp

/-- C04. When list items have distinct end markers and nobody else inserts into the middle of an
item, the content of every list item stays one contiguous run, in source order, directly in
front of its end marker. -/
theorem item_content_contiguous (b : Build) (P : Places) (D : Display) (s s' : State)
    (ops : List Op) (hstart : Starts D s) (hok : HistoryOk P D ops)
    (hM : DistinctMarkers P) (hsep : HistorySeparate P D ops)
    (hrun : runOps b s ops = some s') (g : GroupId) (r : NodeId) (hr : (P g).2 = some r)
    (hin : ((P g).1, r) ∈ (D.run ops).foreign) :
    ∃ L, SourceSorted (D.run ops) g L ∧
      (L.map (·.node) ++ [r]) <:+: s'.dom.kids (P g).1 := by
  obtain ⟨s'', h1, h⟩ := (Inv.start hstart).run b ops hok
  rw [hrun, Option.some.injEq] at h1
  subst h1
  have hB := Blocks.run (Inv.start hstart) (Blocks.start hstart) hM b ops hok hsep hrun g r hr hin
  obtain ⟨L, hL, -, hsub⟩ := h.agrees.order g
  refine ⟨L, hL, ?_⟩
  -- the sorted list is unique: both are the source-sorted nodes of the group
  have hL' : SourceSorted (D.run ops) g
      ((s'.groups g).map fun e => ⟨g, e.1.reverse, e.2⟩) := by
    refine ⟨?_, ?_⟩
    · apply (List.perm_ext_iff_of_nodup _ _).2
      · intro x
        simp only [List.mem_map, List.mem_filter, beq_iff_eq]
        constructor
        · rintro ⟨e, he, rfl⟩
          exact ⟨(h.agree g e.1 e.2).1 he, rfl⟩
        · rintro ⟨hx, rfl⟩
          refine ⟨(x.path.reverse, x.node), ?_, by simp⟩
          rw [h.agree]; simpa using hx
      · have hn := h.groupNodup g
        rw [List.Nodup, List.pairwise_map] at *
        apply hn.imp
        intro a b hab heq
        simp at heq
        exact hab heq.2
      · exact h.shownNodup.filter _
    · rw [List.pairwise_map]
      apply (h.sorted g).imp
      intro a b hab
      rwa [cmp_eq_lex, lexCmp_lt_iff] at hab
  have : L = (s'.groups g).map fun e => ⟨g, e.1.reverse, e.2⟩ := by
    apply List.Perm.eq_of_pairwise (le := fun x y => SourceBefore x.path y.path) _ hL.2 hL'.2
      (hL.1.trans hL'.1.symm)
    intro x y _ _ h1 h2
    rw [← lexCmp_lt_iff] at h1 h2
    have h3 := lexCmp_trans h1 h2
    rw [(lexCmp_eq_iff x.path x.path).2 rfl] at h3
    cases h3
  rw [this]
  simpa [List.map_map, Function.comp_def] using hB

/-! A concrete history meeting all hypotheses: node 0 contains a foreign node 50 and the end
marker 101 of a list item; two components and one item content are rendered out of order, one
is un-rendered. -/

def exPlaces : Places := fun g => (0, if g = 1 then some 101 else none)
def exDisplay : Display := ⟨[], [(0, 50), (0, 101)]⟩
def exState : State := ⟨fun _ => [], ⟨fun c => if c = 0 then [50, 101] else []⟩⟩
def exRoot : Ctx := .container 0 0
def exItem : Ctx := .sibling (.child exRoot 5) 1 101
def exOps : List Op :=
  [.render (.child exRoot 2) 7, .render (.child (.child exRoot 0) 3) 8, .render exItem 9,
   .render (.child exRoot 1) 10, .foreignInsert 0 60 (some 50), .unrender (.child exRoot 2)]

example : Starts exDisplay exState ∧ HistoryOk exPlaces exDisplay exOps ∧
    DistinctMarkers exPlaces ∧ HistorySeparate exPlaces exDisplay exOps := by
  refine ⟨⟨rfl, fun _ => rfl, ?_, ?_, ?_⟩, ?_, ?_, ?_⟩
  · intro c; simp only [exState]; split <;> decide
  · intro c n; simp only [exState, exDisplay]; split <;> simp_all
  · intro c c' n h1 h2
    simp [exDisplay] at h1 h2; grind
  · simp [HistoryOk, exOps, Op.Ok, exRoot, exItem, exPlaces, exDisplay, Ctx.home,
      Ctx.marker, Ctx.group, Ctx.path, Display.In, Display.step]
  · intro g h r; simp only [exPlaces]; split <;> split <;> simp_all
  · simp [HistorySeparate, exOps, Op.Separate, exRoot, exItem, exPlaces, exDisplay, Ctx.group,
      Ctx.path, Display.step]

example : ((runOps .debug exState exOps).map fun s => s.dom.kids 0) =
    some [60, 50, 9, 101, 8, 10] := by decide

end Verif.Dom
