import Verif.Lists.RenderLemmas
/-! # What `DynamicList::render` does to a document that agrees with the specification -/
namespace Verif.Lists
open Verif.Dom

/-- The list is in its fragment, unrendered: its nodes are the children of the fragment, and nothing
else knows about them. -/
structure InFragment (P : Places) (D : Display) (d : Dom) (L : DynList) (items : List NodeId) : Prop where
  here : L.container = L.frag
  kids : d.kids L.frag = L.listStart :: (items ++ [L.listEnd])
  foreign : ∀ n ∈ L.listStart :: (items ++ [L.listEnd]), (L.frag, n) ∈ D.foreign
  noMarker : ∀ g r, (P g).2 = some r → r ∉ L.listStart :: (items ++ [L.listEnd])

/-- The list may be rendered in a context: the context belongs to the group's place, nothing is
displayed at or below this place, its indices are below the largest `u32`, and the marker of the
group (if any) is in the containing node. -/
structure CanRender (P : Places) (D : Display) (ctx : Ctx) (L : DynList) : Prop where
  place : (ctx.home, ctx.marker) = P ctx.group
  free : PlaceFree D ctx.group ctx.path
  index : ∀ i ∈ ctx.path, i + 1 < 2 ^ 32
  marker : ∀ r, ctx.marker = some r → (ctx.home, r) ∈ D.foreign
  elsewhere : ctx.home ≠ L.frag

/-- The specification after rendering: the nodes of the list have moved. -/
def moveList (D : Display) (f c : NodeId) (nodes : List NodeId) : Display :=
  { D with foreign := nodes.map (fun n => (c, n)) ++
      D.foreign.filter fun e => !(e.1 == f && nodes.contains e.2) }

/-- As `InFragment`, but elements that groups display may be between the markers as well. -/
structure InFragment' (P : Places) (D : Display) (d : Dom) (L : DynList) (items : List NodeId) : Prop where
  here : L.container = L.frag
  kids : d.kids L.frag = L.listStart :: (items ++ [L.listEnd])
  start : (L.frag, L.listStart) ∈ D.foreign
  only : ∀ n ∈ L.listStart :: (items ++ [L.listEnd]), ∀ x, x ≠ L.frag → n ∉ d.kids x
  noMarker : ∀ g, (P g).2 ≠ some L.listStart

theorem render_list' {P : Places} {D : Display} {s : State} {ctx : Ctx} {L : DynList} {items : List NodeId}
    (b : Build) (h : Inv P D s) (hf : InFragment' P D s.dom L items) (hr : CanRender P D ctx L) :
    ∃ s' A B K1 K2, renderCtx b s ctx L = some (s', { L with container := ctx.home }) ∧
      s'.groups = s.groups ∧
      s.groups ctx.group = A ++ B ∧ s.dom.kids ctx.home = K1 ++ K2 ∧
      List.Sublist (A.map (·.2)) K1 ∧ List.Sublist (B.map (·.2) ++ ctx.marker.toList) K2 ∧
      (∀ e ∈ A, Pos.cmp e.1 ctx.path.reverse = .lt) ∧ (∀ e ∈ B, Pos.cmp ctx.path.reverse e.1 = .lt) ∧
      s'.dom.kids ctx.home = K1 ++ L.listStart :: (items ++ L.listEnd :: K2) ∧
      s'.dom.kids L.frag = [] ∧
      (∀ x, x ≠ ctx.home → x ≠ L.frag → s'.dom.kids x = s.dom.kids x) ∧
      K2.head? = (B.map (·.2) ++ ctx.marker.toList).head? := by
  obtain ⟨hhere, hkids, hfor, honly, hnm⟩ := hf
  obtain ⟨hP, hfree, hidx, hmark, helse⟩ := hr
  have hc : (P ctx.group).1 = ctx.home := by rw [← hP]
  generalize hcc : ctx.home = c at *
  have hnd := h.nodup L.frag
  rw [hkids, List.nodup_cons, List.nodup_append] at hnd
  have hls := honly L.listStart (by simp)
  have hle := honly L.listEnd (by simp)
  have hne : L.listEnd ≠ L.listStart := by
    intro e; exact hnd.1 (by rw [← e]; simp)
  -- take the start marker out of the fragment first
  have hokr : (Verif.Dom.Op.foreignRemove L.frag L.listStart).Ok P D :=
    ⟨hfor, fun g hg => hnm g hg⟩
  obtain ⟨s1, he1, h1⟩ := h.foreignRemove b _ _ hokr
  obtain ⟨d1, hd1, heq1, hx1, hf1⟩ := insertBefore_removed (d := s.dom) (c := c)
    (ref := ((s.groups ctx.group).firstFrom ctx.path.reverse).or ctx.marker)
    (n := L.listStart) (f := L.frag) (by rw [hkids]; simp) (fun e => helse e.symm) hls
  have hs1 : s1 = { s with dom := d1 } := by
    simp only [Verif.Dom.Op.exec, hd1, bind, Option.bind, pure, Option.some.injEq] at he1
    exact he1.symm
  subst hs1
  have hadd : ctx.addChild b s [] L.listStart = ctx.addChild b { s with dom := d1 } [] L.listStart := by
    rw [Ctx.addChild_eq, Ctx.addChild_eq]
    simp only [List.nil_append, addHere, hcc, heq1]
  have hfresh1 : ∀ x, L.listStart ∉ d1.kids x := by
    intro x
    by_cases hx : x = L.frag
    · subst hx; rw [hf1]; simp
    · rw [hx1 x hx]; exact hls x hx
  obtain ⟨A, B, K1, K2, hm, hk, hsA, hsB, hhd, hA, hB, hex⟩ :=
    addHere_spec h1 b ctx.group c ctx.marker ctx.path.reverse L.listStart hP hfresh1
      (by
        intro e he heq
        have := (h.agree ctx.group e.1 e.2).1 he
        refine hfree _ this rfl ?_
        rw [heq]; simp)
      (by
        intro r hr
        simp only [Display.step, List.mem_filter]
        refine ⟨hmark r hr, ?_⟩
        simp only [bne_iff_ne, ne_eq, Prod.mk.injEq, not_and]
        exact fun e => absurd e helse)
  have hkc : s.dom.kids c = K1 ++ K2 := by rw [← hx1 c helse]; exact hk
  have hgr : s.groups ctx.group = A ++ B := hm
  -- the state after `add_child`
  have hlec : L.listEnd ∉ K1 ++ K2 := by rw [← hkc]; exact hle c helse
  have hlsc : L.listStart ∉ K1 ++ K2 := by rw [← hkc]; exact hls c helse
  simp only [List.mem_append, not_or] at hlec hlsc
  let d2 : Dom := ⟨fun x => if x = c then K1 ++ L.listStart :: K2 else d1.kids x⟩
  have hd2c : d2.kids c = K1 ++ L.listStart :: K2 := by simp [d2]
  have hd2x : ∀ x, x ≠ c → d2.kids x = d1.kids x := by intro x hx; simp [d2, hx]
  obtain ⟨d3, e3, k3, f3⟩ := insert_new (n := L.listEnd) hd2c hlsc.1 (by
    rw [hd2c]; simp only [List.mem_append, List.mem_cons, not_or]; exact ⟨hlec.1, hne, hlec.2⟩)
  -- the state after `remove_child`
  have hsorted : Group.Sorted (A ++ (ctx.path.reverse, L.listStart) :: B) :=
    Group.sorted_insert (by rw [← hgr]; exact h.sorted _) hA hB
  have hABk : ∀ e ∈ A ++ B, e.2 ∈ K1 ++ K2 := by
    intro e he
    rw [← hkc, ← hc]
    exact h.shown_kids ((h.agree _ e.1 e.2).1 (by rw [hgr]; exact he))
  have hABn : ((A ++ B).map (·.2)).Nodup := by rw [← hgr]; exact h.groupNodup _
  have hnod : ((A ++ (ctx.path.reverse, L.listStart) :: B).map (·.2)).Nodup := by
    refine ((List.perm_middle.map _).nodup_iff).2 ?_
    rw [List.map_cons, List.nodup_cons]
    refine ⟨?_, hABn⟩
    intro hmem
    obtain ⟨e, he, hee⟩ := List.mem_map.1 hmem
    have hee' : e.2 = L.listStart := hee
    have := hABk e he
    rw [hee'] at this
    simp only [List.mem_append] at this
    rcases this with h' | h'
    · exact hlsc.1 h'
    · exact hlsc.2 h'
  have hpf : ∀ e ∈ A ++ B, ctx.path.isPrefixOf e.1.reverse = false := by
    intro e he
    have := hfree _ ((h.agree _ e.1 e.2).1 (by rw [hgr]; exact he)) rfl
    cases hb : ctx.path.isPrefixOf e.1.reverse with
    | false => rfl
    | true => exact absurd (List.isPrefixOf_iff_prefix.1 hb) this
  have hrem := removeChildrenHere_eq b (A ++ (ctx.path.reverse, L.listStart) :: B) ctx.path c d3 hsorted hnod
    (by
      intro e he
      rw [k3]
      simp only [List.mem_append, List.mem_cons] at he ⊢
      have := hABk e
      simp only [List.mem_append] at this
      rcases he with he | rfl | he
      · rcases this (Or.inl he) with h' | h'
        · exact Or.inl h'
        · exact Or.inr (Or.inr (Or.inr h'))
      · exact Or.inr (Or.inr (Or.inl rfl))
      · rcases this (Or.inr he) with h' | h'
        · exact Or.inl h'
        · exact Or.inr (Or.inr (Or.inr h'))) hidx
  have hfil1 : (A ++ (ctx.path.reverse, L.listStart) :: B).filter (fun e => !ctx.path.isPrefixOf e.1.reverse)
      = A ++ B := by
    have e1 : ∀ (m : Group), (∀ e ∈ m, e ∈ A ++ B) → m.filter (fun e => !ctx.path.isPrefixOf e.1.reverse) = m := by
      intro m hm'
      rw [List.filter_eq_self]
      intro e he
      rw [hpf e (hm' e he)]; rfl
    rw [List.filter_append, List.filter_cons, e1 A (fun e he => List.mem_append_left _ he),
      e1 B (fun e he => List.mem_append_right _ he)]
    simp
  have hfil2 : (A ++ (ctx.path.reverse, L.listStart) :: B).filter (fun e => ctx.path.isPrefixOf e.1.reverse)
      = [(ctx.path.reverse, L.listStart)] := by
    have e1 : ∀ (m : Group), (∀ e ∈ m, e ∈ A ++ B) → m.filter (fun e => ctx.path.isPrefixOf e.1.reverse) = [] := by
      intro m hm'
      rw [List.filter_eq_nil_iff]
      intro e he
      rw [hpf e (hm' e he)]; simp
    rw [List.filter_append, List.filter_cons, e1 A (fun e he => List.mem_append_left _ he),
      e1 B (fun e he => List.mem_append_right _ he)]
    simp
  rw [hfil1, hfil2] at hrem
  let d4 : Dom := ⟨fun x => if x = c then (d3.kids x).filter (fun y => !([(ctx.path.reverse, L.listStart)].map (·.2)).contains y) else d3.kids x⟩
  have hd4c : d4.kids c = K1 ++ L.listEnd :: K2 := by
    simp only [d4, if_true]
    rw [k3]
    have e1 : ∀ (m : List NodeId), L.listStart ∉ m →
        m.filter (fun y => !([(ctx.path.reverse, L.listStart)].map (·.2)).contains y) = m := by
      intro m hm'
      rw [List.filter_eq_self]
      intro y hy
      simp only [List.map_cons, List.map_nil, List.contains_cons, List.contains_nil, Bool.or_false,
        Bool.not_eq_true', beq_eq_false_iff_ne, ne_eq]
      rintro rfl
      exact hm' hy
    rw [List.filter_append, List.filter_cons, List.filter_cons, e1 K1 hlsc.1, e1 K2 hlsc.2]
    simp [hne]
  have hd4x : ∀ x, x ≠ c → d4.kids x = d3.kids x := by intro x hx; simp [d4, hx]
  obtain ⟨d5, e5, k5, f5⟩ := insert_new (n := L.listStart) hd4c hlec.1 (by
    rw [hd4c]; simp only [List.mem_append, List.mem_cons, not_or]
    exact ⟨hlsc.1, fun e => hne e.symm, hlsc.2⟩)
  -- the fragment
  have hfc : L.frag ≠ c := fun e => helse e.symm
  have hfr5 : d5.kids L.frag = items := by
    rw [f5 _ hfc, hd4x _ hfc, f3 _ hfc, hd2x _ hfc, hf1, hkids, List.filter_cons]
    simp only [bne_self_eq_false, Bool.false_eq_true, if_false]
    rw [filter_ne_self hnd.1, List.filter_append, filter_ne_self (fun hm' => hnd.2.2.2 _ hm' _ (by simp) rfl)]
    simp only [List.filter_cons, bne_self_eq_false, Bool.false_eq_true, if_false, List.filter_nil, List.append_nil]
    exact filter_ne_self (fun hm' => hnd.1 (by simp [hm']))
  have hother : ∀ x, x ≠ c → x ≠ L.frag → d5.kids x = s.dom.kids x := by
    intro x hx hxf
    rw [f5 _ hx, hd4x _ hx, f3 _ hx, hd2x _ hx, hx1 x hxf, filter_ne_self (hle x hxf), filter_ne_self (hls x hxf)]
  have hdisj : ∀ n ∈ items, n ∉ d5.kids c := by
    intro n hn
    rw [k5]
    have h1 := honly n (by simp [hn]) c helse
    rw [hkc] at h1
    simp only [List.mem_append, List.mem_cons, not_or] at h1 ⊢
    refine ⟨h1.1, ?_, ?_, h1.2⟩
    · rintro rfl; exact hnd.1 (by simp [hn])
    · rintro rfl; exact hnd.2.2.2 _ hn _ (by simp) rfl
  have hproper : ∀ (ns : List NodeId) (d : Dom) (Q : List NodeId), d.kids c = Q ++ L.listEnd :: K2 → L.listEnd ∉ Q →
      (∀ n ∈ ns, n ∉ d.kids c) → ns.Nodup → ∃ d', insertAll c L.listEnd ns d = some d' ∧
      d'.kids c = Q ++ ns ++ L.listEnd :: K2 ∧
      ∀ x, x ≠ c → d'.kids x = (d.kids x).filter (fun y => !ns.contains y) := by
    intro ns
    induction ns with
    | nil =>
      intro d Q hq _ _ _
      refine ⟨d, rfl, by simpa using hq, ?_⟩
      intro x _
      rw [List.filter_eq_self.2]
      intro y _; simp
    | cons n ns ih =>
      intro d Q hq hlq hns hnn
      rw [List.nodup_cons] at hnn
      obtain ⟨d', ei, ki, fi⟩ := insert_new hq hlq (hns n (by simp))
      obtain ⟨d'', ei2, ki2, fi2⟩ := ih d' (Q ++ [n]) (by rw [ki]; simp)
        (by
          have := hns n (by simp)
          rw [hq] at this
          simp only [List.mem_append, List.mem_cons, not_or] at this ⊢
          exact ⟨hlq, fun e => this.2.1 e.symm, by simp⟩)
        (by
          intro m hm' hmm
          have := hns m (by simp [hm'])
          rw [ki] at hmm
          rw [hq] at this
          simp only [List.mem_append, List.mem_cons] at hmm this
          have hmn : m ≠ n := by rintro rfl; exact hnn.1 hm'
          grind) hnn.2
      refine ⟨d'', ?_, by rw [ki2]; simp, ?_⟩
      · simp only [insertAll, ei, bind, Option.bind]; exact ei2
      · intro x hx
        rw [fi2 x hx, fi x hx, filter_filter_ne]
  obtain ⟨d6, e6, k6, f6⟩ := hproper items d5 (K1 ++ [L.listStart]) (by rw [k5]; simp)
    (by simp only [List.mem_append, List.mem_singleton, not_or]; exact ⟨hlec.1, hne⟩) hdisj hnd.2.1
  refine ⟨⟨s.groups, d6⟩, A, B, K1, K2, ?_, rfl, hgr, hkc, hsA, hsB, hA, hB, by rw [k6]; simp, ?_, ?_, hhd⟩
  · have hs' : ctx.addChild b s [] L.listStart = some ⟨fun x => if x = ctx.group then A ++ (ctx.path.reverse, L.listStart) :: B else s.groups x, d2⟩ := by
      rw [hadd, Ctx.addChild_eq, hcc]; exact hex
    have hrc : ctx.removeChild b ⟨fun x => if x = ctx.group then A ++ (ctx.path.reverse, L.listStart) :: B else s.groups x, d3⟩ []
        = some ⟨s.groups, d4⟩ := by
      rw [Ctx.removeChild_eq, hcc]
      simp only [List.nil_append, removeHere, if_true, hrem, bind, Option.bind, pure, State.setGroup]
      congr 2
      funext x
      by_cases hx : x = ctx.group
      · subst hx; simp [hgr]
      · simp [hx]
    simp only [renderCtx, Ctx.containingNode_eq, hcc, hs', e3, hrc, e5, hfr5, e6, hhere, bind, Option.bind, pure, if_true]
  · show d6.kids L.frag = []
    rw [f6 _ hfc, hfr5, List.filter_eq_nil_iff]
    intro y hy; simpa using hy
  · intro x hx hxf
    show d6.kids x = _
    rw [f6 x hx, hother x hx hxf, List.filter_eq_self]
    intro y hy
    simp only [Bool.not_eq_true', List.contains_eq_mem, decide_eq_false_iff_not]
    intro hm'
    exact honly y (by simp [hm']) x hxf hy

theorem render_list {P : Places} {D : Display} {s : State} {ctx : Ctx} {L : DynList} {items : List NodeId}
    (b : Build) (h : Inv P D s) (hf : InFragment P D s.dom L items) (hr : CanRender P D ctx L) :
    ∃ s' A B K1 K2, renderCtx b s ctx L = some (s', { L with container := ctx.home }) ∧
      s'.groups = s.groups ∧
      s.groups ctx.group = A ++ B ∧ s.dom.kids ctx.home = K1 ++ K2 ∧
      List.Sublist (A.map (·.2)) K1 ∧ List.Sublist (B.map (·.2) ++ ctx.marker.toList) K2 ∧
      (∀ e ∈ A, Pos.cmp e.1 ctx.path.reverse = .lt) ∧ (∀ e ∈ B, Pos.cmp ctx.path.reverse e.1 = .lt) ∧
      s'.dom.kids ctx.home = K1 ++ L.listStart :: (items ++ L.listEnd :: K2) ∧
      s'.dom.kids L.frag = [] ∧
      ∀ x, x ≠ ctx.home → x ≠ L.frag → s'.dom.kids x = s.dom.kids x := by
  obtain ⟨hhere, hkids, hfor, hnm⟩ := hf
  -- the nodes of the list are only in the fragment
  have honly : ∀ n ∈ L.listStart :: (items ++ [L.listEnd]), ∀ x, x ≠ L.frag → n ∉ s.dom.kids x := by
    intro n hn x hx hm
    rcases (h.mem x n).1 hm with ⟨y, hy, rfl, _⟩ | hm'
    · exact h.sep y hy _ (hfor _ hn)
    · exact hx (h.funiq _ _ _ hm' (hfor n hn))
  obtain ⟨s', A, B, K1, K2, h1, h2, h3, h4, h5, h6, h7, h8, h9, h10, h11, -⟩ := render_list' b h
    ⟨hhere, hkids, hfor _ (by simp), honly, fun g hg => hnm g _ hg (by simp)⟩ hr
  exact ⟨s', A, B, K1, K2, h1, h2, h3, h4, h5, h6, h7, h8, h9, h10, h11⟩

end Verif.Lists
