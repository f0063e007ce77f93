import Verif.Dom.ContextLemmas
/-! Invariant behind the render-history theorems. -/
namespace Verif.Dom

structure Inv (P : Places) (D : Display) (s : State) : Prop where
  sorted : ∀ g, (s.groups g).Sorted
  agree : ∀ g p n, (p, n) ∈ s.groups g ↔ (⟨g, p.reverse, n⟩ : Shown) ∈ D.shown
  uniq : ∀ x ∈ D.shown, ∀ y ∈ D.shown, x.node = y.node → x = y
  shownNodup : D.shown.Nodup
  sep : ∀ x ∈ D.shown, ∀ c, (c, x.node) ∉ D.foreign
  funiq : ∀ c c' n, (c, n) ∈ D.foreign → (c', n) ∈ D.foreign → c = c'
  nodup : ∀ c, (s.dom.kids c).Nodup
  mem : ∀ c n, n ∈ s.dom.kids c ↔ D.In P c n
  order : ∀ g, List.Sublist ((s.groups g).map (·.2)) (s.dom.kids (P g).1)
  orderM : ∀ g r, (P g).2 = some r → ((P g).1, r) ∈ D.foreign →
    List.Sublist ((s.groups g).map (·.2) ++ [r]) (s.dom.kids (P g).1)
  markIn : ∀ g r, (P g).2 = some r → s.groups g ≠ [] → ((P g).1, r) ∈ D.foreign

theorem Inv.start {P : Places} {D : Display} {s : State} (h : Starts D s) : Inv P D s := by
  obtain ⟨h1, h2, h3, h4, h5⟩ := h
  refine ⟨?_, ?_, ?_, ?_, ?_, h5, h3, ?_, ?_, ?_, ?_⟩
  · intro g; rw [h2]; exact List.Pairwise.nil
  · intro g p n; rw [h2, h1]; simp
  · rw [h1]; simp
  · rw [h1]; simp
  · rw [h1]; simp
  · intro c n; rw [h4]; simp [Display.In, h1]
  · intro g; rw [h2]; simp
  · intro g r hr hf; rw [h2]; simp; rw [h4]; exact hf
  · intro g r _ hne; exact absurd (h2 g) hne

theorem Inv.groupNodup {P : Places} {D : Display} {s : State} (h : Inv P D s) (g : GroupId) :
    ((s.groups g).map (·.2)).Nodup :=
  List.Nodup.sublist (h.order g) (h.nodup _)

theorem Inv.agrees {P : Places} {D : Display} {s : State} (h : Inv P D s) : Agrees P D s := by
  refine ⟨h.nodup, h.mem, fun g => ?_⟩
  refine ⟨(s.groups g).map fun e => ⟨g, e.1.reverse, e.2⟩, ⟨?_, ?_⟩, ?_, ?_⟩
  · apply (List.perm_ext_iff_of_nodup _ _).2
    · intro x
      simp only [List.mem_map, List.mem_filter, beq_iff_eq]
      constructor
      · rintro ⟨e, he, rfl⟩
        exact ⟨(h.agree g e.1 e.2).1 he, rfl⟩
      · rintro ⟨hx, rfl⟩
        refine ⟨(x.path.reverse, x.node), ?_, by simp⟩
        rw [h.agree]; simpa using hx
    · have hn := h.groupNodup g
      rw [List.Nodup, List.pairwise_map] at *
      apply hn.imp
      intro a b hab heq
      simp at heq
      exact hab heq.2
    · exact h.shownNodup.filter _
  · rw [List.pairwise_map]
    apply (h.sorted g).imp
    intro a b hab
    rwa [cmp_eq_lex, lexCmp_lt_iff] at hab
  · simpa [List.map_map, Function.comp_def] using h.order g
  · simpa [List.map_map, Function.comp_def] using h.orderM g

/-- What `add_child` does to a state satisfying the invariant. -/
theorem addHere_spec {P : Places} {D : Display} {s : State} (h : Inv P D s) (b : Build)
    (g : GroupId) (c : NodeId) (fb : Option NodeId) (p : Pos) (n : NodeId)
    (hP : (c, fb) = P g) (hfresh : ∀ c, n ∉ s.dom.kids c) (hp : ∀ e ∈ s.groups g, e.1 ≠ p)
    (hfb : ∀ r, fb = some r → (c, r) ∈ D.foreign) :
    ∃ A B K1 K2, s.groups g = A ++ B ∧ s.dom.kids c = K1 ++ K2 ∧
      List.Sublist (A.map (·.2)) K1 ∧ List.Sublist (B.map (·.2) ++ fb.toList) K2 ∧
      (K2.head? = (B.map (·.2) ++ fb.toList).head?) ∧
      (∀ e ∈ A, Pos.cmp e.1 p = .lt) ∧ (∀ e ∈ B, Pos.cmp p e.1 = .lt) ∧
      addHere b s g c fb p n =
        some ⟨fun x => if x = g then A ++ (p, n) :: B else s.groups x,
          ⟨fun x => if x = c then K1 ++ n :: K2 else s.dom.kids x⟩⟩ := by
  obtain ⟨A, B, hm, hf, hi, hA, hB⟩ := Group.split (s.groups g) (h.sorted g) p n hp
  have hc : (P g).1 = c := by rw [← hP]
  have hfb' : (P g).2 = fb := by rw [← hP]
  have hsub : List.Sublist (A.map (·.2) ++ (B.map (·.2) ++ fb.toList)) (s.dom.kids c) := by
    cases hfb2 : fb with
    | none =>
      have := h.order g
      rw [hc, hm] at this
      simpa using this
    | some r =>
      have := h.orderM g r (hfb'.trans hfb2) (by rw [hc]; exact hfb r hfb2)
      rw [hc, hm] at this
      simpa using this
  simp only [addHere, hf, hi, panicIfDuplicate, State.setGroup, Option.bind_eq_bind]
  cases hB' : B.map (·.2) ++ fb.toList with
  | nil =>
    have hBn : B = [] := by cases B <;> simp at hB' ⊢
    have hfbn : fb = none := by cases fb <;> simp at hB' ⊢
    subst hBn hfbn
    refine ⟨A, [], s.dom.kids c, [], by simpa using hm, by simp, ?_, by simp, by simp, hA, hB, ?_⟩
    · simpa using hsub
    · simp only [List.head?_nil, Option.map_none, Option.or_none, Dom.insert_end _ _ _ hfresh,
        Option.bind_some]
      have : (fun x => if x = c then s.dom.kids x ++ [n] else s.dom.kids x) =
          fun x => if x = c then s.dom.kids c ++ [n] else s.dom.kids x := by
        funext x
        split
        · next hx => rw [hx]
        · rfl
      rw [this]
      cases b <;> simp
  | cons r rest =>
    have hr : (B.head?.map (·.2)).or fb = some r := by
      cases B with
      | nil => cases fb <;> simp at hB' ⊢; exact hB'.1
      | cons e B => simp at hB' ⊢; exact hB'.1
    rw [hB'] at hsub
    obtain ⟨K1, K2, hk, hnot, hs1, hs2⟩ := sublist_split hsub (h.nodup c)
    refine ⟨A, B, K1, r :: K2, hm, hk, hs1, ?_, by rw [hB']; simp, hA, hB, ?_⟩
    · rw [hB']; exact hs2.cons_cons _
    · rw [hr, Dom.insert_before_split _ _ _ _ hfresh hk hnot]
      simp only [Option.bind_some]
      cases b <;> simp

theorem Inv.not_in_of_fresh {P : Places} {D : Display} {s : State} (h : Inv P D s) {n : NodeId}
    (hf : ∀ c, ¬ D.In P c n) (c : NodeId) : n ∉ s.dom.kids c := by
  rw [h.mem]; exact hf c

theorem Inv.shown_kids {P : Places} {D : Display} {s : State} (h : Inv P D s) {x : Shown}
    (hx : x ∈ D.shown) : x.node ∈ s.dom.kids (P x.group).1 := by
  rw [h.mem]; exact .inl ⟨x, hx, rfl, rfl⟩

/-- Recording a fresh node at a free place, and inserting it between the nodes that come before and
after that place, keeps the invariant. -/
theorem Inv.insertAt {P : Places} {D : Display} {s : State} (h : Inv P D s) (ctx : Ctx)
    (n : NodeId) (hok : (Op.render ctx n).Ok P D) {A B : Group} {K1 K2 : List NodeId}
    (hm : s.groups ctx.group = A ++ B) (hk : s.dom.kids ctx.home = K1 ++ K2)
    (hA' : List.Sublist (A.map (·.2)) K1) (hB' : List.Sublist (B.map (·.2) ++ ctx.marker.toList) K2)
    (hA : ∀ e ∈ A, Pos.cmp e.1 ctx.path.reverse = .lt)
    (hB : ∀ e ∈ B, Pos.cmp ctx.path.reverse e.1 = .lt) :
    Inv P (D.step (.render ctx n))
      ⟨fun x => if x = ctx.group then A ++ (ctx.path.reverse, n) :: B else s.groups x,
        ⟨fun x => if x = ctx.home then K1 ++ n :: K2 else s.dom.kids x⟩⟩ := by
  obtain ⟨hP, hfresh, hfree, hmark⟩ := hok
  have hfresh' := h.not_in_of_fresh hfresh
  have hc : (P ctx.group).1 = ctx.home := by rw [← hP]
  have hkk : ∀ c, List.Sublist (s.dom.kids c)
      (if c = ctx.home then K1 ++ n :: K2 else s.dom.kids c) := by
    intro c
    split
    · next hcc =>
      subst hcc
      rw [hk]
      exact List.Sublist.append_left (List.sublist_cons_self ..) _
    · exact List.Sublist.refl _
  have hnotshown : ∀ x ∈ D.shown, x.node ≠ n := by
    intro x hx heq
    exact hfresh _ (.inl ⟨x, hx, heq, rfl⟩)
  refine ⟨?_, ?_, ?_, ?_, ?_, h.funiq, ?_, ?_, ?_, ?_, ?_⟩
  · intro g
    simp only
    split
    · exact Group.sorted_insert (hm ▸ h.sorted ctx.group) hA hB
    · exact h.sorted g
  · intro g p k
    simp only [Display.step, List.mem_cons]
    split
    · next hg =>
      subst hg
      rw [List.mem_append, List.mem_cons]
      have := h.agree ctx.group p k
      rw [hm, List.mem_append] at this
      rw [← this]
      simp only [Prod.mk.injEq, Shown.mk.injEq, true_and]
      have hrev : p = ctx.path.reverse ↔ p.reverse = ctx.path := by
        constructor
        · rintro rfl; simp
        · intro h; rw [← h]; simp
      rw [hrev]
      constructor
      · rintro (h | h | h)
        · exact .inr (.inl h)
        · exact .inl h
        · exact .inr (.inr h)
      · rintro (h | h | h)
        · exact .inr (.inl h)
        · exact .inl h
        · exact .inr (.inr h)
    · next hg =>
      rw [h.agree]
      simp [hg]
  · intro x hx y hy hxy
    simp only [Display.step, List.mem_cons] at hx hy
    rcases hx with rfl | hx <;> rcases hy with rfl | hy
    · rfl
    · exact absurd hxy.symm (hnotshown y hy)
    · exact absurd hxy (hnotshown x hx)
    · exact h.uniq x hx y hy hxy
  · simp only [Display.step]
    rw [List.nodup_cons]
    exact ⟨fun hx => hnotshown _ hx rfl, h.shownNodup⟩
  · intro x hx c hc
    simp only [Display.step, List.mem_cons] at hx hc
    rcases hx with rfl | hx
    · exact hfresh c (.inr hc)
    · exact h.sep x hx c hc
  · intro c
    simp only
    split
    · have hn1 := h.nodup ctx.home
      have hnk := hfresh' ctx.home
      rw [hk] at hn1 hnk
      rw [List.nodup_append] at *
      simp only [List.mem_append, not_or] at hnk
      refine ⟨hn1.1, List.nodup_cons.2 ⟨hnk.2, hn1.2.1⟩, ?_⟩
      intro a ha b hb
      rcases List.mem_cons.1 hb with rfl | hb
      · rintro rfl; exact hnk.1 ha
      · exact hn1.2.2 a ha b hb
    · exact h.nodup c
  · intro c k
    have hold := h.mem c k
    simp only [Display.In, Display.step, List.mem_cons, exists_eq_or_imp]
    simp only [Display.In] at hold
    split
    · next hcc =>
      subst hcc
      rw [hk, List.mem_append] at hold
      rw [List.mem_append, List.mem_cons]
      have : k = n ∨ (k ∈ K1 ∨ k ∈ K2) ↔ k ∈ K1 ∨ k = n ∨ k ∈ K2 := by grind
      rw [← this, hold]
      simp only [hc, and_true]
      constructor
      · rintro (h | h | h)
        · exact .inl (.inl h.symm)
        · exact .inl (.inr h)
        · exact .inr h
      · rintro ((h | h) | h)
        · exact .inl h.symm
        · exact .inr (.inl h)
        · exact .inr (.inr h)
    · next hcc =>
      rw [hold]
      have : ¬ (n = k ∧ (P ctx.group).1 = c) := by
        rintro ⟨-, h⟩; exact hcc (by rw [← hc, h])
      simp only [this, false_or]
  · intro g
    simp only
    split
    · next hg =>
      subst hg
      rw [hc, if_pos rfl]
      simp only [List.map_append, List.map_cons]
      apply List.Sublist.append hA'
      apply List.Sublist.cons_cons
      exact List.Sublist.trans (List.sublist_append_left ..) hB'
    · exact List.Sublist.trans (h.order g) (hkk _)
  · intro g r hr hf
    simp only [Display.step] at hf ⊢
    split
    · next hg =>
      subst hg
      rw [hc, if_pos rfl]
      simp only [List.map_append, List.map_cons, List.append_assoc, List.cons_append]
      apply List.Sublist.append hA'
      apply List.Sublist.cons_cons
      have : ctx.marker = some r := by rw [← hP] at hr; exact hr
      rw [this] at hB'
      simpa using hB'
    · exact List.Sublist.trans (h.orderM g r hr hf) (hkk _)
  · intro g r hr hne
    simp only [Display.step]
    by_cases hg : g = ctx.group
    · subst hg
      rw [← hP] at hr ⊢
      exact hmark r hr
    · simp only [if_neg hg] at hne
      exact h.markIn g r hr hne

theorem Inv.render {P : Places} {D : Display} {s : State} (h : Inv P D s) (b : Build) (ctx : Ctx)
    (n : NodeId) (hok : (Op.render ctx n).Ok P D) :
    ∃ s', (Op.render ctx n).exec b s = some s' ∧ Inv P (D.step (.render ctx n)) s' := by
  have hok' := hok
  obtain ⟨hP, hfresh, hfree, hmark⟩ := hok'
  have hp : ∀ e ∈ s.groups ctx.group, e.1 ≠ ctx.path.reverse := by
    intro e he heq
    have := (h.agree ctx.group e.1 e.2).1 he
    exact hfree _ this ⟨rfl, by simp [heq]⟩
  obtain ⟨A, B, K1, K2, hm, hk, hA', hB', -, hA, hB, hex⟩ :=
    addHere_spec h b ctx.group ctx.home ctx.marker ctx.path.reverse n hP (h.not_in_of_fresh hfresh)
      hp hmark
  exact ⟨_, by simp only [Op.exec, Ctx.addChild_eq, List.nil_append]; exact hex,
    h.insertAt ctx n hok hm hk hA' hB' hA hB⟩

/-- What `remove_child` does to a state satisfying the invariant. -/
theorem unrender_spec {P : Places} {D : Display} {s : State} (h : Inv P D s) (b : Build)
    (ctx : Ctx) (hok : (Op.unrender ctx).Ok P D) :
    (Op.unrender ctx).exec b s =
      some ⟨fun x => if x = ctx.group then
            (s.groups x).filter (fun e => !ctx.path.isPrefixOf e.1.reverse) else s.groups x,
        ⟨fun x => if x = ctx.home then
          (s.dom.kids x).filter (fun y =>
            !(((s.groups ctx.group).filter (fun e => ctx.path.isPrefixOf e.1.reverse)).map
              (·.2)).contains y)
          else s.dom.kids x⟩⟩ := by
  obtain ⟨hP, hi⟩ := hok
  have hc : (P ctx.group).1 = ctx.home := by rw [← hP]
  simp only [Op.exec, Ctx.removeChild_eq, List.nil_append, removeHere]
  rw [removeChildrenHere_eq b _ ctx.path _ _ (h.sorted _) (h.groupNodup _) _ hi]
  · simp only [Option.bind_eq_bind, Option.bind_some, State.setGroup, Option.pure_def,
      Option.some.injEq, State.mk.injEq, and_true]
    funext x
    split
    · next hx => rw [hx]
    · rfl
  · intro e he
    have := h.shown_kids ((h.agree _ e.1 e.2).1 he)
    rw [← hc]; exact this

/-- The nodes taken out by an un-render, in terms of the specification. -/
theorem mem_removed {P : Places} {D : Display} {s : State} (h : Inv P D s) (ctx : Ctx)
    (y : NodeId) :
    (((s.groups ctx.group).filter (fun e => ctx.path.isPrefixOf e.1.reverse)).map
      (·.2)).contains y = true ↔
    ∃ x ∈ D.shown, x.node = y ∧ x.group = ctx.group ∧ ctx.path.isPrefixOf x.path := by
  simp only [List.contains_eq_mem, decide_eq_true_eq, List.mem_map, List.mem_filter]
  constructor
  · rintro ⟨e, ⟨he, hp⟩, rfl⟩
    exact ⟨_, (h.agree _ e.1 e.2).1 he, rfl, rfl, hp⟩
  · rintro ⟨x, hx, rfl, hg, hp⟩
    refine ⟨(x.path.reverse, x.node), ⟨?_, by simpa using hp⟩, rfl⟩
    rw [h.agree]
    simpa [← hg] using hx

theorem Inv.unrender {P : Places} {D : Display} {s : State} (h : Inv P D s) (b : Build) (ctx : Ctx)
    (hok : (Op.unrender ctx).Ok P D) :
    ∃ s', (Op.unrender ctx).exec b s = some s' ∧ Inv P (D.step (.unrender ctx)) s' := by
  refine ⟨_, unrender_spec h b ctx hok, ?_⟩
  have hc : (P ctx.group).1 = ctx.home := by rw [← hok.1]
  have hrem := mem_removed h ctx
  generalize hR : ((s.groups ctx.group).filter (fun e => ctx.path.isPrefixOf e.1.reverse)).map
      (·.2) = R at hrem
  have hsub : ∀ x, x ∈ (D.step (.unrender ctx)).shown → x ∈ D.shown := by
    intro x hx
    exact (List.mem_filter.1 hx).1
  -- nodes of the other groups and foreign nodes are not removed
  have hother : ∀ g, g ≠ ctx.group → ∀ e ∈ s.groups g, R.contains e.2 = false := by
    intro g hg e he
    rw [Bool.eq_false_iff]
    intro hcon
    obtain ⟨x, hx, hn, hxg, -⟩ := (hrem e.2).1 hcon
    have := h.uniq _ ((h.agree g e.1 e.2).1 he) x hx hn.symm
    rw [← this] at hxg
    exact hg hxg
  have hforeign : ∀ c n, (c, n) ∈ D.foreign → R.contains n = false := by
    intro c n hcn
    rw [Bool.eq_false_iff]
    intro hcon
    obtain ⟨x, hx, hn, -⟩ := (hrem n).1 hcon
    exact h.sep x hx c (by rw [hn]; exact hcn)
  have hself : ∀ e ∈ s.groups ctx.group,
      R.contains e.2 = ctx.path.isPrefixOf e.1.reverse := by
    intro e he
    rw [Bool.eq_iff_iff, hrem]
    constructor
    · rintro ⟨x, hx, hn, hxg, hp⟩
      have := h.uniq _ ((h.agree _ e.1 e.2).1 he) x hx hn.symm
      rw [← this] at hp
      exact hp
    · intro hp
      exact ⟨_, (h.agree _ e.1 e.2).1 he, rfl, rfl, hp⟩
  have hmap : ∀ g, ((if g = ctx.group then
      (s.groups g).filter (fun e => !ctx.path.isPrefixOf e.1.reverse) else s.groups g).map (·.2)) =
      ((s.groups g).map (·.2)).filter (fun y => !R.contains y) := by
    intro g
    rw [List.filter_map]
    congr 1
    split
    · next hg =>
      subst hg
      apply List.filter_congr
      intro e he
      simp only [Function.comp]
      rw [hself e he]
    · next hg =>
      symm
      rw [List.filter_eq_self]
      intro e he
      simp only [Function.comp]
      rw [hother g hg e he]
      rfl
  have hfsub : ∀ (l : List NodeId) c, List.Sublist l (s.dom.kids c) →
      List.Sublist (l.filter (fun y => !R.contains y))
      (if c = ctx.home then (s.dom.kids c).filter (fun y => !R.contains y)
        else s.dom.kids c) := by
    intro l c hl
    split
    · exact hl.filter _
    · exact List.Sublist.trans List.filter_sublist hl
  refine ⟨?_, ?_, ?_, ?_, ?_, h.funiq, ?_, ?_, ?_, ?_, ?_⟩
  · intro g
    simp only
    split
    · exact List.Pairwise.filter _ (h.sorted g)
    · exact h.sorted g
  · intro g p n
    simp only [Display.step, List.mem_filter]
    rw [← h.agree]
    split
    · next hg =>
      subst hg
      simp
    · next hg =>
      simp [hg]
  · intro x hx y hy
    exact h.uniq x (hsub x hx) y (hsub y hy)
  · exact h.shownNodup.filter _
  · intro x hx c
    exact h.sep x (hsub x hx) c
  · intro c
    simp only
    split
    · exact (h.nodup c).filter _
    · exact h.nodup c
  · intro c n
    have hold := h.mem c n
    simp only [Display.In, Display.step, List.mem_filter] at hold ⊢
    split
    · next hcc =>
      rw [List.mem_filter, hold]
      constructor
      · rintro ⟨h1 | h1, h2⟩
        · obtain ⟨x, hx, rfl, hxc⟩ := h1
          refine .inl ⟨x, ⟨hx, ?_⟩, rfl, hxc⟩
          simp only [Bool.not_eq_true', Bool.and_eq_false_iff, beq_eq_false_iff_ne] at h2 ⊢
          by_cases hg : x.group = ctx.group
          · right
            rw [Bool.eq_false_iff] at h2 ⊢
            intro hp
            exact h2 ((hrem x.node).2 ⟨x, hx, rfl, hg, hp⟩)
          · exact .inl hg
        · exact .inr h1
      · rintro (⟨x, ⟨hx, hx2⟩, rfl, hxc⟩ | h1)
        · refine ⟨.inl ⟨x, hx, rfl, hxc⟩, ?_⟩
          simp only [Bool.not_eq_true', Bool.eq_false_iff]
          intro hcon
          obtain ⟨y, hy, hn, hg, hp⟩ := (hrem x.node).1 hcon
          have := h.uniq y hy x hx hn
          subst this
          simp [hg, hp] at hx2
        · exact ⟨.inr h1, by rw [hforeign c n h1]; rfl⟩
    · next hcc =>
      rw [hold]
      constructor
      · rintro (⟨x, hx, rfl, hxc⟩ | h1)
        · refine .inl ⟨x, ⟨hx, ?_⟩, rfl, hxc⟩
          have : x.group ≠ ctx.group := by
            intro hg
            rw [hg, hc] at hxc
            exact hcc hxc.symm
          simp [this]
        · exact .inr h1
      · rintro (⟨x, ⟨hx, -⟩, rfl, hxc⟩ | h1)
        · exact .inl ⟨x, hx, rfl, hxc⟩
        · exact .inr h1
  · intro g
    simp only
    rw [hmap]
    exact hfsub _ _ (h.order g)
  · intro g r hr hf
    simp only [Display.step] at hf ⊢
    rw [hmap]
    have := hfsub _ _ (h.orderM g r hr hf)
    rw [List.filter_append] at this
    have hr2 := hforeign _ _ hf
    have hr3 : [r].filter (fun y => !R.contains y) = [r] := by
      rw [List.filter_cons]; simp only [hr2]; rfl
    rw [hr3] at this
    exact this
  · intro g r hr hne
    apply h.markIn g r hr
    intro hnil
    apply hne
    simp only
    split <;> simp [hnil]

/-- What inserting a fresh foreign node does. -/
theorem insert_spec {P : Places} {D : Display} {s : State} (h : Inv P D s) (c n : NodeId)
    (ref : Option NodeId) (hfresh : ∀ c, n ∉ s.dom.kids c)
    (href : ∀ r, ref = some r → r ∈ s.dom.kids c) :
    ∃ K1 K2, s.dom.kids c = K1 ++ K2 ∧ K2.head? = ref ∧ 
      s.dom.insertBefore c n ref =
        some ⟨fun x => if x = c then K1 ++ n :: K2 else s.dom.kids x⟩ := by
  cases ref with
  | none =>
    refine ⟨s.dom.kids c, [], by simp, rfl, ?_⟩
    rw [Dom.insert_end _ _ _ hfresh]
    congr 2
    funext x
    split
    · next hx => rw [hx]
    · rfl
  | some r =>
    have hr := href r rfl
    obtain ⟨K1, K2, hk, hnot, -, -⟩ :=
      sublist_split (A := []) (B := []) (x := r) (K := s.dom.kids c)
        (by simpa using hr) (h.nodup c)
    exact ⟨K1, r :: K2, hk, rfl, Dom.insert_before_split _ _ _ _ hfresh hk hnot⟩

theorem Inv.foreignInsert {P : Places} {D : Display} {s : State} (h : Inv P D s) (b : Build)
    (c n : NodeId) (ref : Option NodeId) (hok : (Op.foreignInsert c n ref).Ok P D) :
    ∃ s', (Op.foreignInsert c n ref).exec b s = some s' ∧
      Inv P (D.step (.foreignInsert c n ref)) s' := by
  obtain ⟨hfresh, href⟩ := hok
  have hfresh' := h.not_in_of_fresh hfresh
  obtain ⟨K1, K2, hk, -, hex⟩ := insert_spec h c n ref hfresh'
    (by intro r hr; rw [h.mem]; exact href r hr)
  refine ⟨_, by simp only [Op.exec, hex]; rfl, ?_⟩
  have hkk : ∀ x, List.Sublist (s.dom.kids x)
      (if x = c then K1 ++ n :: K2 else s.dom.kids x) := by
    intro x
    split
    · next hcc =>
      subst hcc
      rw [hk]
      exact List.Sublist.append_left (List.sublist_cons_self ..) _
    · exact List.Sublist.refl _
  refine ⟨h.sorted, h.agree, h.uniq, h.shownNodup, ?_, ?_, ?_, ?_, ?_, ?_, ?_⟩
  · intro x hx c' hc'
    simp only [Display.step, List.mem_cons, Prod.mk.injEq] at hc'
    rcases hc' with ⟨-, hc'⟩ | hc'
    · exact hfresh _ (.inl ⟨x, hx, hc', rfl⟩)
    · exact h.sep x hx c' hc'
  · intro c1 c2 m h1 h2
    simp only [Display.step, List.mem_cons, Prod.mk.injEq] at h1 h2
    rcases h1 with ⟨rfl, rfl⟩ | h1 <;> rcases h2 with ⟨rfl, h2⟩ | h2
    · rfl
    · exact absurd (.inr h2) (hfresh _)
    · subst h2; exact absurd (.inr h1) (hfresh _)
    · exact h.funiq _ _ _ h1 h2
  · intro x
    simp only
    split
    · have hn1 := h.nodup c
      have hnk := hfresh' c
      rw [hk] at hn1 hnk
      rw [List.nodup_append] at *
      simp only [List.mem_append, not_or] at hnk
      refine ⟨hn1.1, List.nodup_cons.2 ⟨hnk.2, hn1.2.1⟩, ?_⟩
      intro a ha b hb
      rcases List.mem_cons.1 hb with rfl | hb
      · rintro rfl; exact hnk.1 ha
      · exact hn1.2.2 a ha b hb
    · exact h.nodup x
  · intro x k
    have hold := h.mem x k
    simp only [Display.In, Display.step, List.mem_cons, Prod.mk.injEq]
    simp only [Display.In] at hold
    split
    · next hcc =>
      subst hcc
      rw [hk, List.mem_append] at hold
      rw [List.mem_append, List.mem_cons]
      have : k = n ∨ (k ∈ K1 ∨ k ∈ K2) ↔ k ∈ K1 ∨ k = n ∨ k ∈ K2 := by grind
      rw [← this, hold]
      simp only [true_and]
      grind
    · next hcc =>
      rw [hold]
      simp only [hcc, false_and, false_or]
  · intro g
    exact List.Sublist.trans (h.order g) (hkk _)
  · intro g r hr hf
    simp only [Display.step, List.mem_cons, Prod.mk.injEq] at hf ⊢
    rcases hf with ⟨hc, rfl⟩ | hf
    · have : s.groups g = [] := by
        by_cases hne : s.groups g = []
        · exact hne
        · exact absurd (.inr (h.markIn g r hr hne)) (hfresh _)
      rw [this, if_pos hc]
      simp
    · exact List.Sublist.trans (h.orderM g r hr hf) (hkk _)
  · intro g r hr hne
    simp only [Display.step, List.mem_cons]
    exact .inr (h.markIn g r hr hne)

theorem Inv.foreignRemove {P : Places} {D : Display} {s : State} (h : Inv P D s) (b : Build)
    (c n : NodeId) (hok : (Op.foreignRemove c n).Ok P D) :
    ∃ s', (Op.foreignRemove c n).exec b s = some s' ∧
      Inv P (D.step (.foreignRemove c n)) s' := by
  obtain ⟨hin, hmark⟩ := hok
  have hmem : n ∈ s.dom.kids c := (h.mem c n).2 (.inr hin)
  refine ⟨⟨s.groups, ⟨fun x => if x = c then (s.dom.kids x).filter (· != n) else s.dom.kids x⟩⟩,
    by simp [Op.exec, Dom.removeChild, if_pos hmem], ?_⟩
  have hns : ∀ x ∈ D.shown, x.node ≠ n := by
    intro x hx heq
    exact h.sep x hx c (by rw [heq]; exact hin)
  have hkeep : ∀ (l : List NodeId) x, List.Sublist l (s.dom.kids x) → n ∉ l →
      List.Sublist l (if x = c then (s.dom.kids x).filter (· != n) else s.dom.kids x) := by
    intro l x hl hn
    split
    · have := hl.filter (· != n)
      rwa [filter_ne_self hn] at this
    · exact hl
  have hng : ∀ g, n ∉ (s.groups g).map (·.2) := by
    intro g hmem
    obtain ⟨e, he, heq⟩ := List.mem_map.1 hmem
    exact hns _ ((h.agree g e.1 e.2).1 he) heq
  refine ⟨h.sorted, h.agree, h.uniq, h.shownNodup, ?_, ?_, ?_, ?_, ?_, ?_, ?_⟩
  · intro x hx c' hc'
    exact h.sep x hx c' (List.mem_filter.1 hc').1
  · intro c1 c2 m h1 h2
    exact h.funiq c1 c2 m (List.mem_filter.1 h1).1 (List.mem_filter.1 h2).1
  · intro x
    simp only
    split
    · exact (h.nodup x).filter _
    · exact h.nodup x
  · intro x k
    have hold := h.mem x k
    simp only [Display.In, Display.step, List.mem_filter] at hold ⊢
    split
    · next hcc =>
      subst hcc
      rw [List.mem_filter, hold]
      constructor
      · rintro ⟨h1 | h1, h2⟩
        · exact .inl h1
        · exact .inr ⟨h1, by simpa using h2⟩
      · rintro (⟨y, hy, rfl, hyc⟩ | ⟨h1, h2⟩)
        · exact ⟨.inl ⟨y, hy, rfl, hyc⟩, by simpa using hns y hy⟩
        · exact ⟨.inr h1, by simpa using h2⟩
    · next hcc =>
      rw [hold]
      simp [hcc]
  · intro g
    exact hkeep _ _ (h.order g) (hng g)
  · intro g r hr hf
    simp only [Display.step, List.mem_filter] at hf
    apply hkeep _ _ (h.orderM g r hr hf.1)
    simp only [List.mem_append, List.mem_singleton, not_or]
    exact ⟨hng g, fun h => hmark g (h ▸ hr)⟩
  · intro g r hr hne
    simp only [Display.step, List.mem_filter]
    refine ⟨h.markIn g r hr hne, ?_⟩
    have : r ≠ n := by rintro rfl; exact hmark g hr
    simp [this]

theorem Inv.step {P : Places} {D : Display} {s : State} (h : Inv P D s) (b : Build) (op : Op)
    (hok : op.Ok P D) : ∃ s', op.exec b s = some s' ∧ Inv P (D.step op) s' := by
  cases op with
  | render ctx n => exact h.render b ctx n hok
  | unrender ctx => exact h.unrender b ctx hok
  | foreignInsert c n ref => exact h.foreignInsert b c n ref hok
  | foreignRemove c n => exact h.foreignRemove b c n hok

theorem Inv.run {P : Places} {D : Display} {s : State} (h : Inv P D s) (b : Build)
    (ops : List Op) (hok : HistoryOk P D ops) :
    ∃ s', runOps b s ops = some s' ∧ Inv P (D.run ops) s' := by
  induction ops generalizing D s with
  | nil => exact ⟨s, rfl, h⟩
  | cons op ops ih =>
    obtain ⟨s1, h1, hi⟩ := h.step b op hok.1
    obtain ⟨s2, h2, hi2⟩ := ih hi hok.2
    exact ⟨s2, by simp [runOps, h1, h2], hi2⟩

end Verif.Dom
