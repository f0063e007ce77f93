import Verif.Dom.HistoryLemmas
/-! The content of a list item is contiguous: invariant for C04. -/
namespace Verif.Dom

theorem infix_insert {α : Type} {B K1 K2 : List α} (n : α) (h : B <:+: K1 ++ K2)
    (hx : ∀ x, K2.head? = some x → x ∉ B) : B <:+: K1 ++ n :: K2 := by
  obtain ⟨S, T, h⟩ := h
  rcases List.append_eq_append_iff.1 h with ⟨c, h1, h2⟩ | ⟨c, h1, h2⟩
  · exact ⟨S, c ++ n :: K2, by rw [h1]; simp⟩
  · -- S ++ B = K1 ++ c, K2 = c ++ T
    cases c with
    | nil =>
      simp at h1 h2
      exact ⟨S, n :: K2, by rw [← h1]⟩
    | cons y c =>
      rcases List.append_eq_append_iff.1 h1 with ⟨d, h3, h4⟩ | ⟨d, h3, h4⟩
      · exact absurd (by rw [h4]; simp) (hx y (by rw [h2]; rfl))
      · exact ⟨K1 ++ n :: d, T, by rw [h2, h4]; simp⟩

theorem infix_filter {α : Type} {B K : List α} (p : α → Bool) (h : B <:+: K) :
    B.filter p <:+: K.filter p := by
  obtain ⟨S, T, rfl⟩ := h
  exact ⟨S.filter p, T.filter p, by simp⟩

theorem nodup_split_unique {α : Type} {X Y K1 Z : List α} {x : α}
    (h : X ++ x :: Y = K1 ++ x :: Z) (hn : (X ++ x :: Y).Nodup) : X = K1 ∧ Y = Z := by
  induction X generalizing K1 with
  | nil =>
    cases K1 with
    | nil => simp at h; exact ⟨rfl, h⟩
    | cons k K1 =>
      simp at h hn
      exact absurd (by rw [h.2]; simp) hn.1
  | cons a X ih =>
    cases K1 with
    | nil =>
      simp at h hn
      obtain ⟨rfl, h⟩ := h
      exact absurd (by simp) hn.1.2.1
    | cons k K1 =>
      simp only [List.cons_append, List.cons.injEq] at h
      simp only [List.cons_append, List.nodup_cons] at hn
      obtain ⟨h1, h2⟩ := ih h.2 hn.2
      exact ⟨by rw [h.1, h1], h2⟩

def Blocks (P : Places) (D : Display) (s : State) : Prop :=
  ∀ g r, (P g).2 = some r → ((P g).1, r) ∈ D.foreign →
    ((s.groups g).map (·.2) ++ [r]) <:+: s.dom.kids (P g).1

/-- `unrender` filters every group and every child list by one and the same set. -/
theorem unrender_filters {P : Places} {D : Display} {s s' : State} (h : Inv P D s) (b : Build)
    (ctx : Ctx) (hok : (Op.unrender ctx).Ok P D) (hex : (Op.unrender ctx).exec b s = some s') :
    ∃ R : List NodeId,
      (∀ g, (s'.groups g).map (·.2) = ((s.groups g).map (·.2)).filter fun y => !R.contains y) ∧
      (∀ c, s'.dom.kids c = if c = ctx.home then
        (s.dom.kids c).filter (fun y => !R.contains y) else s.dom.kids c) ∧
      (∀ c n, (c, n) ∈ D.foreign → R.contains n = false) ∧
      (∀ n, R.contains n = true →
        ∃ x ∈ D.shown, x.node = n ∧ x.group = ctx.group ∧ ctx.path.isPrefixOf x.path) := by
  rw [unrender_spec h b ctx hok] at hex
  have hrem := mem_removed h ctx
  refine ⟨((s.groups ctx.group).filter (fun e => ctx.path.isPrefixOf e.1.reverse)).map
      (·.2), ?_, ?_, ?_, fun n => (hrem n).1⟩
  · simp only [Option.some.injEq] at hex
    subst hex
    generalize hR : ((s.groups ctx.group).filter (fun e => ctx.path.isPrefixOf e.1.reverse)).map
      (·.2) = R at hrem
    intro g
    rw [List.filter_map]
    congr 1
    simp only
    split
    · next hg =>
      subst hg
      apply List.filter_congr
      intro e he
      simp only [Function.comp]
      congr 1
      rw [Bool.eq_iff_iff, hrem]
      constructor
      · intro hp
        exact ⟨_, (h.agree _ e.1 e.2).1 he, rfl, rfl, hp⟩
      · rintro ⟨x, hx, hn, hxg, hp⟩
        have := h.uniq _ ((h.agree _ e.1 e.2).1 he) x hx hn.symm
        rw [← this] at hp
        exact hp
    · next hg =>
      symm
      rw [List.filter_eq_self]
      intro e he
      simp only [Function.comp, Bool.not_eq_true', Bool.eq_false_iff]
      intro hcon
      obtain ⟨x, hx, hn, hxg, -⟩ := (hrem e.2).1 hcon
      have := h.uniq _ ((h.agree g e.1 e.2).1 he) x hx hn.symm
      rw [← this] at hxg
      exact hg hxg
  · simp only [Option.some.injEq] at hex
    subst hex
    intro c
    rfl
  · intro c n hcn
    rw [Bool.eq_false_iff]
    intro hcon
    obtain ⟨x, hx, hn, -⟩ := (hrem n).1 hcon
    exact h.sep x hx c (by rw [hn]; exact hcn)

theorem Blocks.step {P : Places} {D : Display} {s s' : State} (h : Inv P D s)
    (hB : Blocks P D s) (hM : DistinctMarkers P) (b : Build) (op : Op)
    (hok : op.Ok P D) (hsep : op.Separate P D) (hex : op.exec b s = some s') :
    Blocks P (D.step op) s' := by
  cases op with
  | render ctx n =>
    obtain ⟨hP, hfresh, hfree, hmark⟩ := hok
    have hfresh' := h.not_in_of_fresh hfresh
    have hp : ∀ e ∈ s.groups ctx.group, e.1 ≠ ctx.path.reverse := by
      intro e he heq
      have := (h.agree ctx.group e.1 e.2).1 he
      exact hfree _ this ⟨rfl, by simp [heq]⟩
    obtain ⟨A, B, K1, K2, hm, hk, hA', hB', hhead, hA, hB2, hex'⟩ :=
      addHere_spec h b ctx.group ctx.home ctx.marker ctx.path.reverse n hP hfresh' hp hmark
    have hc : (P ctx.group).1 = ctx.home := by rw [← hP]
    simp only [Op.exec, Ctx.addChild_eq, List.nil_append] at hex
    rw [hex', Option.some.injEq] at hex
    subst hex
    intro g r hr hf
    simp only [Display.step] at hf
    have hold := hB g r hr hf
    by_cases hg : g = ctx.group
    · subst hg
      have hmk : ctx.marker = some r := by rw [← hP] at hr; exact hr
      simp only [hc, if_true]
      rw [hc, hm, hk] at hold
      rw [hmk] at hhead
      have hnd := h.nodup ctx.home
      rw [hk] at hnd
      obtain ⟨S, T, hST⟩ := hold
      cases hC : B.map (·.2) ++ [r] with
      | nil => simp at hC
      | cons x C =>
        simp only [Option.toList_some, hC, List.head?_cons] at hhead
        cases K2 with
        | nil => simp at hhead
        | cons y K2 =>
          simp at hhead
          subst hhead
          have hC' : ∀ T : List NodeId, B.map (·.2) ++ r :: T = y :: (C ++ T) := by
            intro T
            have : B.map (·.2) ++ r :: T = (B.map (·.2) ++ [r]) ++ T := by simp
            rw [this, hC]; rfl
          have e1 : (S ++ A.map (·.2)) ++ y :: (C ++ T) = K1 ++ y :: K2 := by
            rw [← hST, ← hC']
            simp
          obtain ⟨h1, h2⟩ := nodup_split_unique e1 (by rw [e1]; exact hnd)
          refine ⟨S, T, ?_⟩
          rw [← h1, ← h2, ← hC']
          simp
    · simp only [if_neg hg]
      split
      · next hcc =>
        rw [hcc, hk] at hold
        apply infix_insert n hold
        intro x hx hmem
        rw [hhead] at hx
        -- x is a node or the marker of the rendering group
        have hx' : x ∈ B.map (·.2) ++ ctx.marker.toList := List.mem_of_head? hx
        rcases List.mem_append.1 hmem with hmem | hmem
        · obtain ⟨e, he, rfl⟩ := List.mem_map.1 hmem
          have hes := (h.agree g e.1 e.2).1 he
          rcases List.mem_append.1 hx' with hx' | hx'
          · obtain ⟨e', he', heq⟩ := List.mem_map.1 hx'
            have hes' := (h.agree ctx.group e'.1 e'.2).1 (by rw [hm]; simp [he'])
            have := h.uniq _ hes _ hes' heq.symm
            simp at this
            exact hg this.1
          · simp at hx'
            exact h.sep _ hes _ (hmark _ hx')
        · simp at hmem
          subst hmem
          rcases List.mem_append.1 hx' with hx' | hx'
          · obtain ⟨e', he', heq⟩ := List.mem_map.1 hx'
            have hes' := (h.agree ctx.group e'.1 e'.2).1 (by rw [hm]; simp [he'])
            exact h.sep _ hes' _ (by simp only [heq]; exact hf)
          · simp at hx'
            exact hg (hM g ctx.group x hr (by rw [← hP]; exact hx'))
      · exact hold
  | unrender ctx =>
    obtain ⟨R, h1, h2, h3, h4⟩ := unrender_filters h b ctx hok hex
    intro g r hr hf
    simp only [Display.step] at hf
    have hold := hB g r hr hf
    rw [h1, h2]
    have hr3 : [r].filter (fun y => !R.contains y) = [r] := by
      rw [List.filter_cons]; simp only [h3 _ _ hf]; rfl
    split
    · have := infix_filter (fun y => !R.contains y) hold
      rw [List.filter_append, hr3] at this
      exact this
    · next hne =>
      -- nothing of another container is removed
      have hkeep : ((s.groups g).map (·.2)).filter (fun y => !R.contains y) =
          (s.groups g).map (·.2) := by
        rw [List.filter_eq_self]
        intro y hy
        obtain ⟨e, he, rfl⟩ := List.mem_map.1 hy
        have hes := (h.agree g e.1 e.2).1 he
        simp only [Bool.not_eq_true', Bool.eq_false_iff]
        intro hcon
        obtain ⟨x, hx, hn, hg, -⟩ := h4 e.2 hcon
        have := h.uniq _ hes x hx hn.symm
        rw [← this] at hg
        simp at hg
        rw [hg] at hne
        exact hne (by rw [← hok.1])
      rw [hkeep]
      exact hold
  | foreignInsert c n ref =>
    obtain ⟨hfresh, href⟩ := hok
    have hfresh' := h.not_in_of_fresh hfresh
    obtain ⟨K1, K2, hk, hhead, hex'⟩ := insert_spec h c n ref hfresh'
      (by intro r hr; rw [h.mem]; exact href r hr)
    simp only [Op.exec, hex', Option.bind_eq_bind, Option.bind_some, Option.pure_def,
      Option.some.injEq] at hex
    subst hex
    intro g r hr hf
    simp only [Display.step, List.mem_cons, Prod.mk.injEq] at hf
    rcases hf with ⟨hc, rfl⟩ | hf
    · have : s.groups g = [] := by
        by_cases hne : s.groups g = []
        · exact hne
        · exact absurd (.inr (h.markIn g r hr hne)) (hfresh _)
      simp only [this, if_pos hc]
      exact ⟨K1, K2, by simp⟩
    · have hold := hB g r hr hf
      simp only
      split
      · next hcc =>
        rw [hcc, hk] at hold
        apply infix_insert n hold
        intro x hx hmem
        rw [hhead] at hx
        subst hx
        obtain ⟨hs1, hs2⟩ := hsep
        rcases List.mem_append.1 hmem with hmem | hmem
        · obtain ⟨e, he, rfl⟩ := List.mem_map.1 hmem
          have := hs1 _ ((h.agree g e.1 e.2).1 he) rfl
          simp only [hr] at this
          simp at this
        · simp at hmem
          subst hmem
          exact hs2 g hr
      · exact hold
  | foreignRemove c n =>
    obtain ⟨hin, hmark⟩ := hok
    have hmem : n ∈ s.dom.kids c := (h.mem c n).2 (.inr hin)
    simp only [Op.exec, Dom.removeChild, if_pos hmem, Option.bind_eq_bind, Option.bind_some,
      Option.pure_def, Option.some.injEq] at hex
    subst hex
    intro g r hr hf
    simp only [Display.step, List.mem_filter] at hf
    have hold := hB g r hr hf.1
    simp only
    split
    · have := infix_filter (· != n) hold
      rwa [filter_ne_self] at this
      simp only [List.mem_append, List.mem_singleton, not_or]
      refine ⟨?_, fun h => hmark g (h ▸ hr)⟩
      intro hm
      obtain ⟨e, he, heq⟩ := List.mem_map.1 hm
      exact h.sep _ ((h.agree g e.1 e.2).1 he) c (by simp only [heq]; exact hin)
    · exact hold

theorem Blocks.run {P : Places} {D : Display} {s s' : State} (h : Inv P D s)
    (hB : Blocks P D s) (hM : DistinctMarkers P) (b : Build) (ops : List Op)
    (hok : HistoryOk P D ops) (hsep : HistorySeparate P D ops) (hex : runOps b s ops = some s') :
    Blocks P (D.run ops) s' := by
  induction ops generalizing D s with
  | nil => simp only [runOps, Option.some.injEq] at hex; subst hex; exact hB
  | cons op ops ih =>
    obtain ⟨s1, h1, hi⟩ := h.step b op hok.1
    simp only [runOps, h1, Option.bind_eq_bind, Option.bind_some] at hex
    exact ih hi (Blocks.step h hB hM b op hok.1 hsep.1 h1) hok.2 hsep.2 hex

theorem Blocks.start {P : Places} {D : Display} {s : State} (h : Starts D s) : Blocks P D s := by
  intro g r hr hf
  obtain ⟨h1, h2, h3, h4, h5⟩ := h
  rw [h2]
  have := (h4 (P g).1 r).2 hf
  obtain ⟨S, T, hST⟩ := List.append_of_mem this
  exact ⟨S, T, by rw [hST]; simp⟩

end Verif.Dom
