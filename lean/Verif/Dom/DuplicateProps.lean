import Verif.Dom.HistoryProps
/-!
# Property theorems for C45: two components at the same place
-/
namespace Verif.Dom

/-- The display when a shown node is no longer tracked: it is still in its containing node, but
belongs to nobody. -/
def Display.forget (P : Places) (D : Display) (x : Shown) : Display :=
  ⟨D.shown.filter (· != x), ((P x.group).1, x.node) :: D.foreign⟩

theorem Inv.forget {P : Places} {D : Display} {s : State} (h : Inv P D s) {x : Shown}
    (hx : x ∈ D.shown) :
    Inv P (D.forget P x)
      ⟨fun g => if g = x.group then (s.groups g).filter (· != (x.path.reverse, x.node))
        else s.groups g, s.dom⟩ := by
  have hsub : ∀ g, List.Sublist (if g = x.group then
      (s.groups g).filter (· != (x.path.reverse, x.node)) else s.groups g) (s.groups g) := by
    intro g
    split
    · exact List.filter_sublist
    · exact List.Sublist.refl _
  have hmem : ∀ y, y ∈ (D.forget P x).shown ↔ y ∈ D.shown ∧ y ≠ x := by
    intro y; simp [Display.forget]
  refine ⟨?_, ?_, ?_, ?_, ?_, ?_, h.nodup, ?_, ?_, ?_, ?_⟩
  · intro g
    exact List.Pairwise.sublist (hsub g) (h.sorted g)
  · intro g p n
    rw [hmem]
    obtain ⟨xg, xp, xn⟩ := x
    simp only
    split
    · next hg =>
      subst hg
      rw [List.mem_filter, h.agree]
      apply and_congr_right
      intro _
      simp only [bne_iff_ne, ne_eq, Prod.mk.injEq, Shown.mk.injEq, true_and]
      rw [show p = xp.reverse ↔ p.reverse = xp from
        ⟨fun h => by simp [h], fun h => by simp [← h]⟩]
    · next hg =>
      rw [h.agree]
      simp [hg]
  · intro y hy z hz
    exact h.uniq y ((hmem y).1 hy).1 z ((hmem z).1 hz).1
  · exact h.shownNodup.filter _
  · intro y hy c hc
    obtain ⟨hy, hne⟩ := (hmem y).1 hy
    simp only [Display.forget, List.mem_cons, Prod.mk.injEq] at hc
    rcases hc with ⟨-, hc⟩ | hc
    · exact hne (h.uniq y hy x hx hc)
    · exact h.sep y hy c hc
  · intro c c' n hc hc'
    simp only [Display.forget, List.mem_cons, Prod.mk.injEq] at hc hc'
    rcases hc with ⟨rfl, rfl⟩ | hc <;> rcases hc' with ⟨rfl, hn⟩ | hc'
    · rfl
    · exact absurd hc' (h.sep x hx _)
    · subst hn; exact absurd hc (h.sep x hx _)
    · exact h.funiq c c' n hc hc'
  · intro c n
    rw [h.mem]
    simp only [Display.In, Display.forget, List.mem_filter, bne_iff_ne, ne_eq, List.mem_cons,
      Prod.mk.injEq]
    constructor
    · rintro (⟨y, hy, rfl, rfl⟩ | hf)
      · by_cases hyx : y = x
        · subst hyx; exact .inr (.inl ⟨rfl, rfl⟩)
        · exact .inl ⟨y, ⟨hy, hyx⟩, rfl, rfl⟩
      · exact .inr (.inr hf)
    · rintro (⟨y, hy, rfl, rfl⟩ | ⟨rfl, rfl⟩ | hf)
      · exact .inl ⟨y, hy.1, rfl, rfl⟩
      · exact .inl ⟨x, hx, rfl, rfl⟩
      · exact .inr hf
  · intro g
    exact List.Sublist.trans ((hsub g).map _) (h.order g)
  · intro g r hr hf
    simp only [Display.forget, List.mem_cons, Prod.mk.injEq] at hf
    rcases hf with ⟨h1, h2⟩ | hf
    · subst h2
      have h0 : s.groups g = [] := by
        apply Classical.byContradiction
        intro hne
        exact h.sep x hx _ (h.markIn g _ hr hne)
      simp only [h0, List.filter_nil, ite_self, List.map_nil, List.nil_append,
        List.singleton_sublist]
      rw [h1]
      exact h.shown_kids hx
    · exact List.Sublist.trans (((hsub g).map _).append_right _) (h.orderM g r hr hf)
  · intro g r hr hne
    simp only [Display.forget, List.mem_cons]
    refine .inr (h.markIn g r hr ?_)
    intro h0
    apply hne
    simp [h0]

/-- Looking up and inserting at a place that is taken. -/
theorem Group.split_taken (m : Group) (hs : m.Sorted) (p : Pos) (k n : NodeId)
    (hp : (p, k) ∈ m) :
    ∃ A B, m = A ++ (p, k) :: B ∧ m.firstFrom p = some k ∧
      m.insert p n = (A ++ (p, n) :: B, some k) ∧
      (∀ e ∈ A, Pos.cmp e.1 p = .lt) ∧ (∀ e ∈ B, Pos.cmp p e.1 = .lt) := by
  induction m with
  | nil => simp at hp
  | cons e m ih =>
    obtain ⟨q, j⟩ := e
    have hs' := List.pairwise_cons.1 hs
    rcases List.mem_cons.1 hp with heq | hmem
    · simp only [Prod.mk.injEq] at heq
      obtain ⟨rfl, rfl⟩ := heq
      refine ⟨[], m, rfl, ?_, ?_, by simp, fun e he => hs'.1 e he⟩
      · simp [Group.firstFrom, cmp_self]
      · simp [Group.insert, cmp_self]
    · obtain ⟨A, B, hm, hf, hi, hA, hB⟩ := ih hs'.2 hmem
      have hlt : Pos.cmp q p = .lt := hs'.1 (p, k) hmem
      have hgt : Pos.cmp p q = .gt := cmp_gt_iff.2 hlt
      refine ⟨(q, j) :: A, B, by rw [hm]; rfl, ?_, ?_, ?_, hB⟩
      · rw [← hf]; simp [Group.firstFrom, hlt]
      · simp [Group.insert, hgt, hi]
      · intro e he
        rcases List.mem_cons.1 he with rfl | he
        · exact hlt
        · exact hA e he

/-- C45, debug builds: rendering at a place that already displays a node panics, in every
situation that rendering can produce. -/
theorem second_render_panics (P : Places) (D : Display) (s s1 : State) (ops : List Op)
    (hstart : Starts D s) (hok : HistoryOk P D ops) (hrun : runOps .debug s ops = some s1)
    (ctx : Ctx) (x : Shown) (hx : x ∈ (D.run ops).shown) (hg : x.group = ctx.group)
    (hp : x.path = ctx.path) (n : NodeId) :
    (Op.render ctx n).exec .debug s1 = none := by
  obtain ⟨s'', h1, h⟩ := (Inv.start (P := P) hstart).run .debug ops hok
  rw [hrun, Option.some.injEq] at h1
  subst h1
  have hmem : (ctx.path.reverse, x.node) ∈ s1.groups ctx.group := by
    rw [h.agree]; simpa [← hg, ← hp] using hx
  obtain ⟨A, B, -, -, hi, -⟩ := Group.split_taken _ (h.sorted _) _ _ n hmem
  simp only [Op.exec, Ctx.addChild_eq, List.nil_append, addHere, hi, panicIfDuplicate,
    Option.bind_eq_bind, Option.bind_none]
  cases s1.dom.insertBefore ctx.home n
    (((s1.groups ctx.group).firstFrom ctx.path.reverse).or ctx.marker) <;> rfl

/-- C45, release builds: the second node is displayed directly in front of the first one, and the
first one is no longer tracked: from then on everything behaves as if it had been put there by
other code. -/
theorem second_render_release (P : Places) (D : Display) (s s1 : State) (ops : List Op)
    (hstart : Starts D s) (hok : HistoryOk P D ops) (hrun : runOps .release s ops = some s1)
    (ctx : Ctx) (x : Shown) (hx : x ∈ (D.run ops).shown) (hg : x.group = ctx.group)
    (hp : x.path = ctx.path) (hP : (ctx.home, ctx.marker) = P ctx.group) (n : NodeId)
    (hfresh : ∀ c, ¬ (D.run ops).In P c n) :
    ∃ s2, (Op.render ctx n).exec .release s1 = some s2 ∧
      [n, x.node] <:+: s2.dom.kids ctx.home ∧
      ∀ ops', HistoryOk P (((D.run ops).forget P x).step (.render ctx n)) ops' →
        ∃ s3, runOps .release s2 ops' = some s3 ∧
          Agrees P ((((D.run ops).forget P x).step (.render ctx n)).run ops') s3 := by
  obtain ⟨s'', h1, h⟩ := (Inv.start (P := P) hstart).run .release ops hok
  rw [hrun, Option.some.injEq] at h1
  subst h1
  have hc : (P ctx.group).1 = ctx.home := by rw [← hP]
  have hmk : (P ctx.group).2 = ctx.marker := by rw [← hP]
  have hmem : (ctx.path.reverse, x.node) ∈ s1.groups ctx.group := by
    rw [h.agree]; simpa [← hg, ← hp] using hx
  obtain ⟨A, B, hm, hf, hi, hA, hB⟩ := Group.split_taken _ (h.sorted _) _ _ n hmem
  have hmark : ∀ r, ctx.marker = some r → (ctx.home, r) ∈ (D.run ops).foreign := by
    intro r hr
    rw [← hc]
    exact h.markIn _ _ (hmk.trans hr) (by rw [hm]; simp)
  have hsub : List.Sublist (A.map (·.2) ++ x.node :: (B.map (·.2) ++ ctx.marker.toList))
      (s1.dom.kids ctx.home) := by
    cases hr : ctx.marker with
    | none =>
      have := h.order ctx.group
      rw [hc, hm] at this
      simpa using this
    | some r =>
      have := h.orderM ctx.group r (hmk.trans hr) (by rw [hc]; exact hmark r hr)
      rw [hc, hm] at this
      simpa using this
  obtain ⟨K1, K2, hk, hnot, hs1, hs2⟩ := sublist_split hsub (h.nodup _)
  have hfresh' := h.not_in_of_fresh hfresh
  have hF := h.forget hx
  have hfil : (s1.groups ctx.group).filter (· != (x.path.reverse, x.node)) = A ++ B := by
    rw [hm, hp, List.filter_append, List.filter_cons]
    simp only [bne_self_eq_false, Bool.false_eq_true, if_false]
    congr 1 <;> rw [List.filter_eq_self] <;> intro e he <;> simp only [bne_iff_ne, ne_eq]
    · rintro rfl
      have := hA _ he
      simp [cmp_self] at this
    · rintro rfl
      have := hB _ he
      simp [cmp_self] at this
  have hokr : (Op.render ctx n).Ok P ((D.run ops).forget P x) := by
    refine ⟨hP, ?_, ?_, ?_⟩
    · intro c hin
      rcases hin with ⟨y, hy, h1, h2⟩ | hf
      · simp only [Display.forget, List.mem_filter] at hy
        exact hfresh c (.inl ⟨y, hy.1, h1, h2⟩)
      · simp only [Display.forget, List.mem_cons, Prod.mk.injEq] at hf
        rcases hf with ⟨rfl, rfl⟩ | hf
        · exact hfresh _ (.inl ⟨x, hx, rfl, rfl⟩)
        · exact hfresh c (.inr hf)
    · rintro ⟨yg, yp, yn⟩ hy ⟨rfl, rfl⟩
      simp only [Display.forget, List.mem_filter, bne_iff_ne, ne_eq] at hy
      apply hy.2
      have hy' : (ctx.path.reverse, yn) ∈ s1.groups ctx.group := by
        rw [h.agree]; simpa using hy.1
      rw [hm] at hy'
      have : yn = x.node := by
        rcases List.mem_append.1 hy' with h | h
        · have := hA _ h; simp [cmp_self] at this
        · rcases List.mem_cons.1 h with h | h
          · simpa using h
          · have := hB _ h; simp [cmp_self] at this
      subst this
      cases x
      simp_all
    · intro r hr
      simp only [Display.forget, List.mem_cons]
      exact .inr (hmark r hr)
  have hI := hF.insertAt ctx n hokr (A := A) (B := B) (K1 := K1) (K2 := x.node :: K2)
    (by simp only [hg, if_true, hfil]) hk hs1 (hs2.trans (List.sublist_cons_self ..)) hA hB
  refine ⟨⟨fun y => if y = ctx.group then A ++ (ctx.path.reverse, n) :: B
      else if y = x.group then (s1.groups y).filter (· != (x.path.reverse, x.node))
        else s1.groups y,
    ⟨fun y => if y = ctx.home then K1 ++ n :: x.node :: K2 else s1.dom.kids y⟩⟩, ?_, ?_,
    fun ops' hok' => ?_⟩
  rotate_left
  · exact ⟨K1, K2, by simp⟩
  · obtain ⟨s3, h3, h4⟩ := hI.run .release ops' hok'
    exact ⟨s3, h3, h4.agrees⟩
  · simp only [Op.exec, Ctx.addChild_eq, List.nil_append, addHere, hi, hf, panicIfDuplicate,
      Option.bind_eq_bind, Option.some_or, Dom.insert_before_split _ _ _ _ hfresh' hk hnot,
      Option.bind_some, State.setGroup, Option.pure_def, Option.some.injEq, State.mk.injEq]
    refine ⟨?_, ?_⟩
    · funext g
      by_cases hgg : g = ctx.group <;> simp [hgg, hg]
    · simp

/-- C45 refuted for release builds: whatever is rendered and un-rendered afterwards (the place
itself, or everything), the first node stays in the document unless other code takes it out. -/
theorem second_render_leaks (P : Places) (D : Display) (s s1 : State) (ops : List Op)
    (hstart : Starts D s) (hok : HistoryOk P D ops) (hrun : runOps .release s ops = some s1)
    (ctx : Ctx) (x : Shown) (hx : x ∈ (D.run ops).shown) (hg : x.group = ctx.group)
    (hp : x.path = ctx.path) (hP : (ctx.home, ctx.marker) = P ctx.group) (n : NodeId)
    (hfresh : ∀ c, ¬ (D.run ops).In P c n) (ops' : List Op)
    (hok' : HistoryOk P (((D.run ops).forget P x).step (.render ctx n)) ops')
    (hno : ∀ c, Op.foreignRemove c x.node ∉ ops') :
    ∃ s3, runOps .release s (ops ++ .render ctx n :: ops') = some s3 ∧
      x.node ∈ s3.dom.kids ctx.home := by
  obtain ⟨s2, h2, -, h3⟩ := second_render_release P D s s1 ops hstart hok hrun ctx x hx hg hp hP n hfresh
  obtain ⟨s3, h4, h5⟩ := h3 ops' hok'
  refine ⟨s3, ?_, ?_⟩
  · have happ : ∀ (a c : List Op) (t : State), runOps .release t (a ++ c) =
        (runOps .release t a).bind fun t => runOps .release t c := by
      intro a
      induction a with
      | nil => intro c t; rfl
      | cons op a ih =>
        intro c t
        simp only [List.cons_append, runOps, Option.bind_eq_bind]
        cases op.exec .release t with
        | none => rfl
        | some t' => exact ih c t'
    rw [happ, hrun]
    simp only [Option.bind_some, runOps, h2, Option.bind_eq_bind, h4]
  · rw [h5.mem]
    right
    have hc : (P x.group).1 = ctx.home := by rw [hg, ← hP]
    have : (ctx.home, x.node) ∈ (((D.run ops).forget P x).step (.render ctx n)).foreign := by
      simp [Display.step, Display.forget, hc]
    revert this hno
    clear h3 h4 h5 hok' h2
    generalize ((D.run ops).forget P x).step (.render ctx n) = E
    induction ops' generalizing E with
    | nil => intro _ h; exact h
    | cons op ops' ih =>
      intro hno h
      refine ih (E := E.step op) (fun c hm => hno c (by simp [hm])) ?_
      cases op with
      | render => exact h
      | unrender => exact h
      | foreignInsert => simp [Display.step, h]
      | foreignRemove c m =>
        simp only [Display.step, List.mem_filter, bne_iff_ne, ne_eq]
        refine ⟨h, ?_⟩
        intro he
        simp only [Prod.mk.injEq] at he
        exact hno c (by simp [he.2])

/-! In the example history node 8 is at place 0.3. Rendering 20 there as well, and then un-rendering
the whole group, leaves node 8 behind. -/

example : (⟨0, [0, 3], 8⟩ : Shown) ∈ (exDisplay.run exOps).shown ∧
    (runOps .debug exState (exOps ++ [.render (.child (.child exRoot 0) 3) 20])).isNone ∧
    ((runOps .release exState (exOps ++ [.render (.child (.child exRoot 0) 3) 20])).map
      fun s => s.dom.kids 0) = some [60, 50, 9, 101, 20, 8, 10] ∧
    ((runOps .release exState (exOps ++ [.render (.child (.child exRoot 0) 3) 20,
      .unrender exRoot])).map fun s => s.dom.kids 0) = some [60, 50, 9, 101, 8] := by
  decide

end Verif.Dom
