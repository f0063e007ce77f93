import Verif.Lists.RenderSteps
/-! # The place of a rendered list, step by step -/
namespace Verif.Lists
open Verif.Dom

/-- rendering a list keeps the document in agreement with the specification -/
theorem inv_render_list {P : Places} {D : Display} {s s' : State} {c : NodeId} {L : DynList}
    {items K1 K2 : List NodeId}
    (h : Inv P D s) (hf : InFragment P D s.dom L items) (helse : c ≠ L.frag)
    (hg : s'.groups = s.groups) (hk : s.dom.kids c = K1 ++ K2)
    (hk' : s'.dom.kids c = K1 ++ L.listStart :: (items ++ L.listEnd :: K2))
    (hfr : s'.dom.kids L.frag = [])
    (hx : ∀ x, x ≠ c → x ≠ L.frag → s'.dom.kids x = s.dom.kids x) :
    Inv P (moveList D L.frag c (L.listStart :: (items ++ [L.listEnd]))) s' := by
  obtain ⟨-, hkids, hfor, hnm⟩ := hf
  generalize hN : L.listStart :: (items ++ [L.listEnd]) = N at *
  have hkN : s'.dom.kids c = K1 ++ (N ++ K2) := by rw [hk', ← hN]; simp
  have hnotshown : ∀ x ∈ D.shown, x.node ∉ N := fun x hx hn => h.sep x hx _ (hfor _ hn)
  have honly : ∀ n ∈ N, ∀ x, x ≠ L.frag → n ∉ s.dom.kids x := by
    intro n hn x hx hm
    rcases (h.mem x n).1 hm with ⟨y, hy, rfl, _⟩ | hm'
    · exact hnotshown y hy hn
    · exact hx (h.funiq _ _ _ hm' (hfor n hn))
  have hmf : ∀ (x n : NodeId), (x, n) ∈ (moveList D L.frag c N).foreign ↔
      (x = c ∧ n ∈ N) ∨ ((x, n) ∈ D.foreign ∧ n ∉ N) := by
    intro x n
    simp only [moveList, List.mem_append, List.mem_map, List.mem_filter, Prod.mk.injEq, Bool.not_eq_true',
      Bool.and_eq_false_iff, beq_eq_false_iff_ne, ne_eq, List.contains_eq_mem, decide_eq_false_iff_not]
    constructor
    · rintro (⟨m, hm, rfl, rfl⟩ | ⟨h1, h2 | h2⟩)
      · exact Or.inl ⟨rfl, hm⟩
      · exact Or.inr ⟨h1, fun hn => h2 (h.funiq _ _ _ h1 (hfor n hn))⟩
      · exact Or.inr ⟨h1, h2⟩
    · rintro (⟨rfl, hn⟩ | ⟨h1, h2⟩)
      · exact Or.inl ⟨n, hn, rfl, rfl⟩
      · exact Or.inr ⟨h1, Or.inr h2⟩
  have hnodN : N.Nodup := by rw [← hkids]; exact h.nodup _
  have hsubc : List.Sublist (s.dom.kids c) (s'.dom.kids c) := by
    rw [hk, hkN]; exact (List.Sublist.refl _).append (List.sublist_append_right _ _)
  refine ⟨?_, ?_, h.uniq, h.shownNodup, ?_, ?_, ?_, ?_, ?_, ?_, ?_⟩
  · rw [hg]; exact h.sorted
  · rw [hg]; exact h.agree
  · intro x hxs c' hc'
    rcases (hmf _ _).1 hc' with ⟨-, hn⟩ | ⟨h1, -⟩
    · exact hnotshown x hxs hn
    · exact h.sep x hxs _ h1
  · intro c1 c2 n h1 h2
    rcases (hmf _ _).1 h1 with ⟨rfl, hn⟩ | ⟨h1, hn⟩ <;> rcases (hmf _ _).1 h2 with ⟨rfl, hn'⟩ | ⟨h2, hn'⟩
    · rfl
    · exact absurd hn hn'
    · exact absurd hn' hn
    · exact h.funiq _ _ _ h1 h2
  · intro x
    by_cases hxc : x = c
    · subst hxc
      rw [hkN]
      have hnd := h.nodup x
      rw [hk] at hnd
      have hdis : ∀ n ∈ N, n ∉ K1 ++ K2 := by rw [← hk]; exact fun n hn => honly n hn x helse
      rw [List.nodup_append] at hnd ⊢
      refine ⟨hnd.1, ?_, ?_⟩
      · rw [List.nodup_append]
        refine ⟨hnodN, hnd.2.1, ?_⟩
        rintro a ha b hb rfl
        exact hdis a ha (by simp [hb])
      · rintro a ha b hb rfl
        rcases List.mem_append.1 hb with hb | hb
        · exact hdis a hb (by simp [ha])
        · exact hnd.2.2 a ha a hb rfl
    · by_cases hxf : x = L.frag
      · subst hxf; rw [hfr]; exact List.nodup_nil
      · rw [hx x hxc hxf]; exact h.nodup x
  · intro x n
    have hold := h.mem x n
    simp only [Display.In, hmf] at hold ⊢
    have hsh : (moveList D L.frag c N).shown = D.shown := rfl
    rw [hsh]
    by_cases hxc : x = c
    · subst hxc
      rw [hk] at hold
      rw [hkN]
      simp only [List.mem_append] at hold ⊢
      constructor
      · rintro (h1 | h1 | h1)
        · rcases hold.1 (Or.inl h1) with h2 | h2
          · exact Or.inl h2
          · refine Or.inr (Or.inr ⟨h2, fun hn => honly n hn x helse (by rw [hk]; simp [h1])⟩)
        · exact Or.inr (Or.inl ⟨trivial, h1⟩)
        · rcases hold.1 (Or.inr h1) with h2 | h2
          · exact Or.inl h2
          · refine Or.inr (Or.inr ⟨h2, fun hn => honly n hn x helse (by rw [hk]; simp [h1])⟩)
      · rintro (h1 | ⟨-, h1⟩ | ⟨h1, -⟩)
        · rcases hold.2 (Or.inl h1) with h2 | h2
          · exact Or.inl h2
          · exact Or.inr (Or.inr h2)
        · exact Or.inr (Or.inl h1)
        · rcases hold.2 (Or.inr h1) with h2 | h2
          · exact Or.inl h2
          · exact Or.inr (Or.inr h2)
    · by_cases hxf : x = L.frag
      · subst hxf
        rw [hfr]
        simp only [List.not_mem_nil, false_iff, not_or, not_and]
        refine ⟨?_, fun e => absurd e hxc, fun h1 => ?_⟩
        · rintro ⟨y, hy, rfl, hyc⟩
          have := hold.2 (Or.inl ⟨y, hy, rfl, hyc⟩)
          rw [hkids] at this
          exact hnotshown y hy this
        · have := hold.2 (Or.inr h1)
          rw [hkids] at this
          exact fun hn => hn this
      · rw [hx x hxc hxf, hold]
        constructor
        · rintro (h1 | h1)
          · exact Or.inl h1
          · exact Or.inr (Or.inr ⟨h1, fun hn => honly n hn x hxf (by rw [hold]; exact Or.inr h1)⟩)
        · rintro (h1 | ⟨h1, -⟩ | ⟨h1, -⟩)
          · exact Or.inl h1
          · exact absurd h1 hxc
          · exact Or.inr h1
  · intro g
    rw [hg]
    have hord := h.order g
    by_cases hxc : (P g).1 = c
    · rw [hxc] at hord ⊢; exact hord.trans hsubc
    · by_cases hxf : (P g).1 = L.frag
      · rw [hxf] at hord ⊢
        rw [hfr]
        cases hgg : s.groups g with
        | nil => simp
        | cons e es =>
          exfalso
          have he : e ∈ s.groups g := by rw [hgg]; simp
          have := hord.subset (a := e.2) (List.mem_map.2 ⟨e, he, rfl⟩)
          rw [hkids] at this
          exact hnotshown _ ((h.agree g e.1 e.2).1 he) this
      · rw [hx _ hxc hxf]; exact hord
  · intro g r hr hfo
    rw [hg]
    rcases (hmf _ _).1 hfo with ⟨-, hn⟩ | ⟨h1, hn⟩
    · exact absurd hn (hnm g r hr)
    · have hord := h.orderM g r hr h1
      by_cases hxc : (P g).1 = c
      · rw [hxc] at hord ⊢; exact hord.trans hsubc
      · by_cases hxf : (P g).1 = L.frag
        · exfalso
          have := hord.subset (a := r) (by simp)
          rw [hxf, hkids] at this
          exact hn this
        · rw [hx _ hxc hxf]; exact hord
  · intro g r hr hne
    rw [hg] at hne
    exact (hmf _ _).2 (Or.inr ⟨h.markIn g r hr hne, hnm g r hr⟩)

/-- … and it appears at its own place -/
theorem inPlace_render_list {P : Places} {D : Display} {s s' : State} {ctx : Ctx} {L : DynList}
    {items K1 K2 : List NodeId} {A B : Group} (h : Inv P D s)
    (hP : (ctx.home, ctx.marker) = P ctx.group)
    (hAB : s.groups ctx.group = A ++ B)
    (hsA : List.Sublist (A.map (·.2)) K1) (hsB : List.Sublist (B.map (·.2) ++ ctx.marker.toList) K2)
    (hA : ∀ e ∈ A, Pos.cmp e.1 ctx.path.reverse = .lt) (hB : ∀ e ∈ B, Pos.cmp ctx.path.reverse e.1 = .lt)
    (hk' : s'.dom.kids ctx.home = K1 ++ L.listStart :: (items ++ L.listEnd :: K2)) :
    InPlace P D s'.dom ctx.group ctx.path L.listStart L.listEnd := by
  have hc : (P ctx.group).1 = ctx.home := by rw [← hP]
  have hm : (P ctx.group).2 = ctx.marker := by rw [← hP]
  have hk2 : s'.dom.kids ctx.home = (K1 ++ L.listStart :: items) ++ L.listEnd :: K2 := by rw [hk']; simp
  refine ⟨?_, ?_, ?_⟩
  · intro x hx hxg
    have he : (x.path.reverse, x.node) ∈ s.groups ctx.group := by
      rw [h.agree, List.reverse_reverse, ← hxg]; exact hx
    rw [hAB] at he
    rw [hc]
    constructor
    · intro hb
      rw [sourceBefore_iff] at hb
      rcases List.mem_append.1 he with he | he
      · rw [hk']
        exact sublist_pair_left (hsA.subset (List.mem_map.2 ⟨_, he, rfl⟩))
      · have := cmp_lt_trans hb (hB _ he)
        rw [cmp_self] at this; cases this
    · intro hb
      rw [sourceBefore_iff] at hb
      rcases List.mem_append.1 he with he | he
      · have := cmp_lt_trans hb (hA _ he)
        rw [cmp_self] at this; cases this
      · rw [hk2]
        exact sublist_pair_right (hsB.subset (List.mem_append_left _ (List.mem_map.2 ⟨_, he, rfl⟩)))
  · intro r hr
    rw [hc, hk2]
    rw [hm] at hr
    exact sublist_pair_right (hsB.subset (by rw [hr]; simp))
  · rw [hc, hk2]
    exact sublist_pair_left (by simp)

/-! ## what happens around a list -/

/-- What the proof keeps about a rendered list. -/
structure Keeps (P : Places) (D : Display) (s : State) (g : GroupId) (path : List Nat) (ls le : NodeId) : Prop where
  inv : Inv P D s
  free : PlaceFree D g path
  place : InPlace P D s.dom g path ls le
  start : ((P g).1, ls) ∈ D.foreign
  stop : ((P g).1, le) ∈ D.foreign
  marker : ∀ r, (P g).2 = some r → ((P g).1, r) ∈ D.foreign

theorem cmp_lt_ne {a b : Pos} (h1 : Pos.cmp a b = .lt) (h2 : Pos.cmp b a = .lt) : False := by
  have := cmp_lt_trans h1 h2
  rw [cmp_self] at this
  cases this

/-- Where a component that is rendered in the list's group lands: after the list if it comes after
it, and otherwise before the list exactly if something between the two is displayed. -/
theorem render_side {P : Places} {D : Display} {s : State} {g : GroupId} {path : List Nat} {ls le : NodeId}
    (h : Keeps P D s g path ls le) {p : List Nat} {A B : Group} {K1 K2 : List NodeId} {n : NodeId}
    (hAB : s.groups g = A ++ B) (hK : s.dom.kids (P g).1 = K1 ++ K2)
    (hsB : List.Sublist (B.map (·.2) ++ (P g).2.toList) K2)
    (hhead : K2.head? = (B.map (·.2) ++ (P g).2.toList).head?)
    (hA : ∀ e ∈ A, Pos.cmp e.1 p.reverse = .lt) (hB : ∀ e ∈ B, Pos.cmp p.reverse e.1 = .lt) :
    (SourceBefore path p → List.Sublist [le, n] (K1 ++ n :: K2)) ∧
    (SourceBefore p path → SomethingBetween D g p path → List.Sublist [n, ls] (K1 ++ n :: K2)) ∧
    (SourceBefore p path → ¬ SomethingBetween D g p path → List.Sublist [le, n] (K1 ++ n :: K2)) := by
  have hnod := h.inv.nodup (P g).1
  rw [hK] at hnod
  have hsh : ∀ e ∈ B, (⟨g, e.1.reverse, e.2⟩ : Shown) ∈ D.shown := by
    intro e he
    exact (h.inv.agree g e.1 e.2).1 (by rw [hAB]; exact List.mem_append_right _ he)
  -- if every shown component behind the new one is behind the list, the new one lands behind the list
  have hgo : (∀ e ∈ B, SourceBefore path e.1.reverse) → List.Sublist [le, n] (K1 ++ n :: K2) := by
    intro hall
    apply sublist_pair_left
    cases B with
    | cons e B =>
      have hp := (h.place.1 _ (hsh e (by simp)) rfl).2 (hall e (by simp))
      rw [hK] at hp
      exact mem_left_of_pair hp hnod (by rw [hhead]; simp)
    | nil =>
      cases hm : (P g).2 with
      | some r =>
        have hp := h.place.2.1 r hm
        rw [hK] at hp
        exact mem_left_of_pair hp hnod (by rw [hhead, hm]; simp)
      | none =>
        rw [hm] at hhead
        simp only [List.map_nil, List.nil_append, Option.toList_none, List.head?_nil, List.head?_eq_none_iff] at hhead
        have := h.place.2.2.subset (a := le) (by simp)
        rw [hK, hhead] at this
        simpa using this
  refine ⟨?_, ?_, ?_⟩
  · intro hb
    apply hgo
    intro e he
    refine sourceBefore_trans hb ?_
    rw [sourceBefore_iff, List.reverse_reverse]
    exact hB e he
  · rintro hb ⟨y, hy, hyg, h1, h2⟩
    have hyB : (y.path.reverse, y.node) ∈ A ++ B := by
      rw [← hAB, h.inv.agree, List.reverse_reverse, ← hyg]; exact hy
    rw [sourceBefore_iff] at h1
    rcases List.mem_append.1 hyB with hyA | hyB
    · exact absurd h1 (fun h1 => cmp_lt_ne h1 (hA _ hyA))
    · apply sublist_pair_right
      cases B with
      | nil => cases hyB
      | cons e B =>
        have hle : SourceBefore e.1.reverse path := by
          have hso := h.inv.sorted g
          rw [hAB] at hso
          have hso := (List.pairwise_append.1 hso).2.1
          rcases List.mem_cons.1 hyB with hye | hyB
          · rw [← hye]; simpa using h2
          · have := List.rel_of_pairwise_cons hso hyB
            refine sourceBefore_trans ?_ h2
            rw [sourceBefore_iff, List.reverse_reverse]; exact this
        have hp := (h.place.1 _ (hsh e (by simp)) rfl).1 hle
        rw [hK] at hp
        exact mem_right_of_pair hp hnod (by rw [hhead]; simp)
  · intro hb hno
    apply hgo
    intro e he
    rcases sourceBefore_total path e.1.reverse with h1 | h1 | h1
    · exact h1
    · exact absurd (List.prefix_refl _) (h1 ▸ h.free _ (hsh e he) rfl)
    · refine absurd ⟨_, hsh e he, rfl, ?_, h1⟩ hno
      rw [sourceBefore_iff, List.reverse_reverse]
      exact hB e he

/-- the document after `add_child` -/
theorem render_exec {P : Places} {D : Display} {s : State} (h : Inv P D s) (b : Build) (ctx : Ctx) (n : NodeId)
    (hok : (Verif.Dom.Op.render ctx n).Ok P D) :
    ∃ A B K1 K2, s.groups ctx.group = A ++ B ∧ s.dom.kids (P ctx.group).1 = K1 ++ K2 ∧
      List.Sublist (B.map (·.2) ++ (P ctx.group).2.toList) K2 ∧
      (K2.head? = (B.map (·.2) ++ (P ctx.group).2.toList).head?) ∧
      (∀ e ∈ A, Pos.cmp e.1 ctx.path.reverse = .lt) ∧ (∀ e ∈ B, Pos.cmp ctx.path.reverse e.1 = .lt) ∧
      ∀ s', (Verif.Dom.Op.render ctx n).exec b s = some s' →
        ∀ x, s'.dom.kids x = if x = (P ctx.group).1 then K1 ++ n :: K2 else s.dom.kids x := by
  obtain ⟨hP, hfresh, hfree, hmark⟩ := hok
  have hc : (P ctx.group).1 = ctx.home := by rw [← hP]
  have hm : (P ctx.group).2 = ctx.marker := by rw [← hP]
  obtain ⟨A, B, K1, K2, h1, h2, -, h4, h5, h6, h7, h8⟩ :=
    addHere_spec h b ctx.group ctx.home ctx.marker ctx.path.reverse n hP (h.not_in_of_fresh hfresh)
      (by
        intro e he heq
        refine hfree _ ((h.agree _ e.1 e.2).1 he) ⟨rfl, ?_⟩
        rw [heq]; simp) hmark
  refine ⟨A, B, K1, K2, h1, by rw [hc]; exact h2, by rw [hm]; exact h4, by rw [hm]; exact h5, h6, h7, ?_⟩
  intro s' hs' x
  simp only [Verif.Dom.Op.exec, Ctx.addChild_eq, List.nil_append, h8, Option.some.injEq] at hs'
  subst hs'
  simp only [hc]

theorem keeps_step {P : Places} {D : Display} {s s' : State} {g : GroupId} {path : List Nat} {ls le : NodeId}
    (b : Build) (h : Keeps P D s g path ls le) (op : Verif.Dom.Op) (hok : op.Ok P D) (hq : Quiet g path ls le D op)
    (he : op.exec b s = some s') : Keeps P (D.step op) s' g path ls le := by
  have hinv : Inv P (D.step op) s' := by
    obtain ⟨s1, e1, h1⟩ := h.inv.step b op hok
    rw [he] at e1
    exact (Option.some.inj e1) ▸ h1
  have hshne : ∀ x ∈ D.shown, ∀ n c, (c, n) ∈ D.foreign → x.node ≠ n := by
    rintro x hx n c hn rfl
    exact h.inv.sep x hx _ hn
  cases op with
  | render ctx n =>
    obtain ⟨A, B, K1, K2, h1, h2, h4, h5, h6, h7, h8⟩ := render_exec h.inv b ctx n hok
    have hkids := h8 s' he
    have hsub : List.Sublist (s.dom.kids (P g).1) (s'.dom.kids (P g).1) := by
      rw [hkids]
      split
      · next hx => rw [hx, h2]; exact (List.Sublist.refl _).append (List.sublist_cons_self _ _)
      · exact List.Sublist.refl _
    refine ⟨hinv, ?_, ⟨?_, ?_, ?_⟩, h.start, h.stop, h.marker⟩
    · intro x hx hxg
      simp only [Display.step, List.mem_cons] at hx
      rcases hx with rfl | hx
      · exact (hq hxg).1
      · exact h.free x hx hxg
    · intro x hx hxg
      simp only [Display.step, List.mem_cons] at hx
      rcases hx with rfl | hx
      · have hxg' : ctx.group = g := hxg
        rw [hxg'] at h1 h2 h4 h5 hkids
        obtain ⟨q1, q2, q3⟩ := render_side (n := n) h h1 h2 h4 h5 h6 h7
        rw [hkids, if_pos rfl]
        exact ⟨fun hb => q2 hb ((hq hxg').2 hb), q1⟩
      · obtain ⟨q1, q2⟩ := h.place.1 x hx hxg
        exact ⟨fun hb => (q1 hb).trans hsub, fun hb => (q2 hb).trans hsub⟩
    · intro r hr; exact (h.place.2.1 r hr).trans hsub
    · exact h.place.2.2.trans hsub
  | unrender ctx =>
    have hexec := unrender_spec h.inv b ctx hok
    rw [he] at hexec
    have hs' := Option.some.inj hexec
    have hrem := mem_removed h.inv ctx
    generalize hR : ((s.groups ctx.group).filter (fun e => ctx.path.isPrefixOf e.1.reverse)).map
      (·.2) = R at hrem hs'
    have hkids : ∀ x, s'.dom.kids x = if x = ctx.home then (s.dom.kids x).filter (fun y => !R.contains y) else s.dom.kids x := by
      rw [hs']; intro x; rfl
    have hkeep : ∀ (a c : NodeId), R.contains a = false → R.contains c = false →
        List.Sublist [a, c] (s.dom.kids (P g).1) → List.Sublist [a, c] (s'.dom.kids (P g).1) := by
      intro a c ha hc hs
      rw [hkids]
      split
      · have := hs.filter (fun y => !R.contains y)
        rwa [List.filter_eq_self.2] at this
        intro y hy
        simp only [List.mem_cons, List.not_mem_nil, or_false] at hy
        rcases hy with rfl | rfl
        · rw [ha]; rfl
        · rw [hc]; rfl
      · exact hs
    have hforR : ∀ c n, (c, n) ∈ D.foreign → R.contains n = false := by
      intro c n hn
      cases hb : R.contains n with
      | false => rfl
      | true =>
        obtain ⟨x, hx, hxn, -⟩ := (hrem n).1 hb
        exact absurd hxn (hshne x hx n c hn)
    have hshR : ∀ x ∈ (D.step (.unrender ctx)).shown, x ∈ D.shown ∧ R.contains x.node = false := by
      intro x hx
      simp only [Display.step, List.mem_filter] at hx
      refine ⟨hx.1, ?_⟩
      cases hb : R.contains x.node with
      | false => rfl
      | true =>
        obtain ⟨y, hy, hyn, hyg, hyp⟩ := (hrem _).1 hb
        have := h.inv.uniq y hy x hx.1 hyn
        subst this
        simp [hyg, hyp] at hx
    refine ⟨hinv, ?_, ⟨?_, ?_, ?_⟩, h.start, h.stop, h.marker⟩
    · intro x hx hxg; exact h.free x (hshR x hx).1 hxg
    · intro x hx hxg
      obtain ⟨hx1, hx2⟩ := hshR x hx
      obtain ⟨q1, q2⟩ := h.place.1 x hx1 hxg
      exact ⟨fun hb => hkeep _ _ hx2 (hforR _ _ h.start) (q1 hb), fun hb => hkeep _ _ (hforR _ _ h.stop) hx2 (q2 hb)⟩
    · intro r hr; exact hkeep _ _ (hforR _ _ h.stop) (hforR _ _ (h.marker r hr)) (h.place.2.1 r hr)
    · exact hkeep _ _ (hforR _ _ h.start) (hforR _ _ h.stop) h.place.2.2
  | foreignInsert c n ref =>
    obtain ⟨hfresh, href⟩ := hok
    obtain ⟨K1, K2, hk, -, hex⟩ := insert_spec h.inv c n ref (h.inv.not_in_of_fresh hfresh)
      (by intro r hr; rw [h.inv.mem]; exact href r hr)
    have hs' : s'.dom = ⟨fun x => if x = c then K1 ++ n :: K2 else s.dom.kids x⟩ := by
      simp only [Verif.Dom.Op.exec, hex, bind, Option.bind, pure, Option.some.injEq] at he
      rw [← he]
    have hsub : List.Sublist (s.dom.kids (P g).1) (s'.dom.kids (P g).1) := by
      rw [hs']
      show List.Sublist _ (if (P g).1 = c then K1 ++ n :: K2 else s.dom.kids (P g).1)
      split
      · next hx => rw [hx, hk]; exact (List.Sublist.refl _).append (List.sublist_cons_self _ _)
      · exact List.Sublist.refl _
    refine ⟨hinv, h.free, ⟨?_, ?_, ?_⟩, List.mem_cons_of_mem _ h.start, List.mem_cons_of_mem _ h.stop,
      fun r hr => List.mem_cons_of_mem _ (h.marker r hr)⟩
    · intro x hx hxg
      obtain ⟨q1, q2⟩ := h.place.1 x hx hxg
      exact ⟨fun hb => (q1 hb).trans hsub, fun hb => (q2 hb).trans hsub⟩
    · intro r hr; exact (h.place.2.1 r hr).trans hsub
    · exact h.place.2.2.trans hsub
  | foreignRemove c n =>
    obtain ⟨hin, hmark⟩ := hok
    obtain ⟨hq1, hq2⟩ := hq
    have hmem : n ∈ s.dom.kids c := (h.inv.mem c n).2 (.inr hin)
    have hs' : s'.dom = ⟨fun x => if x = c then (s.dom.kids x).filter (· != n) else s.dom.kids x⟩ := by
      simp only [Verif.Dom.Op.exec, Dom.removeChild, if_pos hmem, bind, Option.bind, pure, Option.some.injEq] at he
      rw [← he]
    have hkeep : ∀ (a e : NodeId), a ≠ n → e ≠ n →
        List.Sublist [a, e] (s.dom.kids (P g).1) → List.Sublist [a, e] (s'.dom.kids (P g).1) := by
      intro a e ha he' hs
      rw [hs']
      show List.Sublist _ (if (P g).1 = c then (s.dom.kids (P g).1).filter (· != n) else s.dom.kids (P g).1)
      split
      · have := hs.filter (· != n)
        rwa [filter_ne_self (by simp; exact ⟨fun e => ha e.symm, fun e => he' e.symm⟩)] at this
      · exact hs
    have hne : ∀ m, m ≠ n → ((P g).1, m) ∈ D.foreign → ((P g).1, m) ∈ (D.step (.foreignRemove c n)).foreign := by
      intro m hm hf
      simp only [Display.step, List.mem_filter]
      exact ⟨hf, by simp [hm]⟩
    have hmr : ∀ r, (P g).2 = some r → r ≠ n := by rintro r hr rfl; exact hmark g hr
    refine ⟨hinv, h.free, ⟨?_, ?_, ?_⟩, hne _ hq1.symm h.start, hne _ hq2.symm h.stop, fun r hr => hne _ (hmr r hr) (h.marker r hr)⟩
    · intro x hx hxg
      obtain ⟨q1, q2⟩ := h.place.1 x hx hxg
      have hxn := hshne x hx n c hin
      exact ⟨fun hb => hkeep _ _ hxn hq1.symm (q1 hb), fun hb => hkeep _ _ hq2.symm hxn (q2 hb)⟩
    · intro r hr; exact hkeep _ _ hq2.symm (hmr r hr) (h.place.2.1 r hr)
    · exact hkeep _ _ hq1.symm hq2.symm h.place.2.2

theorem keeps_run {P : Places} {D : Display} {s : State} {g : GroupId} {path : List Nat} {ls le : NodeId}
    (b : Build) (h : Keeps P D s g path ls le) (ops : List Verif.Dom.Op) (hok : HistoryOk P D ops)
    (hq : QuietHistory g path ls le D ops) :
    ∃ s', runOps b s ops = some s' ∧ Keeps P (D.run ops) s' g path ls le := by
  induction ops generalizing D s with
  | nil => exact ⟨s, rfl, h⟩
  | cons op ops ih =>
    obtain ⟨s1, h1, -⟩ := h.inv.step b op hok.1
    obtain ⟨s2, h2, hi2⟩ := ih (keeps_step b h op hok.1 hq.1 h1) hok.2 hq.2
    exact ⟨s2, by simp [runOps, h1, h2], hi2⟩

end Verif.Lists
