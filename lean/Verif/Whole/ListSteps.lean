import Verif.Whole.MoveStep
/-! # Rendering and un-rendering a list, new lists, and other code -/
namespace Verif.Whole
open Verif.Dom Verif.Lists Verif.Lists.Forest

theorem pickList_split {i : Nat} {x y : NodeId} {f1 f2 m : Forest} (hl1 : f1.Level 2)
    (h1 : NoList i f1) :
    (f1 ++ Forest.list i x y m f2).pickList i = Forest.list i x y m .nil := by
  induction f1 with
  | nil => simp [pickList]
  | node n r ih => exact ih hl1 h1
  | item k a b m' r _ ih => exact absurd hl1.1 (by simp)
  | list j a b m' r _ ih =>
    have h3 := (cutList_none (i := i) (f := m') (fun _ _ _ hm => absurd (has_level hl1.2.1 hm).1 (by simp))).2
    show (Forest.list j a b m' (r ++ Forest.list i x y m f2)).pickList i = _
    simp only [pickList, if_neg h1.1, h3, ih hl1.2.2 h1.2]
    rfl

/-- Where something is put when it is inserted before `r`. -/
theorem ref_or_list {r : NodeId} {f : Forest} (hl : f.Level 2) (h : r ∈ f.flat) :
    Ref .top r .top f ∨ ∃ i x y m f1 f2, f = f1 ++ Forest.list i x y m f2 ∧ (r ∈ m.flat ∨ r = y) := by
  induction f with
  | nil => cases h
  | node n q ih =>
    rcases List.mem_cons.1 h with h | h
    · exact .inl (.inl ⟨h.symm, rfl⟩)
    · rcases ih hl h with h1 | ⟨i, x, y, m, f1, f2, h1, h2⟩
      · exact .inl (.inr h1)
      · exact .inr ⟨i, x, y, m, node n f1, f2, by rw [h1]; rfl, h2⟩
  | item k a b m q _ ih => exact absurd hl.1 (by simp)
  | list i a b m q _ ih =>
    simp only [Forest.flat, List.mem_cons, List.mem_append] at h
    rcases h with h | h | h | h
    · exact .inl (.inl ⟨h.symm, rfl⟩)
    · exact .inr ⟨i, a, b, m, nil, q, rfl, .inl h⟩
    · exact .inr ⟨i, a, b, m, nil, q, rfl, .inr h⟩
    · rcases ih hl.2.2 h with h1 | ⟨j, x, y, m', f1, f2, h1, h2⟩
      · exact .inl (.inr (.inr (.inr h1)))
      · exact .inr ⟨j, x, y, m', Forest.list i a b m f1, f2, by rw [h1]; rfl, h2⟩

section
variable {l : Lay} {lists : Nat → Option DynList} {fgn : List (NodeId × NodeId)} {O : Orders} {D : Display}
  {F : Page}

theorem Paged.not_start {d : Dom} (h : Paged l lists fgn O D d F) {i : Nat} {L : DynList} (hL : lists i = some L)
    (g : GroupId) : l.lab g ≠ .item L.listStart := by
  intro hg
  obtain ⟨f1, f2, m, e, hn1, hn2, hm1, hl1, hl2, hent, hhas, hkeys⟩ := h.list hL
  obtain ⟨j, Lj, k, s, h1, h2, h3⟩ := h.ends g _ hg
  have hc : l.at_ g = L.container := h.one (ref_mem (h.ref hg).1) (has_mem hhas).1
  have hnd := h.nodup L.container
  rw [e, Forest.flat_append, Forest.flat] at hnd
  simp only [List.nodup_append, List.nodup_cons, List.mem_append, List.mem_cons] at hnd
  obtain ⟨mj, hmj⟩ := h.homes j Lj h1
  have hej := h.rows _ _ _ _ _ hmj
  rw [← h2, hc] at hmj
  rw [← hej] at h3
  have hst := (entry_marker h3).2
  rw [e, has_append] at hmj
  rcases hmj with h4 | ⟨-, -, -, rfl⟩ | h4 | h4
  · exact hnd.2.2 _ (marker_mem ((has_marker h4).2.2 _ hst)) _ (.inl rfl) rfl
  · exact hnd.2.1.1 (.inl (marker_mem hst))
  · exact absurd (has_level hm1 h4).1 (by simp)
  · exact hnd.2.1.1 (.inr (.inr (marker_mem ((has_marker h4).2.2 _ hst))))

theorem Paged.renderList (b : Build) {st : State} {i : Nat} {L : DynList} {ctx : Ctx} (hi : Inv l.P D st)
    (h : Paged l lists fgn O D st.dom F) (hL : lists i = some L) (hcf : L.container = L.frag)
    (hm : ctx.marker = none) (hat : l.at_ ctx.group = ctx.home) (hlab : l.lab ctx.group = .top)
    (hfree : PlaceFree D ctx.group ctx.path) (hidx : ∀ j ∈ ctx.path, j + 1 < 2 ^ 32)
    (helse : ∀ j Lj, lists j = some Lj → Lj.frag ≠ ctx.home) :
    ∃ s' D' F', renderCtx b st ctx L = some (s', { L with container := ctx.home }) ∧ s'.groups = st.groups ∧
      Inv (moveLay l i (O i) L.frag ctx.home).P D' s' ∧
      Paged (moveLay l i (O i) L.frag ctx.home)
        (fun j => if j = i then some { L with container := ctx.home } else lists j) fgn O D' s'.dom F' ∧
      D'.shown = D.shown ∧
      ∀ p x, (p, x) ∈ D'.foreign → (p, x) ∈ D.foreign ∨ (p = ctx.home ∧ (L.frag, x) ∈ D.foreign) := by
  obtain ⟨hfr, -, hhere, -⟩ := h.ninv.here i L hL
  obtain ⟨m, hF⟩ := hhere hcf
  have hne : ctx.home ≠ L.frag := fun e => helse i L hL e.symm
  have hkf : st.dom.kids L.frag = L.listStart :: (m.flat ++ [L.listEnd]) := by
    rw [h.ninv.kids, hF]; simp [Forest.flat]
  obtain ⟨s', A, B, K1, K2, e1, e2, e3, e4, e5, e6, e7, e8, e9, e10, e11, e12⟩ := render_list' b hi (ctx := ctx)
    (L := L) (items := m.flat)
    ⟨hcf, hkf, (h.marks _ _).2 (.inr (by rw [hF]; exact .inl rfl)), by
      intro n hn x hx hk
      refine hx (h.one (n := n) ?_ ?_)
      · rw [← h.ninv.kids x]; exact hk
      · rw [← h.ninv.kids]; rw [hkf]; exact hn, by
      intro g hg
      exact h.not_start hL g (marker_eq.1 hg)⟩
    ⟨by rw [hm, ← hat]; show _ = (l.at_ _, Cell.marker (l.lab _)); rw [hlab]; rfl, hfree, hidx,
      by rw [hm]; simp, hne⟩
  rw [hm] at e12
  simp only [Option.toList_none, List.append_nil] at e12
  -- the same, on the page
  have href : ∀ r, K2.head? = some r → r ∈ seq .top .top (F.at_ ctx.home) := by
    intro r hr
    rw [e12] at hr
    have hr := List.mem_of_head? hr
    obtain ⟨e, he, rfl⟩ := List.mem_map.1 hr
    have := h.shown_seq ((hi.agree ctx.group e.1 e.2).1 (by rw [e3]; exact List.mem_append_right _ he))
    simp only at this
    rw [hat, hlab] at this
    exact this
  obtain ⟨w', hs, hn'⟩ := ninv_render h.ninv (i := i) (p := ctx.home) (a := K2.head?)
    ⟨L, hL, hcf, helse, fun r hr => by rw [h.ninv.kids]; exact seq_mem_flat (href r hr)⟩
  have hw : w'.lists = fun j => if j = i then some { L with container := ctx.home } else lists j := by
    simp only [nstep, Option.bind_eq_bind, Option.pure_def, Option.bind_eq_some_iff, Option.some.injEq,
      Prod.mk.injEq] at hs
    obtain ⟨L1, hL1, ⟨d1, L2⟩, hr, rfl, -⟩ := hs
    obtain rfl : L = L1 := by have := hL.symm.trans hL1; cases this; rfl
    simp only [Lists.render, Option.bind_eq_bind, Option.bind_eq_some_iff] at hr
    obtain ⟨_, -, _, -, _, -, _, -, hr⟩ := hr
    rw [if_pos hcf] at hr
    simp only [Option.pure_def, Option.bind_eq_some_iff, Option.some.injEq, Prod.mk.injEq] at hr
    obtain ⟨_, -, -, rfl⟩ := hr
    rfl
  obtain ⟨g1, g2, hg, hp, hg2⟩ : ∃ g1 g2, F.at_ ctx.home = g1 ++ g2 ∧
      (∀ p, Forest.place p K2.head? (F.at_ ctx.home) = g1 ++ (p ++ g2)) ∧ g2.flat.head? = K2.head? := by
    cases hK : K2.head? with
    | none => exact ⟨F.at_ ctx.home, nil, by simp, fun p => by simp [Forest.place], rfl⟩
    | some r =>
      obtain ⟨f1, f2, h1, h2⟩ := split_node (href r hK) (h.nodup _)
      exact ⟨f1, node r f2, h1, fun p => h2 p, rfl⟩
  obtain ⟨F', hF'⟩ : ∃ F', F' = nspec F (.render i ctx.home K2.head?) := ⟨_, rfl⟩
  rw [← hF'] at hn'
  have k1 : F'.at_ ctx.home = g1 ++ Forest.list i L.listStart L.listEnd m g2 := by
    rw [hF']
    simp only [nspec, Page.set, hfr, if_neg hne, if_true]
    rw [hF, hp]; rfl
  have k0 : F'.at_ L.frag = nil := by
    rw [hF']
    simp only [nspec, Page.set, hfr, if_true]
  have kx : ∀ x, x ≠ L.frag → x ≠ ctx.home → F'.at_ x = F.at_ x := by
    intro x hx hx'
    rw [hF']
    simp only [nspec, Page.set, hfr, if_neg hx, if_neg hx']
  have hdom : w'.dom = s'.dom := by
    apply dom_ext
    intro x
    rw [hn'.kids]
    by_cases hx : x = L.frag
    · rw [hx, k0, e10]; rfl
    · by_cases hx' : x = ctx.home
      · rw [hx', k1, e9]
        have := (h.ninv.kids ctx.home).symm
        rw [hg, Forest.flat_append] at this
        obtain ⟨h1, h2⟩ := split_at (this.trans e4) (by rw [← Forest.flat_append, ← hg]; exact h.nodup _) hg2
        rw [Forest.flat_append, Forest.flat, h1, h2]
      · rw [kx x hx hx', e11 x hx' hx, h.ninv.kids]
  obtain ⟨D', hI, hP, hsh, hfo⟩ := h.moved (F' := F') (d' := s'.dom) hi hL hcf hne hg
    (by
      have : w' = ⟨s'.dom, fun j => if j = i then some { L with container := ctx.home } else lists j⟩ := by
        rw [← hw, ← hdom]
      rw [this] at hn'
      exact hn')
    (by
      intro f1 f2 m' he _ _ _ _
      rw [hF] at he
      cases f1 with
      | nil => cases he; exact ⟨k0, k1⟩
      | node n r => cases he
      | item k a b m r => cases he
      | list j a b m r =>
        have he' : nil = r ++ Forest.list i L.listStart L.listEnd m' f2 := by injection he
        have := congrArg Forest.flat he'
        simp [Forest.flat] at this)
    (fun x hx hx' => kx x hx hx')
  refine ⟨s', D', F', e1, e2, ?_, hP, hsh, hfo⟩
  rw [← e2] at hI
  exact hI

theorem Paged.unrenderList {st : State} {i : Nat} {L : DynList} (hi : Inv l.P D st)
    (h : Paged l lists fgn O D st.dom F) (hL : lists i = some L) (hcf : L.container ≠ L.frag) :
    ∃ d' D' F', Lists.unrender st.dom L = some (d', { L with container := L.frag }) ∧
      Inv (moveLay l i (O i) L.container L.frag).P D' ⟨st.groups, d'⟩ ∧
      Paged (moveLay l i (O i) L.container L.frag)
        (fun j => if j = i then some { L with container := L.frag } else lists j) fgn O D' d' F' ∧
      D'.shown = D.shown ∧
      ∀ p x, (p, x) ∈ D'.foreign → (p, x) ∈ D.foreign ∨ (p = L.frag ∧ (L.container, x) ∈ D.foreign) := by
  obtain ⟨hfr, -, -, hhere⟩ := h.ninv.here i L hL
  have hF := hhere hcf
  obtain ⟨f1, f2, m, e, hn1, hn2, hm1, hl1, hl2, hent, hhas, hkeys⟩ := h.list hL
  obtain ⟨w', hs, hn'⟩ := ninv_unrender h.ninv (i := i) (src := L.container)
    ⟨L, hL, hcf, by show _ ∈ st.dom.kids _; rw [h.ninv.kids]; exact (has_mem hhas).1⟩
  simp only [nstep, Option.bind_eq_bind, Option.pure_def, Option.bind_eq_some_iff, Option.some.injEq,
    Prod.mk.injEq] at hs
  obtain ⟨L1, hL1, ⟨d', L2⟩, hr, rfl, -⟩ := hs
  obtain rfl : L = L1 := by have := hL.symm.trans hL1; cases this; rfl
  have hL2 : L2 = { L with container := L.frag } := by
    simp only [unrenderAt, Option.bind_eq_bind, Option.pure_def, Option.bind_eq_some_iff, Option.some.injEq,
      Prod.mk.injEq] at hr
    obtain ⟨_, -, -, rfl⟩ := hr
    rfl
  subst hL2
  obtain ⟨F', hF'⟩ : ∃ F', F' = nspec F (.unrender i L.container) := ⟨_, rfl⟩
  rw [← hF'] at hn'
  obtain ⟨D', hI, hP, hsh, hfo⟩ := h.moved (F' := F') (d' := d') hi hL rfl (fun e => hcf e.symm) (g1 := nil) (g2 := nil)
    (by rw [hF]; rfl) hn'
    (by
      intro f1 f2 m he h1 h2 h3 h4
      rw [hF']
      simp only [nspec, Page.set, hfr, if_neg hcf, if_true]
      rw [he, cutList_split h3 h4 h1 h2, pickList_split h3 h1]
      exact ⟨rfl, rfl⟩)
    (by
      intro x hx hx'
      rw [hF']
      simp only [nspec, Page.set, hfr, if_neg hx, if_neg hx'])
  exact ⟨d', D', F', hr, hI, hP, hsh, hfo⟩

theorem Paged.newList {st : State} {i n : Nat} (hi : Inv l.P D st) (h : Paged l lists fgn O D st.dom F)
    (hL : lists i = none) (hn : F.at_ n = nil) (hfr : ∀ j L, lists j = some L → L.frag ≠ n)
    (h1 : ∀ c, n + 1 ∉ st.dom.kids c) (h2 : ∀ c, n + 2 ∉ st.dom.kids c) :
    ∃ d' D' F', Lists.new st.dom n (n + 1) (n + 2) = some (d', ⟨[], n, n, n + 1, n + 2⟩) ∧
      Inv l.P D' ⟨st.groups, d'⟩ ∧
      Paged l (fun j => if j = i then some ⟨[], n, n, n + 1, n + 2⟩ else lists j) fgn
        (fun j => if j = i then [] else O j) D' d' F' ∧
      D'.shown = D.shown ∧
      ∀ p x, (p, x) ∈ D'.foreign → (p, x) ∈ D.foreign ∨ (p = n ∧ (x = n + 1 ∨ x = n + 2)) := by
  obtain ⟨w', hs, hn'⟩ := ninv_create h.ninv (i := i) (frag := n) (x := n + 1) (y := n + 2)
    ⟨hL, hn, hfr, h1, h2, by simp⟩
  simp only [nstep, Option.map_eq_some_iff, Prod.mk.injEq] at hs
  obtain ⟨⟨d', L⟩, hr, rfl, -⟩ := hs
  have hL' : L = ⟨[], n, n, n + 1, n + 2⟩ := by
    simp only [Lists.new, Option.bind_eq_bind, Option.pure_def, Option.bind_eq_some_iff, Option.some.injEq,
      Prod.mk.injEq] at hr
    obtain ⟨_, -, _, -, -, rfl⟩ := hr
    rfl
  subst hL'
  obtain ⟨F', hF'⟩ : ∃ F', F' = nspec F (.create i n (n + 1) (n + 2)) := ⟨_, rfl⟩
  rw [← hF'] at hn'
  have k0 : F'.at_ n = Forest.list i (n + 1) (n + 2) nil nil := by rw [hF']; simp [nspec]
  have kx : ∀ x, x ≠ n → F'.at_ x = F.at_ x := by intro x hx; rw [hF']; simp [nspec, hx]
  obtain ⟨fo, hfo⟩ := exists_foreign (F' := F') h.marks [n] (by
    intro x hx
    exact kx x (by simpa using hx))
  have hseq : ∀ κ c, seq κ .top (F'.at_ c) = seq κ .top (F.at_ c) := by
    intro κ c
    by_cases hc : c = n
    · rw [hc, k0, hn]; simp [seq]
    · rw [kx c hc]
  have hP : Paged l (fun j => if j = i then some ⟨[], n, n, n + 1, n + 2⟩ else lists j) fgn
        (fun j => if j = i then [] else O j) ⟨D.shown, fo⟩ d' F' := by
    refine ⟨hn', ?_, ?_, hfo, ?_, ?_, ?_⟩
    · intro c
      by_cases hc : c = n
      · rw [hc, k0]; exact ⟨rfl, trivial, trivial⟩
      · rw [kx c hc]; exact h.level c
    · intro c κ q; rw [hseq]; exact h.cells c κ q
    · intro c j x y m hm
      by_cases hc : c = n
      · rw [hc, k0] at hm
        rcases hm with ⟨rfl, -, -, rfl⟩ | hm | hm
        · rw [if_pos rfl]; rfl
        · cases hm
        · cases hm
      · rw [kx c hc] at hm
        have hj : j ≠ i := by
          rintro rfl
          obtain ⟨L, hL2, -⟩ := h.ninv.known _ _ _ _ _ hm
          have := hL.symm.trans hL2
          cases this
        rw [if_neg hj]; exact h.rows _ _ _ _ _ hm
    · intro g y hg
      obtain ⟨j, Lj, k, s, h3, h4, h5⟩ := h.ends g y hg
      have hj : j ≠ i := by
        rintro rfl
        rw [hL] at h3; cases h3
      exact ⟨j, Lj, k, s, by rw [if_neg hj]; exact h3, h4, by rw [if_neg hj]; exact h5⟩
    · intro j Lj hLj
      by_cases hj : j = i
      · rw [if_pos hj] at hLj
        cases hLj
        refine ⟨nil, ?_⟩
        show (F'.at_ n).Has j _ _ _
        rw [k0, hj]; exact .inl ⟨rfl, rfl, rfl, rfl⟩
      · rw [if_neg hj] at hLj
        obtain ⟨m, hm⟩ := h.homes j Lj hLj
        refine ⟨m, ?_⟩
        rw [kx]
        · exact hm
        · intro e; rw [e, hn] at hm; cases hm
  refine ⟨d', ⟨D.shown, fo⟩, F', hr, ?_, hP, rfl, ?_⟩
  · refine inv_of_cells hi rfl hP (fun p x hx => ⟨p, (h.marks _ _).2 (.inl hx)⟩) ?_
    intro g
    rw [hseq]; exact h.order hi g
  · intro p x hx
    rcases (hfo p x).1 hx with h3 | h3
    · exact .inl ((h.marks _ _).2 (.inl h3))
    · by_cases hc : p = n
      · rw [hc, k0] at h3
        rcases h3 with h3 | h3 | h3 | h3
        · exact .inr ⟨hc, .inl h3⟩
        · exact .inr ⟨hc, .inr h3⟩
        · cases h3
        · cases h3
      · rw [kx p hc] at h3
        exact .inl ((h.marks _ _).2 (.inr h3))

theorem Paged.foreignInsert {st : State} {c n : NodeId} {ref : Option NodeId} {d' : Dom} (hi : Inv l.P D st)
    (h : Paged l lists fgn O D st.dom F) (hc : ∀ j L, lists j = some L → L.frag ≠ c)
    (hn : ∀ c, ¬ D.In l.P c n) (hr : ∀ r, ref = some r → Ref .top r .top (F.at_ c))
    (hd : st.dom.insertBefore c n ref = some d') :
    ∃ F', Inv l.P (D.step (.foreignInsert c n ref)) ⟨st.groups, d'⟩ ∧
      Paged l lists ((c, n) :: fgn) O (D.step (.foreignInsert c n ref)) d' F' := by
  have hn' : ∀ c, n ∉ (F.at_ c).flat := fun c hc => hn c ((h.mem_flat c n).1 hc)
  obtain ⟨s', he, hI⟩ := hi.foreignInsert .debug c n ref ⟨hn, fun r hr' => (h.mem_flat c r).1 (ref_mem (hr r hr'))⟩
  simp only [Verif.Dom.Op.exec, hd, Option.bind_eq_bind, Option.bind_some, Option.pure_def, Option.some.injEq] at he
  subst he
  obtain ⟨d1, F', hd1, hN, hsame, hlev, hseq, hmar, hhas, hhas'⟩ := h.place (κ := .top) (c := c) (n := n) (ref := ref)
    hc hn' (by
      cases ref with
      | none => exact .inr ⟨rfl, rfl⟩
      | some r => exact .inl ⟨r, rfl, hr r rfl⟩)
  rw [hd, Option.some.injEq] at hd1
  subst hd1
  refine ⟨F', hI, hN, ?_, ?_, ?_, ?_, h.ends, ?_⟩
  · intro x
    by_cases hx : x = c
    · rw [hx]; exact hlev
    · rw [hsame x hx]; exact h.level x
  · intro x κ q
    simp only [Display.step, List.mem_cons, Prod.mk.injEq]
    by_cases hx : x = c
    · subst hx
      rw [hseq, h.cells]
      constructor
      · rintro ((⟨h1, h2⟩ | h1) | ⟨rfl, rfl⟩)
        · exact .inl ⟨h1, .inr h2⟩
        · exact .inr h1
        · exact .inl ⟨rfl, .inl ⟨rfl, rfl⟩⟩
      · rintro (⟨h1, ⟨-, h2⟩ | h2⟩ | h1)
        · exact .inr ⟨h2, h1⟩
        · exact .inl (.inl ⟨h1, h2⟩)
        · exact .inl (.inr h1)
    · rw [hsame x hx, h.cells]
      constructor
      · rintro (⟨h1, h2⟩ | h1)
        · exact .inl ⟨h1, .inr h2⟩
        · exact .inr h1
      · rintro (⟨h1, ⟨h2, -⟩ | h2⟩ | h1)
        · exact absurd h2 hx
        · exact .inl ⟨h1, h2⟩
        · exact .inr h1
  · intro x q
    simp only [Display.step, List.mem_cons, Prod.mk.injEq, h.marks]
    by_cases hx : x = c
    · subst hx; rw [hmar, or_assoc]
    · rw [hsame x hx, or_assoc]
  · intro x i a b m hm
    by_cases hx : x = c
    · subst hx
      obtain ⟨m0, h1, h2⟩ := hhas _ _ _ _ hm
      rw [h2]; exact h.rows _ _ _ _ _ h1
    · rw [hsame x hx] at hm; exact h.rows _ _ _ _ _ hm
  · intro i L hL
    obtain ⟨m, hm⟩ := h.homes i L hL
    by_cases hx : L.container = c
    · rw [hx] at hm ⊢; exact hhas' _ _ _ _ hm
    · rw [hsame _ hx]; exact ⟨m, hm⟩

theorem Paged.foreignRemove {st : State} {c n : NodeId} {d' : Dom} (hi : Inv l.P D st)
    (h : Paged l lists fgn O D st.dom F) (hn : (c, n) ∈ fgn) (hd : st.dom.removeChild c n = some d') :
    ∃ F', Inv l.P (D.step (.foreignRemove c n)) ⟨st.groups, d'⟩ ∧
      Paged l lists (fgn.filter (· != (c, n))) O (D.step (.foreignRemove c n)) d' F' := by
  have hseq : n ∈ seq .top .top (F.at_ c) := (h.cells c .top n).2 (.inl ⟨rfl, hn⟩)
  have hmk : ∀ c', ¬ (F.at_ c').Marker n := fun c' => h.not_marker hseq
  obtain ⟨s', he, hI⟩ := hi.foreignRemove .debug c n ⟨(h.marks _ _).2 (.inl hn), by
    intro g hg
    have := (h.ref (marker_eq.1 hg)).2
    exact hmk _ this⟩
  simp only [Verif.Dom.Op.exec, hd, Option.bind_eq_bind, Option.bind_some, Option.pure_def, Option.some.injEq] at he
  subst he
  obtain ⟨w', hs, hN⟩ := ninv_vanish h.ninv (c := c) (n := n)
    ⟨by show _ ∈ st.dom.kids _; rw [h.ninv.kids]; exact seq_mem_flat hseq, hmk⟩
  simp only [nstep, hd, Option.map_some, Option.some.injEq, Prod.mk.injEq, and_true] at hs
  subst hs
  have hat : ∀ x, (nspec F (.vanish c n)).at_ x = if x = c then (F.at_ c).cutNode n else F.at_ x := fun x => rfl
  have hns : ∀ x ∈ D.shown, x.node ≠ n := by
    intro x hx e
    exact hi.sep x hx c (by rw [e]; exact (h.marks _ _).2 (.inl hn))
  refine ⟨_, hI, hN, ?_, ?_, ?_, ?_, h.ends, ?_⟩
  · intro x
    rw [hat]
    split
    · exact level_cutNode (h.level _)
    · exact h.level x
  · intro x κ q
    rw [hat]
    simp only [Display.step, List.mem_filter, bne_iff_ne, ne_eq, Prod.mk.injEq, not_and]
    split
    · rename_i e
      subst e
      rw [seq_cutNode, List.mem_filter, h.cells]
      simp only [bne_iff_ne, ne_eq]
      constructor
      · rintro ⟨⟨h1, h2⟩ | h1, h3⟩
        · exact .inl ⟨h1, h2, fun _ => h3⟩
        · exact .inr h1
      · rintro (⟨h1, h2, h3⟩ | ⟨y, hy, h1, h2⟩)
        · exact ⟨.inl ⟨h1, h2⟩, h3 trivial⟩
        · exact ⟨.inr ⟨y, hy, h1, h2⟩, h1 ▸ hns y hy⟩
    · rename_i hx
      rw [h.cells]
      constructor
      · rintro (⟨h1, h2⟩ | h1)
        · exact .inl ⟨h1, h2, fun e => absurd e hx⟩
        · exact .inr h1
      · rintro (⟨h1, h2, -⟩ | h1)
        · exact .inl ⟨h1, h2⟩
        · exact .inr h1
  · intro x q
    rw [hat]
    simp only [Display.step, List.mem_filter, bne_iff_ne, ne_eq, Prod.mk.injEq, not_and, h.marks]
    have hm : ((if x = c then (F.at_ c).cutNode n else F.at_ x) : Forest).Marker q ↔ (F.at_ x).Marker q := by
      split
      · rename_i e; subst e; rw [marker_cutNode]
      · rfl
    rw [hm]
    constructor
    · rintro ⟨h1 | h1, h2⟩
      · exact .inl ⟨h1, h2⟩
      · exact .inr h1
    · rintro (⟨h1, h2⟩ | h1)
      · exact ⟨.inl h1, h2⟩
      · exact ⟨.inr h1, fun _ e => hmk x (e ▸ h1)⟩
  · intro x i a b m hm
    rw [hat] at hm
    split at hm
    · obtain ⟨m0, h1, h2⟩ := has_cutNode hm
      rw [h2]; exact h.rows _ _ _ _ _ h1
    · exact h.rows _ _ _ _ _ hm
  · intro i L hL
    obtain ⟨m, hm⟩ := h.homes i L hL
    rw [hat]
    split
    · rename_i e; rw [e] at hm; exact ⟨_, cutNode_has hm⟩
    · exact ⟨m, hm⟩

end
end Verif.Whole
