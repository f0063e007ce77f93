import Verif.Whole.WInv
/-! # The events of lists and of other code -/
namespace Verif.Whole
open Verif.Dom Verif.Drop Verif.Lists Verif.Lists.Forest Verif.Tree

section
variable {l : Lay} {lists : Nat → Option DynList} {fgn : List (NodeId × NodeId)} {O : Orders} {D : Display}
  {F : Page} {d : Dom}

theorem Paged.row_keys (h : Paged l lists fgn O D d F) {i : Nat} {L : DynList} (hL : lists i = some L) :
    ((O i).map (·.1)).Nodup := by
  obtain ⟨f1, f2, m, -, -, -, -, -, -, he, -, hk⟩ := h.list hL
  rw [← he]; exact hk

/-- An end marker belongs to one item. -/
theorem Paged.row_stop (h : Paged l lists fgn O D d F) {i j : Nat} {L Lj : DynList} (hL : lists i = some L)
    (hLj : lists j = some Lj) {k k' : Key} {s s' y : NodeId} (h1 : (k, ⟨s, y⟩) ∈ O i) (h2 : (k', ⟨s', y⟩) ∈ O j) :
    i = j ∧ k = k' ∧ s = s' := by
  obtain ⟨f1, f2, m, e, hn1, hn2, hm1, hl1, hl2, hent, hhas, hkeys⟩ := h.list hL
  obtain ⟨mj, hmj⟩ := h.homes j Lj hLj
  have hej := h.rows _ _ _ _ _ hmj
  rw [← hent] at h1
  rw [← hej] at h2
  have hst := (entry_marker h1).2
  have hst' := (entry_marker h2).2
  have hc : L.container = Lj.container :=
    h.one (marker_mem ((has_marker hhas).2.2 _ hst)) (marker_mem ((has_marker hmj).2.2 _ hst'))
  have hnd := h.nodup L.container
  rw [e, Forest.flat_append, Forest.flat] at hnd
  simp only [List.nodup_append, List.nodup_cons, List.mem_append, List.mem_cons] at hnd
  rw [← hc, e, has_append] at hmj
  rcases hmj with h4 | ⟨rfl, -, -, rfl⟩ | h4 | h4
  · exact absurd rfl (hnd.2.2 _ (marker_mem ((has_marker h4).2.2 _ hst')) _ (.inr (.inl (marker_mem hst))))
  · refine ⟨rfl, ?_⟩
    obtain ⟨e1, he1, rfl, h6⟩ := content_of_entry h1
    obtain ⟨e2, he2, rfl, h8⟩ := content_of_entry h2
    have := stop_unique hnd.2.1.2.1 he1 he2 (by rw [h6, h8])
    subst this
    rw [h6] at h8
    cases h8
    exact ⟨rfl, rfl⟩
  · exact absurd (has_level hm1 h4).1 (by simp)
  · exact absurd rfl (hnd.2.1.2.2.2 _ (marker_mem hst) _ (.inr (marker_mem ((has_marker h4).2.2 _ hst'))))

end

section
variable {r : Nat} {l : Lay} {D : Display} {F : Page} {W : Whole} {O : Orders}

theorem Comps.of_mem {r n : Nat} {D : Display} {cs cs' : List (GroupId × Fut)} (h : Comps r n D cs)
    (hk : (cs'.map (·.1)).Nodup) (hm : ∀ p ∈ cs', p ∈ cs) : Comps r n D cs' :=
  ⟨fun p hp => h.each p (hm p hp), hk, fun p hp q hq => h.not p (hm p hp) q (hm q hq),
    fun p hp q hq => h.apart p (hm p hp) q (hm q hq)⟩

theorem elements_ids (f : Fut) : ∀ i ∈ elements f, i ∈ ids f := by
  induction f with
  | block f ih => exact ih
  | both x y ih1 ih2 =>
    intro i hi
    simp only [elements, ids, List.mem_append] at hi ⊢
    exact hi.imp (ih1 i) (ih2 i)
  | slot _ f ih => exact ih
  | comb _ f ih => exact ih
  | node id _ _ _ child ih =>
    intro i hi
    simp only [elements, ids, List.mem_cons] at hi ⊢
    exact hi.imp (fun h => h) (ih i)
  | _ => intro i hi; simp [elements] at hi

theorem WInv.at_lt (h : WInv r l D F W O) {g : Nat} (hg : g < W.next) : l.at_ g < W.next := by
  by_cases hk : g ∈ W.comps.map (·.1)
  · obtain ⟨p, hp, rfl⟩ := List.mem_map.1 hk
    rcases mem_comps.1 hp with rfl | ⟨t, ht, rfl⟩
    · show l.at_ W.app.group < _
      rw [h.group, h.root.1]
      have := h.node
      have := h.glob.low
      om
    · obtain ⟨-, L, hL, h1, -⟩ := h.tasks t ht
      show l.at_ t.stop < _
      rw [h1]
      obtain ⟨h2, h3⟩ := h.here _ L hL
      cases hc : L.ctx with
      | none => rw [h2 hc]; exact (h.frag _ L hL).2.1
      | some ctx => rw [(h3 ctx hc).1]; exact (h3 ctx hc).2.1
  · rw [(h.plain g hk).1]; exact hg

theorem WInv.not_in (h : WInv r l D F W O) {x : Nat} (hx : W.next ≤ x) (c : NodeId) : ¬ D.In l.P c x := by
  rintro (⟨y, hy, rfl, -⟩ | h1)
  · have := h.glob.node y hy
    om
  · have := h.glob.foreign c x h1
    om

theorem WInv.not_kid (h : WInv r l D F W O) {x : Nat} (hx : W.next ≤ x) (c : NodeId) : x ∉ W.dom.kids c := by
  show x ∉ W.st.dom.kids c
  rw [h.inv.mem]; exact h.not_in hx c

theorem WInv.empty (h : WInv r l D F W O) {c : Nat} (hc : W.next ≤ c) : F.at_ c = .nil := by
  have : ∀ x, x ∉ (F.at_ c).flat := by
    intro x hx
    rcases (h.paged.mem_flat c x).1 hx with ⟨y, hy, -, h1⟩ | h1
    · have h2 := h.at_lt (h.glob.group y hy).2
      rw [show l.at_ y.group = c from h1] at h2
      om
    · have := h.low c x h1
      om
  cases hf : F.at_ c with
  | nil => rfl
  | node n q => rw [hf] at this; exact absurd (List.mem_cons_self) (this n)
  | item k x y m q => rw [hf] at this; exact absurd (List.mem_cons_self) (this x)
  | list k x y m q => rw [hf] at this; exact absurd (List.mem_cons_self) (this x)

theorem WInv.at_container (h : WInv r l D F W O) {i : Nat} {L : ListSt} (hL : W.lists i = some L) :
    L.list.container < W.next := by
  obtain ⟨h2, h3⟩ := h.here _ L hL
  cases hc : L.ctx with
  | none => rw [h2 hc]; exact (h.frag _ L hL).2.1
  | some ctx => rw [(h3 ctx hc).1]; exact (h3 ctx hc).2.1

theorem global_of_plain {l : Lay} {r n n' : Nat} {D D' : Display} {P : Places} (h : Global P r n D) (hn : n ≤ n')
    (hs : D'.shown = D.shown) (hf : ∀ c x, (c, x) ∈ D'.foreign → x < n')
    (hp : ∀ g, n' ≤ g → l.at_ g = g ∧ l.lab g = .top) : Global l.P r n' D' := by
  refine ⟨?_, ?_, hf, ?_, Nat.le_trans h.low hn⟩
  · rw [hs]; exact fun x hx => Nat.lt_of_lt_of_le (h.node x hx) hn
  · rw [hs]; exact fun x hx => ⟨(h.group x hx).1, Nat.lt_of_lt_of_le (h.group x hx).2 hn⟩
  · intro g hg
    show (l.at_ g, Cell.marker (l.lab g)) = _
    rw [(hp g hg).1, (hp g hg).2]; rfl

theorem WInv.new_list (b : Build) (h : WInv r l D F W O) {i : Nat} (hi : W.lists i = none) :
    ∃ W' D' F', W.step b (.newList i) = some W' ∧ WInv r l D' F' W' (O.step W.next (.newList i)) := by
  have hd : W.dyn i = none := by simp [Whole.dyn, hi]
  obtain ⟨d', D', F', hr, hI, hP, hs, hfo⟩ := h.paged.newList h.inv hd (n := W.next) (h.empty (Nat.le_refl _))
    (by
      intro j L hL e
      obtain ⟨L', hL', rfl⟩ := dyn_some.1 hL
      have := (h.frag j L' hL').2.1
      om) (fun c => h.not_kid (Nat.le_succ _) c) (fun c => h.not_kid (Nat.le_add_right _ 2) c)
  have hfo' : ∀ p x, (p, x) ∈ D'.foreign → ((∃ p', (p', x) ∈ D.foreign) ∨ W.next ≤ x) ∧ x < W.next + 3 ∧ p < W.next + 3 := by
    intro p x hx
    rcases hfo p x hx with h1 | ⟨rfl, h1⟩
    · have := h.glob.foreign p x h1
      have := h.low p x h1
      exact ⟨.inl ⟨p, h1⟩, by om, by om⟩
    · exact ⟨.inr (by om), by om, by om⟩
  refine ⟨(W.withState ⟨⟨⟨W.st.groups, d'⟩, none⟩, W.next + 3⟩).setList i ⟨⟨[], W.next, W.next, W.next + 1, W.next + 2⟩, none⟩,
    D', F', ?_, ?_⟩
  · simp only [Whole.step]
    rw [show Lists.new W.dom W.next (W.next + 1) (W.next + 2) = _ from hr, h.flag]
    rfl
  · refine ⟨h.group, h.node, rfl, hI, ?_, ?_, ?_, h.root, h.plain, ?_, ?_, ?_, ?_, ?_, ?_⟩
    · have : ((W.withState ⟨⟨⟨W.st.groups, d'⟩, none⟩, W.next + 3⟩).setList i
          ⟨⟨[], W.next, W.next, W.next + 1, W.next + 2⟩, none⟩).dyn =
          fun j => if j = i then some ⟨[], W.next, W.next, W.next + 1, W.next + 2⟩ else W.dyn j := by
        funext j
        simp only [Whole.dyn, Whole.setList]
        split <;> rfl
      rw [this]
      exact hP
    · refine global_of_plain h.glob (Nat.le_add_right _ 3) hs (fun c x hx => (hfo' c x hx).2.1) ?_
      intro g hg
      exact h.new_place (Nat.le_trans (Nat.le_add_right _ 3) hg)
    · exact h.comps.keep (Nat.le_add_right _ 3) hs (fun c x hx => (hfo' c x hx).1)
    · intro t ht
      obtain ⟨h1, L, hL, h2⟩ := h.tasks t ht
      refine ⟨h1, L, ?_, h2⟩
      have hne : t.list ≠ i := by rintro rfl; rw [hi] at hL; cases hL
      show (if _ then _ else _) = _
      rw [if_neg hne]; exact hL
    · intro t ht hl
      obtain ⟨h1, L, hL, h2⟩ := h.tasks t ht
      have hne : t.list ≠ i := by rintro rfl; rw [hi] at hL; cases hL
      simp only [Orders.step, if_neg hne]
      exact h.live t ht hl
    · intro t ht hl j k s hj
      simp only [Orders.step]
      split
      · simp
      · rename_i hne
        refine h.dead t ht hl j k s ?_
        simpa [Whole.setList, Whole.withState, hne] using hj
    · intro j L hL
      simp only [Whole.setList] at hL
      split at hL
      · cases hL
        refine ⟨h.glob.low, by show W.next < W.next + 3; om, ?_⟩
        intro p hp hm
        exact Nat.lt_irrefl _ ((h.comps.each p hp).lt _ hm).2
      · obtain ⟨h1, h2, h3⟩ := h.frag j L hL
        exact ⟨h1, by show _ < W.next + 3; om, h3⟩
    · intro j L hL
      simp only [Whole.setList] at hL
      split at hL
      · cases hL
        exact ⟨fun _ => rfl, fun _ hc => by cases hc⟩
      · obtain ⟨h1, h2⟩ := h.here j L hL
        refine ⟨h1, fun ctx hc => ?_⟩
        obtain ⟨h3, h4, h5⟩ := h2 ctx hc
        refine ⟨h3, by show _ < W.next + 3; om, ?_⟩
        intro j' L' hL'
        simp only [Whole.setList] at hL'
        split at hL'
        · cases hL'
          show W.next ≠ ctx.home
          om
        · exact h5 j' L' hL'
    · intro c x hx
      exact (hfo' c x hx).2.2

/-- A list has moved from `c0` to `c1`. -/
theorem WInv.moved (h : WInv r l D F W O) {i : Nat} {L : ListSt} (hL : W.lists i = some L) {c1 : NodeId}
    {ctx : Option Ctx} {st' : State} {D' : Display} {F' : Page}
    (hI : Inv (moveLay l i (O i) L.list.container c1).P D' st')
    (hP : Paged (moveLay l i (O i) L.list.container c1)
      (fun j => if j = i then some { L.list with container := c1 } else W.dyn j) W.app.foreign O D' st'.dom F')
    (hs : D'.shown = D.shown)
    (hfo : ∀ p x, (p, x) ∈ D'.foreign → (∃ p', (p', x) ∈ D.foreign) ∧ p < W.next)
    (hn : ctx = none → c1 = L.list.frag)
    (hc : ∀ c, ctx = some c → c1 = c.home ∧ c.home < W.next ∧ ∀ j Lj, W.lists j = some Lj → Lj.list.frag ≠ c.home) :
    WInv r (moveLay l i (O i) L.list.container c1) D' F'
      ((W.withState ⟨⟨st', none⟩, W.next⟩).setList i ⟨{ L.list with container := c1 }, ctx⟩) O := by
  have hd : W.dyn i = some L.list := by simp [Whole.dyn, hL]
  have htop : ∀ g, l.lab g = .top → (moveLay l i (O i) L.list.container c1).at_ g = l.at_ g := by
    intro g hg
    refine if_neg ?_
    rintro ⟨-, h1 | ⟨k, s, y, h1, -⟩⟩ <;> rw [hg] at h1 <;> cases h1
  refine ⟨h.group, h.node, rfl, hI, ?_, ?_, ?_, ⟨(htop r h.root.2).trans h.root.1, h.root.2⟩, ?_, ?_, h.live, ?_, ?_, ?_, ?_⟩
  · have : ((W.withState ⟨⟨st', none⟩, W.next⟩).setList i ⟨{ L.list with container := c1 }, ctx⟩).dyn =
        fun j => if j = i then some { L.list with container := c1 } else W.dyn j := by
      funext j
      simp only [Whole.dyn, Whole.setList]
      split <;> rfl
    rw [this]
    exact hP
  · refine global_of_plain h.glob (Nat.le_refl _) hs ?_ ?_
    · intro c x hx
      obtain ⟨⟨p', h1⟩, -⟩ := hfo c x hx
      exact h.glob.foreign p' x h1
    · intro g hg
      obtain ⟨h1, h2⟩ := h.new_place hg
      exact ⟨(htop g h2).trans h1, h2⟩
  · exact h.comps.keep (Nat.le_refl _) hs (fun c x hx => .inl (hfo c x hx).1)
  · intro g hg
    obtain ⟨h1, h2⟩ := h.plain g hg
    exact ⟨(htop g h2).trans h1, h2⟩
  · intro t ht
    obtain ⟨h1, Lt, hLt, h2, h3⟩ := h.tasks t ht
    refine ⟨h1, ?_⟩
    simp only [Whole.setList]
    by_cases e : t.list = i
    · subst e
      rw [hL] at hLt
      cases hLt
      refine ⟨_, if_pos rfl, if_pos ⟨h2, ?_⟩, h3⟩
      rw [h3]
      cases hl : t.live with
      | false => exact .inl rfl
      | true =>
        obtain ⟨k, s, hks⟩ := h.live t ht hl
        exact .inr ⟨k, s, _, rfl, hks⟩
    · refine ⟨Lt, by rw [if_neg e]; exact hLt, (if_neg ?_).trans h2, h3⟩
      rintro ⟨-, h4⟩
      rw [h3] at h4
      cases hl : t.live with
      | false =>
        rw [hl] at h4
        rcases h4 with h4 | ⟨k, s, y, h4, -⟩
        · exact e (by simpa using h4)
        · cases h4
      | true =>
        rw [hl] at h4
        rcases h4 with h4 | ⟨k, s, y, h4, h5⟩
        · cases h4
        · obtain rfl : t.stop = y := by simpa using h4
          obtain ⟨k', s', hks⟩ := h.live t ht hl
          exact e (h.paged.row_stop (dyn_some.2 ⟨Lt, hLt, rfl⟩) hd hks h5).1
  · intro t ht hl j k s hj
    refine h.dead t ht hl j k s ?_
    simp only [Whole.setList] at hj
    split at hj
    · rename_i e; rw [e, hL]; simp
    · exact hj
  · intro j Lj hLj
    simp only [Whole.setList] at hLj
    split at hLj
    · cases hLj
      exact h.frag i L hL
    · exact h.frag j Lj hLj
  · have hfr : ∀ (c : NodeId), (∀ j Lj, W.lists j = some Lj → Lj.list.frag ≠ c) → ∀ j Lj,
        ((W.withState ⟨⟨st', none⟩, W.next⟩).setList i ⟨{ L.list with container := c1 }, ctx⟩).lists j = some Lj →
        Lj.list.frag ≠ c := by
      intro c hc' j Lj hLj
      simp only [Whole.setList] at hLj
      split at hLj
      · cases hLj; exact hc' i L hL
      · exact hc' j Lj hLj
    intro j Lj hLj
    have hLj' := hLj
    simp only [Whole.setList] at hLj
    split at hLj
    · cases hLj
      refine ⟨fun e => hn e, fun c e => ?_⟩
      obtain ⟨h1, h2, h3⟩ := hc c e
      exact ⟨h1, h2, hfr _ h3⟩
    · obtain ⟨h1, h2⟩ := h.here j Lj hLj
      refine ⟨h1, fun c e => ?_⟩
      obtain ⟨h3, h4, h5⟩ := h2 c e
      exact ⟨h3, h4, hfr _ h5⟩
  · exact fun c x hx => (hfo c x hx).2

theorem WInv.render_list (b : Build) (h : WInv r l D F W O) {i : Nat} {ctx : Ctx}
    (ha : (Event.render i ctx).Allowed W O) :
    ∃ W' l' D' F', W.step b (.render i ctx) = some W' ∧ WInv r l' D' F' W' O := by
  obtain ⟨⟨L, hL, hcx⟩, ⟨hm, hin⟩, hidx, hfree⟩ := ha
  have hcf := (h.here i L hL).1 hcx
  have hplace : l.at_ ctx.group = ctx.home ∧ l.lab ctx.group = .top ∧ ctx.home < W.next ∧
      ∀ j Lj, W.lists j = some Lj → Lj.list.frag ≠ ctx.home := by
    rcases hin with ⟨h1, h2⟩ | ⟨h1, h2⟩
    · rw [h1, h.group, h2]
      refine ⟨h.root.1, h.root.2, Nat.lt_of_lt_of_le h.node h.glob.low, ?_⟩
      intro j Lj hLj
      have := (h.frag j Lj hLj).1
      have := h.node
      om
    · rw [h1]
      have hp : ∃ p ∈ W.comps, ctx.home ∈ ids p.2 := by
        rcases h2 with h2 | ⟨t, ht, h2⟩
        · exact ⟨_, mem_comps.2 (.inl rfl), elements_ids _ _ h2⟩
        · exact ⟨_, mem_comps.2 (.inr ⟨t, ht, rfl⟩), elements_ids _ _ h2⟩
      obtain ⟨p, hp, hi⟩ := hp
      obtain ⟨h3, h4⟩ := h.ids_place hp hi
      refine ⟨h3, h4, ((h.comps.each p hp).lt _ hi).2, ?_⟩
      intro j Lj hLj e
      exact (h.frag j Lj hLj).2.2 p hp (e ▸ hi)
  obtain ⟨hat, hlab, hlt, hne⟩ := hplace
  have hd : W.dyn i = some L.list := by simp [Whole.dyn, hL]
  obtain ⟨s', D', F', hr, hg, hI, hP, hs, hfo⟩ := h.paged.renderList b h.inv hd hcf hm hat hlab (by
    intro x hx e hp
    refine hfree (x.path.reverse, x.node) ?_ (by simpa using hp)
    rw [h.inv.agree]
    obtain ⟨g, p, n⟩ := x
    simp only at e
    subst e
    simpa using hx) hidx (by
    intro j Lj hLj
    obtain ⟨L', hL', rfl⟩ := dyn_some.1 hLj
    exact hne j L' hL')
  refine ⟨(W.withState ⟨⟨s', none⟩, W.next⟩).setList i ⟨{ L.list with container := ctx.home }, some ctx⟩, _, D', F', ?_,
    h.moved hL (c1 := ctx.home) (ctx := some ctx) (st' := s') (D' := D') (F' := F') ?_ ?_ hs ?_ (fun e => by cases e) ?_⟩
  · simp only [Whole.step, hL, Option.bind_eq_bind, Option.bind_some]
    rw [hr, h.flag]
    rfl
  · rw [hcf]; exact hI
  · rw [hcf]; exact hP
  · intro p x hx
    rcases hfo p x hx with h1 | ⟨rfl, h1⟩
    · exact ⟨⟨_, h1⟩, h.low p x h1⟩
    · exact ⟨⟨_, h1⟩, hlt⟩
  · intro c e; cases e; exact ⟨rfl, hlt, hne⟩

theorem WInv.unrender_list (b : Build) (h : WInv r l D F W O) {i : Nat} {L : ListSt} (hL : W.lists i = some L) :
    ∃ W' l' D' F', W.step b (.unrender i) = some W' ∧ WInv r l' D' F' W' O := by
  simp only [Whole.step, hL, Option.bind_eq_bind, Option.bind_some]
  cases hcx : L.ctx with
  | none => exact ⟨W, l, D, F, rfl, h⟩
  | some ctx =>
    obtain ⟨hc, hlt, hne⟩ := (h.here i L hL).2 ctx hcx
    have hd : W.dyn i = some L.list := by simp [Whole.dyn, hL]
    have hcf : L.list.container ≠ L.list.frag := by rw [hc]; exact (hne i L hL).symm
    obtain ⟨d', D', F', hr, hI, hP, hs, hfo⟩ := h.paged.unrenderList h.inv hd hcf
    refine ⟨(W.withState ⟨⟨⟨W.st.groups, d'⟩, none⟩, W.next⟩).setList i ⟨{ L.list with container := L.list.frag }, none⟩,
      _, D', F', ?_, h.moved hL (c1 := L.list.frag) (ctx := none) (st' := ⟨W.st.groups, d'⟩) hI hP hs ?_ (fun _ => rfl)
        (fun c e => by cases e)⟩
    · simp only
      rw [show Lists.unrender W.dom L.list = _ from hr, h.flag]
      rfl
    · intro p x hx
      rcases hfo p x hx with h1 | ⟨rfl, h1⟩
      · exact ⟨⟨_, h1⟩, h.low p x h1⟩
      · exact ⟨⟨_, h1⟩, (h.frag i L hL).2.1⟩

theorem WInv.foreign_insert (b : Build) (h : WInv r l D F W O) {c : NodeId} {ref : Option NodeId}
    (ha : (Event.app (.foreignInsert c ref)).Allowed W O) :
    ∃ W' D' F', W.step b (.app (.foreignInsert c ref)) = some W' ∧ WInv r l D' F' W' O := by
  obtain ⟨hlt, hfr, hnl⟩ := ha
  simp only [Whole.step, App.step]
  cases hins : W.app.t.d.st.dom.insertBefore c W.app.t.next ref with
  | none => exact ⟨W, D, F, rfl, h⟩
  | some d' =>
    have href : ∀ x, ref = some x → Ref .top x .top (F.at_ c) := by
      rintro x rfl
      have hx : x ∈ (F.at_ c).flat := by
        rw [← h.paged.ninv.kids]
        apply Classical.byContradiction
        intro hno
        have hno' : x ∉ W.app.t.d.st.dom.kids c := hno
        simp [Dom.insertBefore, hno'] at hins
      rcases ref_or_list (h.paged.level c) hx with h1 | ⟨i, a, e, m, f1, f2, hf, hm⟩
      · exact h1
      · have hhas : (F.at_ c).Has i a e m := by
          rw [hf, has_append]; exact .inr (.inl ⟨rfl, rfl, rfl, rfl⟩)
        obtain ⟨L, hL, rfl, rfl, -⟩ := h.paged.ninv.known _ _ _ _ _ hhas
        obtain ⟨L', hL', rfl⟩ := dyn_some.1 hL
        refine absurd ⟨i, L', f1.flat, m.flat, f2.flat, hL', ?_, hm⟩ (hnl x rfl)
        have := h.paged.ninv.kids c
        rw [show W.dom.kids c = _ from this, hf, Forest.flat_append, Forest.flat]
    obtain ⟨F', hI, hP⟩ := h.paged.foreignInsert h.inv (c := c) (n := W.next) (ref := ref) (d' := d') (by
      intro j L hL
      obtain ⟨L', hL', rfl⟩ := dyn_some.1 hL
      exact (hfr j L' (.inl hL')).symm) (h.not_in (Nat.le_refl _)) href hins
    have hfo : ∀ p x, (p, x) ∈ (D.step (.foreignInsert c W.next ref)).foreign →
        ((∃ p', (p', x) ∈ D.foreign) ∨ W.next ≤ x) ∧ x < W.next + 1 ∧ p < W.next + 1 := by
      intro p x hx
      simp only [Display.step, List.mem_cons, Prod.mk.injEq] at hx
      rcases hx with ⟨rfl, rfl⟩ | hx
      · exact ⟨.inr (Nat.le_refl _), Nat.lt_succ_self _, Nat.lt_succ_of_lt hlt⟩
      · exact ⟨.inl ⟨_, hx⟩, Nat.lt_succ_of_lt (h.glob.foreign _ _ hx), Nat.lt_succ_of_lt (h.low _ _ hx)⟩
    refine ⟨_, D.step (.foreignInsert c W.next ref), F', rfl, ?_⟩
    refine ⟨h.group, h.node, h.flag, hI, hP, ?_, ?_, h.root, h.plain, h.tasks, h.live, h.dead, ?_, ?_, ?_⟩
    · refine global_of_plain h.glob (Nat.le_succ _) rfl (fun c x hx => (hfo c x hx).2.1) ?_
      intro g hg
      exact h.new_place (Nat.le_of_succ_le hg)
    · exact h.comps.keep (Nat.le_succ _) rfl (fun c x hx => (hfo c x hx).1)
    · intro i L hL
      obtain ⟨h1, h2, h3⟩ := h.frag i L hL
      exact ⟨h1, Nat.lt_succ_of_lt h2, h3⟩
    · intro i L hL
      obtain ⟨h1, h2⟩ := h.here i L hL
      refine ⟨h1, fun c e => ?_⟩
      obtain ⟨h3, h4, h5⟩ := h2 c e
      exact ⟨h3, Nat.lt_succ_of_lt h4, h5⟩
    · exact fun c x hx => (hfo c x hx).2.2

theorem WInv.foreign_remove (b : Build) (h : WInv r l D F W O) {c n : NodeId} :
    ∃ W' D' F', W.step b (.app (.foreignRemove c n)) = some W' ∧ WInv r l D' F' W' O := by
  simp only [Whole.step, App.step]
  split
  · rename_i hmem
    cases hrem : W.app.t.d.st.dom.removeChild c n with
    | none => exact ⟨W, D, F, rfl, h⟩
    | some d' =>
      obtain ⟨F', hI, hP⟩ := h.paged.foreignRemove h.inv hmem hrem
      have hsub : ∀ c' x, (c', x) ∈ (D.step (.foreignRemove c n)).foreign → (c', x) ∈ D.foreign := by
        intro c' x hx
        simp only [Display.step, List.mem_filter] at hx
        exact hx.1
      refine ⟨_, D.step (.foreignRemove c n), F', rfl, ?_⟩
      refine ⟨h.group, h.node, h.flag, hI, hP, ?_, ?_, h.root, h.plain, h.tasks, h.live, h.dead, h.frag, h.here,
        fun c x hx => h.low c x (hsub c x hx)⟩
      · exact ⟨h.glob.node, h.glob.group, fun c x hx => h.glob.foreign c x (hsub c x hx), h.glob.place, h.glob.low⟩
      · exact h.comps.keep (Nat.le_refl _) rfl (fun c x hx => .inl ⟨c, hsub c x hx⟩)
  · exact ⟨W, D, F, rfl, h⟩

end
end Verif.Whole
