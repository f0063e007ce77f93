import Verif.Lists.ItemsLemmas
/-! # The list and its items follow the view -/
namespace Verif.Lists
open Verif.Dom

def fill (groups : GroupId → Group) (x : Item) : Item := { x with content := (groups x.stop).map (·.2) }

theorem fill_key (groups : GroupId → Group) (x : Item) : (fill groups x).key = x.key := rfl
theorem fill_stop (groups : GroupId → Group) (x : Item) : (fill groups x).stop = x.stop := rfl

structure ItemInv (s : ItemSys) (V : View) : Prop where
  good : ∃ left, Good s.sys (V.rows.map (fill s.st.groups)) left ∧ ∀ n, n ∈ left ↔ V.Left n
  sorted : ∀ g, (s.st.groups g).Sorted
  agree : ∀ g e, e ∈ s.st.groups g ↔ ⟨g, e.1.reverse, e.2⟩ ∈ V.parts
  nodes : (V.parts.map Part.node).Nodup
  place : ∀ c, s.ctx = some c → c.containingNode = s.list.container

theorem ItemInv.part_inj {s : ItemSys} {V : View} (h : ItemInv s V) {p q : Part} (hp : p ∈ V.parts)
    (hq : q ∈ V.parts) (e : p.node = q.node) : p = q := by
  have := h.nodes
  revert hp hq this
  generalize V.parts = l
  intro hp hq hk
  induction l with
  | nil => cases hp
  | cons z zs ih =>
    simp only [List.map_cons, List.nodup_cons] at hk
    rcases List.mem_cons.1 hp with rfl | hx' <;> rcases List.mem_cons.1 hq with rfl | hy'
    · rfl
    · exact absurd (e ▸ List.mem_map_of_mem hy') hk.1
    · exact absurd (e ▸ List.mem_map_of_mem hx') hk.1
    · exact ih hx' hy' hk.2

theorem ItemInv.part_of {s : ItemSys} {V : View} (h : ItemInv s V) {x : Item} {n : NodeId}
    (hn : n ∈ (fill s.st.groups x).content) : ∃ p ∈ V.parts, p.stop = x.stop ∧ p.node = n := by
  obtain ⟨e, he, rfl⟩ := List.mem_map.1 hn
  exact ⟨_, (h.agree _ e).1 he, rfl, rfl⟩

theorem ItemInv.content_of {s : ItemSys} {V : View} (h : ItemInv s V) {x : Item} {p : Part} (hp : p ∈ V.parts)
    (e : p.stop = x.stop) : p.node ∈ (fill s.st.groups x).content := by
  have := (h.agree x.stop (p.path.reverse, p.node)).2 (by rw [← e]; simpa using hp)
  exact List.mem_map_of_mem (f := (·.2)) this

/-- every node that an item displays is in the list -/
theorem ItemInv.part_in {s : ItemSys} {V : View} (h : ItemInv s V) {p : Part} (hp : p ∈ V.parts) :
    p.node ∈ s.st.dom.kids s.list.container ∧ p.node ≠ s.list.listStart ∧ p.node ≠ s.list.listEnd ∧
      ∀ x ∈ V.rows, p.node ≠ x.start ∧ p.node ≠ x.stop := by
  obtain ⟨left, hg, hl⟩ := h.good
  obtain ⟨O, hO, hnd, hin⟩ := good_nodes hg
  have hmem : p.node ∈ (V.rows.map (fill s.st.groups)).flatMap Item.content ++ O := by
    by_cases hx : ∃ x ∈ V.rows, x.stop = p.stop
    · obtain ⟨x, hx, e⟩ := hx
      exact List.mem_append_left _ (List.mem_flatMap.2 ⟨_, List.mem_map_of_mem hx, h.content_of hp e.symm⟩)
    · refine List.mem_append_right _ ((hO _).2 ((hl _).2 ⟨p, hp, rfl, ?_⟩))
      intro x hx' e
      exact hx ⟨x, hx', e⟩
  rw [List.nodup_cons, List.nodup_cons, List.nodup_append] at hnd
  refine ⟨hin _ (by simp only [List.mem_cons, List.mem_append] at hmem ⊢; exact Or.inr (Or.inr (Or.inr hmem))), ?_, ?_, ?_⟩
  · intro e
    exact hnd.1 (List.mem_cons_of_mem _ (List.mem_append_right _ (e ▸ hmem)))
  · intro e
    exact hnd.2.1 (List.mem_append_right _ (e ▸ hmem))
  · intro x hx
    have hm := fun n (hn : n = x.start ∨ n = x.stop) => hnd.2.2.2.2 n (List.mem_flatMap.2
      ⟨fill s.st.groups x, List.mem_map_of_mem hx, by rcases hn with rfl | rfl <;> simp [fill]⟩) _ hmem
    exact ⟨fun e => hm _ (.inl rfl) e.symm, fun e => hm _ (.inr rfl) e.symm⟩

theorem ItemInv.row_in {s : ItemSys} {V : View} (h : ItemInv s V) {x : Item} (hx : x ∈ V.rows) :
    x.start ∈ s.st.dom.kids s.list.container ∧ x.stop ∈ s.st.dom.kids s.list.container := by
  obtain ⟨left, hg, hl⟩ := h.good
  obtain ⟨O, hO, hnd, hin⟩ := good_nodes hg
  have hm : ∀ n, n = x.start ∨ n = x.stop → n ∈ s.st.dom.kids s.list.container := by
    intro n hn
    apply hin
    refine List.mem_cons_of_mem _ (List.mem_cons_of_mem _ (List.mem_append_left _ (List.mem_flatMap.2
      ⟨fill s.st.groups x, List.mem_map_of_mem hx, ?_⟩)))
    rcases hn with rfl | rfl <;> simp [fill]
  exact ⟨hm _ (.inl rfl), hm _ (.inr rfl)⟩

theorem stop_sublist (l : List Item) : List.Sublist (l.map Item.stop) (l.flatMap fun x => [x.start, x.stop]) := by
  induction l with
  | nil => exact List.Sublist.refl _
  | cons x xs ih =>
    rw [List.map_cons, List.flatMap_cons]
    exact List.Sublist.cons _ (List.Sublist.cons_cons _ ih)

theorem ItemInv.stops {s : ItemSys} {V : View} (h : ItemInv s V) : (V.rows.map Item.stop).Nodup := by
  obtain ⟨left, hg, hl⟩ := h.good
  obtain ⟨O, hO, hnd, hin⟩ := good_nodes hg
  rw [List.nodup_cons, List.nodup_cons, List.nodup_append] at hnd
  have := (stop_sublist (V.rows.map (fill s.st.groups))).nodup hnd.2.2.1
  rwa [List.map_map] at this

theorem ItemInv.stop_inj {s : ItemSys} {V : View} (h : ItemInv s V) {x y : Item} (hx : x ∈ V.rows)
    (hy : y ∈ V.rows) (e : x.stop = y.stop) : x = y := by
  have := h.stops
  revert hx hy this
  generalize V.rows = l
  intro hp hq hk
  induction l with
  | nil => cases hp
  | cons z zs ih =>
    simp only [List.map_cons, List.nodup_cons] at hk
    rcases List.mem_cons.1 hp with rfl | hx' <;> rcases List.mem_cons.1 hq with rfl | hy'
    · rfl
    · exact absurd (e ▸ List.mem_map_of_mem hy') hk.1
    · exact absurd (e ▸ List.mem_map_of_mem hx') hk.1
    · exact ih hx' hy' hk.2

theorem ItemInv.keys {s : ItemSys} {V : View} (h : ItemInv s V) : (V.rows.map Item.key).Nodup := by
  obtain ⟨left, hg, hl⟩ := h.good
  have := hg.keys
  rwa [List.map_map] at this

/-! ## calls of the list -/

theorem callOk_of_allowed {s : Sys} {l : List Item} {op : Op} (hc : op.isCall = true) (h : Allowed s l op) : CallOk l op := by
  cases op with
  | insert k b x y => exact h.1
  | remove k => trivial
  | moveBefore k b => exact h
  | swap a b => exact h
  | retain p => trivial
  | _ => cases hc

theorem allowed_fill {s : Sys} {l : List Item} {op : Op} (hc : op.isCall = true) (h : Allowed s l op)
    (groups : GroupId → Group) : Allowed s (l.map (fill groups)) op := by
  have hf := fill_key groups
  cases op with
  | insert k b x y => exact ⟨fun k hk => (has_map hf).2 (h.1 k hk), h.2⟩
  | remove k => trivial
  | moveBefore k b => exact ⟨(has_map hf).2 h.1, fun k hk => ⟨(has_map hf).2 (h.2 k hk).1, (h.2 k hk).2⟩⟩
  | swap a b => exact ⟨(has_map hf).2 h.1, (has_map hf).2 h.2.1, fun hd => h.2.2 ((directlyBefore_map hf).1 hd)⟩
  | retain p => trivial
  | _ => cases hc

theorem left_call {s : ItemSys} {V : View} (h : ItemInv s V) {op : Op} (hc : op.isCall = true)
    (hok : CallOk V.rows op) (hnew : ∀ x, newItem op = some x → ∀ p ∈ V.parts, p.stop ≠ x.stop)
    {left : List NodeId} (hl : ∀ n, n ∈ left ↔ V.Left n) (n : NodeId) :
    n ∈ specLeft (V.rows.map (fill s.st.groups)) left op ↔ (V.step (.list op)).Left n := by
  have hk := h.keys
  rw [mem_specLeft (by rw [List.map_map]; exact hk) hc, hl]
  constructor
  · rintro (⟨p, hp, rfl, hno⟩ | ⟨z, hz, hgone, hn⟩)
    · refine ⟨p, hp, rfl, ?_⟩
      intro x hx
      rcases (mem_specStep hk hok).1 hx with hx | ⟨hx, -⟩
      · exact (hnew x hx p hp).symm
      · exact hno x hx
    · obtain ⟨x, hx, rfl⟩ := List.mem_map.1 hz
      obtain ⟨p, hp, e, rfl⟩ := h.part_of hn
      refine ⟨p, hp, rfl, ?_⟩
      intro y hy
      rcases (mem_specStep hk hok).1 hy with hy | ⟨hy, hng⟩
      · exact (hnew y hy p hp).symm
      · intro e'
        have : y = x := h.stop_inj hy hx (e'.trans e)
        subst this
        exact hng (by cases op <;> exact hgone)
  · rintro ⟨p, hp, rfl, hno⟩
    by_cases hx : ∃ x ∈ V.rows, x.stop = p.stop
    · obtain ⟨x, hx, e⟩ := hx
      refine .inr ⟨_, List.mem_map_of_mem hx, ?_, h.content_of hp e.symm⟩
      have hng : Gone op x := by
        apply Classical.byContradiction
        intro hng
        exact hno x ((mem_specStep hk hok).2 (.inr ⟨hx, hng⟩)) e
      cases op <;> exact hng
    · exact .inl ⟨p, hp, rfl, fun x hx' e => hx ⟨x, hx', e⟩⟩

theorem call_list_same {s s' : Sys} {op : Op} {a : Option Bool} (hc : op.isCall = true)
    (h : step s op = some (s', a)) : s'.list.container = s.list.container := by
  cases op with
  | insert k b x y =>
    simp only [step, Verif.Lists.insert, Option.map_eq_some_iff, Option.bind_eq_bind, Option.bind_eq_some_iff] at h
    obtain ⟨r, ⟨af, -, d1, -, d2, -, h⟩, he⟩ := h
    split at h
    · obtain ⟨d3, -, h⟩ := Option.bind_eq_some_iff.1 h
      simp only [pure, Option.some.injEq] at h
      subst h; cases he; rfl
    · simp only [pure, Option.some.injEq] at h
      subst h; cases he; rfl
  | remove k =>
    simp only [step, remove, Option.map_eq_some_iff] at h
    obtain ⟨r, h, he⟩ := h
    split at h
    · simp only [Option.bind_eq_bind, Option.bind_eq_some_iff, pure, Option.some.injEq] at h
      obtain ⟨d1, -, h⟩ := h
      subst h; cases he; rfl
    · cases h; cases he; rfl
  | moveBefore k b =>
    simp only [step, Option.map_eq_some_iff] at h
    obtain ⟨d, -, he⟩ := h
    cases he; rfl
  | swap a b =>
    simp only [step, Option.map_eq_some_iff] at h
    obtain ⟨d, -, he⟩ := h
    cases he; rfl
  | retain p =>
    simp only [step, retain, Option.map_eq_some_iff, Option.bind_eq_bind, Option.bind_eq_some_iff, pure,
      Option.some.injEq] at h
    obtain ⟨r, ⟨d1, -, h⟩, he⟩ := h
    subst h; cases he; rfl
  | _ => cases hc

/-- a call other than `insert` -/
theorem inv_call {s : ItemSys} {V : View} (h : ItemInv s V) {op : Op} (hc : op.isCall = true)
    (hni : newItem op = none) (ha : Allowed s.sys V.rows op) :
    ∃ r, step s.sys op = some (r, specAnswer V.rows op) ∧ ItemInv (s.withSys r) (V.step (.list op)) := by
  obtain ⟨left, hg, hl⟩ := h.good
  obtain ⟨r, e1, g1⟩ := good_step hg (allowed_fill hc ha s.st.groups)
  rw [specAnswer_map (fill_key _)] at e1
  rw [specStep_map (fill_key _) (by intro k ns e; subst e; cases hc)
    (by intro k b x y e; subst e; cases hni)] at g1
  refine ⟨r, e1, ⟨_, g1, left_call h hc (callOk_of_allowed hc ha) (by intro x hx; rw [hni] at hx; cases hx) hl⟩,
    h.sorted, h.agree, h.nodes, ?_⟩
  intro c hctx
  exact (h.place c hctx).trans (call_list_same hc e1).symm

theorem inv_insert {s : ItemSys} {V : View} (h : ItemInv s V) {k : Key} {b : Option Key} {x y : NodeId}
    (ha : Allowed s.sys V.rows (.insert k b x y)) (hy : ∀ p ∈ V.parts, p.stop ≠ y) :
    ∃ r, step s.sys (.insert k b x y) = some (r, specAnswer V.rows (.insert k b x y)) ∧
      ItemInv { (s.withSys r) with st := { s.st with dom := r.dom }.setGroup y [] } (V.step (.list (.insert k b x y))) := by
  obtain ⟨left, hg, hl⟩ := h.good
  have hrows : V.rows.map (fill s.st.groups) = V.rows.map (fill fun g => if g = y then [] else s.st.groups g) := by
    apply List.map_congr_left
    intro z hz
    have : z.stop ≠ y := by
      rintro rfl
      exact ha.2.2.1 _ (h.row_in hz).2
    simp only [fill, if_neg this]
  obtain ⟨r, e1, g1⟩ := good_step hg (allowed_fill rfl ha s.st.groups)
  rw [specAnswer_map (fill_key _)] at e1
  have hleft := left_call h (op := .insert k b x y) rfl (callOk_of_allowed rfl ha) (by
    intro z hz
    simp only [newItem, Option.some.injEq] at hz
    subst hz
    exact hy) hl
  have g2 := good_congr g1 (left' := specLeft (V.rows.map (fill s.st.groups)) left (.insert k b x y)) (fun n => Iff.rfl)
  rw [hrows, specStep_map (fill_key _) (by intro k ns e; cases e) (by
    intro k' b' x' y' e
    cases e
    simp [fill])] at g2
  rw [← hrows] at g2
  refine ⟨r, e1, ⟨_, g2, hleft⟩, ?_, ?_, h.nodes, ?_⟩
  · intro g
    show Group.Sorted (if g = y then [] else s.st.groups g)
    split
    · exact List.Pairwise.nil
    · exact h.sorted g
  · intro g e
    show e ∈ (if g = y then [] else s.st.groups g) ↔ _
    split
    · rename_i hgy
      subst hgy
      refine ⟨fun h => (by cases h), fun hp => absurd rfl (hy _ hp)⟩
    · exact h.agree g e
  · intro c hctx
    exact (h.place c hctx).trans (call_list_same (op := .insert k b x y) rfl e1).symm

/-! ## rendering the list, and the rest of the page -/

theorem inv_render {s : ItemSys} {V : View} (h : ItemInv s V) {c : Ctx} {a : Option NodeId}
    (ha : Allowed s.sys V.rows (.render c.containingNode a)) :
    ∃ r, step s.sys (.render c.containingNode a) = some (r, none) ∧ ItemInv { (s.withSys r) with ctx := some c } V := by
  obtain ⟨left, hg, hl⟩ := h.good
  obtain ⟨r, e1, g1, hp⟩ := good_render hg (p := c.containingNode) (a := a) ha
  refine ⟨r, e1, ⟨left, g1, hl⟩, h.sorted, h.agree, h.nodes, ?_⟩
  intro c' hc
  cases hc
  exact hp.symm

theorem inv_unrender {s : ItemSys} {V : View} (h : ItemInv s V) (ha : Allowed s.sys V.rows .unrender) :
    ∃ r, step s.sys .unrender = some (r, none) ∧ ItemInv { (s.withSys r) with ctx := none } V := by
  obtain ⟨left, hg, hl⟩ := h.good
  obtain ⟨r, e1, g1, -⟩ := good_unrender hg ha
  exact ⟨r, e1, ⟨left, g1, hl⟩, h.sorted, h.agree, h.nodes, by intro c hc; cases hc⟩

theorem not_owned {s : ItemSys} {V : View} (h : ItemInv s V) {n : NodeId} (hn : ¬ Owned s.list V.rows n)
    (hp : ∀ p ∈ V.parts, p.node ≠ n) : ¬ Owned s.list (V.rows.map (fill s.st.groups)) n := by
  rintro (h1 | h1 | ⟨z, hz, h1⟩)
  · exact hn (.inl h1)
  · exact hn (.inr (.inl h1))
  · obtain ⟨x, hx, rfl⟩ := List.mem_map.1 hz
    simp only [Item.nodes, List.mem_cons, List.mem_append, List.not_mem_nil, or_false] at h1
    rcases h1 with h1 | h1 | h1
    · exact hn (.inr (.inr ⟨x, hx, by simp [Item.nodes, h1, fill]⟩))
    · obtain ⟨p, hp', -, e⟩ := h.part_of h1
      exact hp p hp' e
    · exact hn (.inr (.inr ⟨x, hx, by simp [Item.nodes, h1, fill]⟩))

theorem left_other {V : View} {n : NodeId} (hp : ∀ p ∈ V.parts, p.node ≠ n) {left : List NodeId}
    (hl : ∀ n, n ∈ left ↔ V.Left n) (m : NodeId) : m ∈ left.filter (· != n) ↔ V.Left m := by
  rw [filter_not_mem, hl]
  intro hm
  obtain ⟨p, hp', e, -⟩ := (hl n).1 hm
  exact hp p hp' e

theorem inv_place {s : ItemSys} {V : View} (h : ItemInv s V) {c n : NodeId} {q : Option NodeId}
    (ha : Allowed s.sys V.rows (.place c n q)) (hp : ∀ p ∈ V.parts, p.node ≠ n) :
    ∃ r, step s.sys (.place c n q) = some (r, none) ∧ ItemInv (s.withSys r) V := by
  obtain ⟨left, hg, hl⟩ := h.good
  obtain ⟨h1, h3, h4⟩ := ha
  obtain ⟨r, e1, g1⟩ := good_place hg (c := c) (n := n) (r := q) ⟨h1, not_owned h h3 hp, h4⟩
  refine ⟨r, e1, ⟨_, g1, left_other hp hl⟩, h.sorted, h.agree, h.nodes, ?_⟩
  intro c' hc
  simp only [step, Option.map_eq_some_iff, Prod.mk.injEq] at e1
  obtain ⟨d, -, rfl, -⟩ := e1
  exact h.place c' hc

theorem inv_vanish {s : ItemSys} {V : View} (h : ItemInv s V) {c n : NodeId}
    (ha : Allowed s.sys V.rows (.vanish c n)) (hp : ∀ p ∈ V.parts, p.node ≠ n) :
    ∃ r, step s.sys (.vanish c n) = some (r, none) ∧ ItemInv (s.withSys r) V := by
  obtain ⟨left, hg, hl⟩ := h.good
  obtain ⟨h1, h2⟩ := ha
  obtain ⟨r, e1, g1⟩ := good_vanish hg (c := c) (n := n) ⟨h1, not_owned h h2 hp⟩
  refine ⟨r, e1, ⟨_, g1, left_other hp hl⟩, h.sorted, h.agree, h.nodes, ?_⟩
  intro c' hc
  simp only [step, Option.map_eq_some_iff, Prod.mk.injEq] at e1
  obtain ⟨d, -, rfl, -⟩ := e1
  exact h.place c' hc

end Verif.Lists
