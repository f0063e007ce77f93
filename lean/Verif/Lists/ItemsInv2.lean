import Verif.Lists.ItemsInv
/-! # The futures of the items follow the view -/
namespace Verif.Lists
open Verif.Dom

theorem below_group (path : List Nat) : ∀ c : Ctx, (below c path).group = c.group := by
  induction path with
  | nil => intro c; rfl
  | cons i is ih => intro c; exact ih (.child c i)

theorem below_home (path : List Nat) : ∀ c : Ctx, (below c path).home = c.home := by
  induction path with
  | nil => intro c; rfl
  | cons i is ih => intro c; exact ih (.child c i)

theorem below_marker (path : List Nat) : ∀ c : Ctx, (below c path).marker = c.marker := by
  induction path with
  | nil => intro c; rfl
  | cons i is ih => intro c; exact ih (.child c i)

theorem below_path (path : List Nat) : ∀ c : Ctx, (below c path).path = c.path ++ path := by
  induction path with
  | nil => intro c; simp [below]
  | cons i is ih =>
    intro c
    rw [show below c (i :: is) = below (.child c i) is from rfl, ih]
    simp [Ctx.path]

theorem item_add (b : Build) (st : State) (c : Ctx) (y : NodeId) (path : List Nat) (n : NodeId) :
    (below (itemCtx c y) path).addChild b st [] n =
      addHere b st y c.containingNode (some y) path.reverse n := by
  rw [Ctx.addChild_eq, below_group, below_home, below_marker, below_path, Ctx.containingNode_eq]
  rfl

theorem item_remove (b : Build) (st : State) (c : Ctx) (y : NodeId) (path : List Nat) :
    (below (itemCtx c y) path).removeChild b st [] = removeHere b st y c.containingNode path.reverse := by
  rw [Ctx.removeChild_eq, below_group, below_home, below_path, Ctx.containingNode_eq]
  rfl

theorem group_nodes {s : ItemSys} {V : View} (h : ItemInv s V) (g : GroupId) : ((s.st.groups g).map (·.2)).Nodup := by
  have hs := h.sorted g
  have hinj : ∀ e ∈ s.st.groups g, ∀ e' ∈ s.st.groups g, e.2 = e'.2 → e = e' := by
    intro e he e' he' hee
    have := h.part_inj ((h.agree g e).1 he) ((h.agree g e').1 he') hee
    simp only [Part.mk.injEq, true_and, List.reverse_inj] at this
    exact Prod.ext this.1 this.2
  revert hs hinj
  generalize s.st.groups g = m
  intro hs hinj
  induction m with
  | nil => exact List.nodup_nil
  | cons e m ih =>
    rw [List.map_cons, List.nodup_cons]
    have hs' := List.pairwise_cons.1 hs
    refine ⟨?_, ih hs'.2 (fun a ha b hb => hinj a (by simp [ha]) b (by simp [hb]))⟩
    intro hm
    obtain ⟨e', he', hee⟩ := List.mem_map.1 hm
    have := hinj e' (by simp [he']) e (by simp) hee
    subst this
    have := hs'.1 _ he'
    rw [cmp_self] at this
    cases this

/-- Nodes of items are taken away. -/
theorem inv_hide {s : ItemSys} {V : View} (h : ItemInv s V) {c : Ctx} (hc : s.ctx = some c) (b : Build)
    {y : NodeId} {path : List Nat} (hi : ∀ i ∈ path, i + 1 < 2 ^ 32) :
    ∃ st, (below (itemCtx c y) path).removeChild b s.st [] = some st ∧
      ItemInv { s with st := st } (V.step (.hide y path)) := by
  have hhere := h.place c hc
  have hrm := removeChildrenHere_eq b (s.st.groups y) path c.containingNode s.st.dom (h.sorted y) (group_nodes h y)
    (by
      intro e he
      rw [hhere]
      exact (h.part_in ((h.agree y e).1 he)).1) hi
  let R := ((s.st.groups y).filter (fun e => path.isPrefixOf e.1.reverse)).map (·.2)
  let q : NodeId → Bool := fun n => !R.contains n
  -- which displayed nodes stay
  have hq : ∀ p ∈ V.parts, q p.node = !(p.stop == y && path.isPrefixOf p.path) := by
    intro p hp
    have key : p.node ∈ R ↔ p.stop = y ∧ path.isPrefixOf p.path = true := by
      constructor
      · intro hm
        obtain ⟨e, he, hen⟩ := List.mem_map.1 hm
        obtain ⟨he1, he2⟩ := List.mem_filter.1 he
        have := h.part_inj ((h.agree y e).1 he1) hp hen
        subst this
        exact ⟨rfl, he2⟩
      · rintro ⟨rfl, h2⟩
        refine List.mem_map.2 ⟨(p.path.reverse, p.node), List.mem_filter.2 ⟨(h.agree _ _).2 (by simpa using hp), ?_⟩, rfl⟩
        simpa using h2
    show (!R.contains p.node) = _
    congr 1
    rw [Bool.eq_iff_iff]
    simp only [List.contains_iff_mem, Bool.and_eq_true, beq_iff_eq]
    exact key
  have hqno : ∀ n, (∀ p ∈ V.parts, n ≠ p.node) → q n = true := by
    intro n hn
    have : n ∉ R := by
      intro hm
      obtain ⟨e, he, rfl⟩ := List.mem_map.1 hm
      exact hn _ ((h.agree y e).1 (List.mem_filter.1 he).1) rfl
    show (!R.contains n) = true
    simpa using this
  obtain ⟨left, hg, hl⟩ := h.good
  have g1 := good_filter hg (q := q) (hqno _ fun p hp e => (h.part_in hp).2.1 e.symm)
    (hqno _ fun p hp e => (h.part_in hp).2.2.1 e.symm) (by
      intro z hz
      obtain ⟨x, hx, rfl⟩ := List.mem_map.1 hz
      exact ⟨hqno _ fun p hp e => ((h.part_in hp).2.2.2 x hx).1 e.symm,
        hqno _ fun p hp e => ((h.part_in hp).2.2.2 x hx).2 e.symm⟩)
  refine ⟨{ s.st with dom := ⟨fun x => if x = c.containingNode then (s.st.dom.kids x).filter q else s.st.dom.kids x⟩ }.setGroup y
    ((s.st.groups y).filter fun e => !path.isPrefixOf e.1.reverse), ?_, ?_⟩
  · rw [item_remove, removeHere, hrm]
    rfl
  have hgroups : ∀ g, (if g = y then (s.st.groups y).filter (fun e => !path.isPrefixOf e.1.reverse) else s.st.groups g) =
      (s.st.groups g).filter (fun e => q e.2) := by
    intro g
    have e1 : (s.st.groups g).filter (fun e => q e.2) =
        (s.st.groups g).filter (fun e => !(g == y && path.isPrefixOf e.1.reverse)) := by
      apply List.filter_congr
      intro e he
      exact hq _ ((h.agree g e).1 he)
    rw [e1]
    split
    · rename_i hgy; subst hgy; simp
    · rename_i hgy
      rw [List.filter_eq_self.2]
      intro e _
      simp [hgy]
  refine ⟨⟨left.filter q, ?_, ?_⟩, ?_, ?_, ?_, ?_⟩
  · have e1 : V.rows.map (fill fun g => if g = y then (s.st.groups y).filter (fun e => !path.isPrefixOf e.1.reverse) else s.st.groups g) =
        (V.rows.map (fill s.st.groups)).map fun x => { x with content := x.content.filter q } := by
      rw [List.map_map]
      apply List.map_congr_left
      intro x _
      simp only [fill, Function.comp]
      rw [hgroups, List.filter_map]
      rfl
    show Good _ (V.rows.map (fill fun g => if g = y then (s.st.groups y).filter (fun e => !path.isPrefixOf e.1.reverse) else s.st.groups g)) _
    rw [e1]
    have e2 : c.containingNode = s.sys.list.container := hhere
    simp only [e2]
    exact g1
  · intro n
    rw [List.mem_filter, hl]
    constructor
    · rintro ⟨⟨p, hp, rfl, hno⟩, hqn⟩
      refine ⟨p, List.mem_filter.2 ⟨hp, ?_⟩, rfl, hno⟩
      rw [← hq p hp]; exact hqn
    · rintro ⟨p, hp, rfl, hno⟩
      obtain ⟨hp1, hp2⟩ := List.mem_filter.1 hp
      exact ⟨⟨p, hp1, rfl, hno⟩, by rw [hq p hp1]; exact hp2⟩
  · intro g
    show Group.Sorted (if g = y then _ else _)
    rw [hgroups]
    exact List.Pairwise.filter _ (h.sorted g)
  · intro g e
    show e ∈ (if g = y then _ else _) ↔ _
    rw [hgroups, List.mem_filter, h.agree]
    constructor
    · rintro ⟨hp, hqe⟩
      exact List.mem_filter.2 ⟨hp, by rw [← hq _ hp]; exact hqe⟩
    · intro hp
      obtain ⟨hp1, hp2⟩ := List.mem_filter.1 hp
      exact ⟨hp1, by have := hq _ hp1; rw [this]; exact hp2⟩
  · exact (List.filter_sublist.map _).nodup h.nodes
  · exact h.place

/-- A component of an item displays a node. -/
theorem inv_add {s : ItemSys} {V : View} (h : ItemInv s V) {c : Ctx} (hc : s.ctx = some c) (b : Build)
    {y n : NodeId} {path : List Nat} (hx : ∃ x ∈ V.rows, x.stop = y) (hf : Fresh s.st.dom n)
    (hfree : ∀ p ∈ V.parts, ¬ (p.stop = y ∧ p.path = path)) :
    ∃ st, (below (itemCtx c y) path).addChild b s.st [] n = some st ∧
      ItemInv { s with st := st } (V.step (.add y path n)) := by
  obtain ⟨x, hx, rfl⟩ := hx
  have hhere := h.place c hc
  have hnp : ∀ p ∈ V.parts, p.node ≠ n := by
    rintro p hp rfl
    exact hf _ (h.part_in hp).1
  obtain ⟨A, B, hAB, hfirst, hins, hA, hB⟩ := Group.split (s.st.groups x.stop) (h.sorted x.stop) path.reverse n (by
    intro e he hp
    refine hfree _ ((h.agree x.stop e).1 he) ⟨rfl, ?_⟩
    show e.1.reverse = path
    rw [hp, List.reverse_reverse])
  obtain ⟨left, hg, hl⟩ := h.good
  have hnd := group_nodes h x.stop
  rw [hAB, List.map_append] at hnd
  have hng : n ∉ A.map (·.2) ++ B.map (·.2) := by
    rw [← List.map_append, ← hAB]
    intro hm
    obtain ⟨e, he, rfl⟩ := List.mem_map.1 hm
    exact hnp _ ((h.agree _ e).1 he) rfl
  have hcont : (fill s.st.groups x).content = A.map (·.2) ++ B.map (·.2) := by
    show (s.st.groups x.stop).map (·.2) = _
    rw [hAB, List.map_append]
  obtain ⟨P, Q, hk, g1⟩ := good_set hg (List.mem_map_of_mem (f := fill s.st.groups) hx)
    (ns := A.map (·.2) ++ n :: B.map (·.2)) (by
      rw [List.perm_middle.nodup_iff, List.nodup_cons]
      exact ⟨hng, hnd⟩) (by
      intro m hm
      rw [hcont]
      simp only [List.mem_append, List.mem_cons] at hm ⊢
      rcases hm with hm | rfl | hm
      · exact .inl (.inl hm)
      · exact .inr hf
      · exact .inl (.inr hm))
  rw [hcont] at hk
  -- the node before which it is inserted
  obtain ⟨r, T, hrT, href⟩ : ∃ r T, B.map (·.2) ++ x.stop :: Q = r :: T ∧
      ((s.st.groups x.stop).firstFrom path.reverse).or (some x.stop) = some r := by
    rw [hfirst]
    cases B with
    | nil => exact ⟨x.stop, Q, rfl, rfl⟩
    | cons e B => exact ⟨e.2, B.map (·.2) ++ x.stop :: Q, rfl, rfl⟩
  have hk' : s.st.dom.kids s.list.container = (P ++ x.start :: A.map (·.2)) ++ r :: T := by
    have : s.st.dom.kids s.list.container = P ++ x.start :: (A.map (·.2) ++ B.map (·.2) ++ x.stop :: Q) := hk
    rw [this, ← hrT]
    simp
  have hrn : r ∉ P ++ x.start :: A.map (·.2) := by
    have := hg.proper.1 s.list.container
    have h2 : (s.st.dom.kids s.list.container).Nodup := this
    rw [hk', List.nodup_append] at h2
    exact fun hm => h2.2.2 _ hm _ (by simp) rfl
  have hdom := Dom.insert_before_split s.st.dom s.list.container n r hf hk' hrn
  refine ⟨{ s.st with dom := ⟨fun z => if z = s.list.container then (P ++ x.start :: A.map Prod.snd) ++ n :: r :: T
    else s.st.dom.kids z⟩ }.setGroup x.stop (A ++ (path.reverse, n) :: B), ?_, ?_⟩
  · rw [item_add]
    simp only [addHere, hhere, href, hdom, hins, panicIfDuplicate, Option.bind_eq_bind, Option.bind_some, pure]
  have hrows : specContent (fill s.st.groups x).key (A.map (·.2) ++ n :: B.map (·.2)) (V.rows.map (fill s.st.groups)) =
      V.rows.map (fill fun g => if g = x.stop then A ++ (path.reverse, n) :: B else s.st.groups g) := by
    unfold specContent
    rw [List.map_map]
    apply List.map_congr_left
    intro z hz
    show (if z.key = x.key then _ else _) = _
    by_cases e : z.key = x.key
    · have := key_inj h.keys hz hx e
      subst this
      simp [fill]
    · have hne : z.stop ≠ x.stop := by
        intro e'
        exact e (congrArg Item.key (h.stop_inj hz hx e'))
      rw [if_neg e]
      simp only [fill, if_neg hne]
  refine ⟨⟨left, ?_, ?_⟩, ?_, ?_, ?_, ?_⟩
  · rw [hrows] at g1
    have e2 : (P ++ (fill s.st.groups x).start :: (A.map (·.2) ++ n :: B.map (·.2) ++ (fill s.st.groups x).stop :: Q)) =
        (P ++ x.start :: A.map (·.2)) ++ n :: r :: T := by
      rw [← hrT]; simp [fill]
    rw [e2] at g1
    exact g1
  · intro m
    rw [hl]
    constructor
    · rintro ⟨p, hp, e, hno⟩
      exact ⟨p, List.mem_cons_of_mem _ hp, e, hno⟩
    · rintro ⟨p, hp, e, hno⟩
      rcases List.mem_cons.1 hp with rfl | hp
      · exact absurd rfl (hno x hx)
      · exact ⟨p, hp, e, hno⟩
  · intro g
    show Group.Sorted (if g = x.stop then _ else _)
    split
    · have := h.sorted x.stop
      rw [hAB] at this
      exact Group.sorted_insert this hA hB
    · exact h.sorted g
  · intro g e
    show e ∈ (if g = x.stop then _ else _) ↔ _ ∈ (_ :: V.parts)
    split
    · rename_i hg'
      subst hg'
      have := h.agree x.stop e
      rw [hAB] at this
      rw [List.mem_cons, ← this]
      simp only [List.mem_append, List.mem_cons, Part.mk.injEq, true_and]
      have hee : e = (path.reverse, n) ↔ e.1.reverse = path ∧ e.2 = n := by
        constructor
        · rintro rfl; simp
        · rintro ⟨h1, h2⟩
          exact Prod.ext (by rw [← h1, List.reverse_reverse]) h2
      rw [hee]
      grind
    · rename_i hg'
      rw [h.agree, List.mem_cons]
      simp [hg']
  · show ((_ :: V.parts).map Part.node).Nodup
    rw [List.map_cons, List.nodup_cons]
    refine ⟨?_, h.nodes⟩
    intro hm
    obtain ⟨p, hp, e⟩ := List.mem_map.1 hm
    exact hnp p hp e
  · exact h.place

end Verif.Lists
