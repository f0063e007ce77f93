import Verif.Lists.ItemsInv2
import Verif.Dom.PositionProps
/-! # C56: the items of a DynamicList display what their futures render, in list order -/
namespace Verif.Lists
open Verif.Dom

theorem nodup_of_map {α β : Type} {f : α → β} {l : List α} (h : (l.map f).Nodup) : l.Nodup :=
  List.Pairwise.of_map f (fun _ _ hne e => hne (congrArg f e)) h

theorem inv_step {s : ItemSys} {V : View} (h : ItemInv s V) (b : Build) {op : ItemOp} (ha : ItemAllowed s V op) :
    ∃ s', itemStep b s op = some (s', V.answer op) ∧ ItemInv s' (V.step op) := by
  have hide : ∀ {y : NodeId} {path : List Nat}, s.ctx.isSome → (∀ i ∈ path, i + 1 < 2 ^ 32) →
      ∃ s', itemStep b s (.hide y path) = some (s', none) ∧ ItemInv s' (V.step (.hide y path)) := by
    intro y path hc hi
    obtain ⟨c, hc⟩ := Option.isSome_iff_exists.1 hc
    obtain ⟨st, e1, h1⟩ := inv_hide h hc b (y := y) hi
    exact ⟨_, by simp only [itemStep, hc, Option.bind_eq_bind, Option.bind_some, e1, pure], h1⟩
  cases op with
  | list op =>
    cases op with
    | insert k bf x y =>
      obtain ⟨r, e1, h1⟩ := inv_insert h ha.1 ha.2
      exact ⟨_, by simp only [itemStep, e1, Option.map_some]; rfl, h1⟩
    | remove k =>
      obtain ⟨r, e1, h1⟩ := inv_call h (op := .remove k) rfl rfl ha
      exact ⟨_, by simp only [itemStep, e1, Option.map_some]; rfl, h1⟩
    | moveBefore k bf =>
      obtain ⟨r, e1, h1⟩ := inv_call h (op := .moveBefore k bf) rfl rfl ha
      exact ⟨_, by simp only [itemStep, e1, Option.map_some]; rfl, h1⟩
    | swap k k' =>
      obtain ⟨r, e1, h1⟩ := inv_call h (op := .swap k k') rfl rfl ha
      exact ⟨_, by simp only [itemStep, e1, Option.map_some]; rfl, h1⟩
    | retain p =>
      obtain ⟨r, e1, h1⟩ := inv_call h (op := .retain p) rfl rfl ha
      exact ⟨_, by simp only [itemStep, e1, Option.map_some]; rfl, h1⟩
    | unrender =>
      obtain ⟨r, e1, h1⟩ := inv_unrender h ha
      exact ⟨_, by simp only [itemStep, e1, Option.map_some]; rfl, h1⟩
    | place c n q =>
      obtain ⟨r, e1, h1⟩ := inv_place h ha.1 ha.2
      exact ⟨_, by simp only [itemStep, e1, Option.map_some]; rfl, h1⟩
    | vanish c n =>
      obtain ⟨r, e1, h1⟩ := inv_vanish h ha.1 ha.2
      exact ⟨_, by simp only [itemStep, e1, Option.map_some]; rfl, h1⟩
    | render p a => exact ha.elim
    | content k ns => exact ha.elim
  | render c a =>
    obtain ⟨r, e1, h1⟩ := inv_render h ha
    exact ⟨_, by simp only [itemStep, e1, Option.map_some]; rfl, h1⟩
  | add y path n =>
    obtain ⟨hc, hx, hf, hfree⟩ := ha
    obtain ⟨c, hc⟩ := Option.isSome_iff_exists.1 hc
    obtain ⟨st, e1, h1⟩ := inv_add h hc b hx hf hfree
    exact ⟨_, by simp only [itemStep, hc, Option.bind_eq_bind, Option.bind_some, e1, pure]; rfl, h1⟩
  | hide y path => exact hide ha.1 ha.2
  | finish y =>
    obtain ⟨s', e1, h1⟩ := hide (y := y) (path := []) ha (by simp)
    refine ⟨s', e1, ?_⟩
    have : V.step (.finish y) = V.step (.hide y []) := by
      simp only [View.step, List.isPrefixOf, Bool.and_true]
      rfl
    rw [this]
    exact h1

theorem inv_run (b : Build) (ops : List ItemOp) : ∀ {s : ItemSys} {V : View}, ItemInv s V → ItemAllowedRun b s V ops →
    ∃ s', itemRun b s ops = some (s', (V.run ops).2) ∧ ItemInv s' (V.run ops).1 := by
  induction ops with
  | nil => intro s V h _; exact ⟨s, rfl, h⟩
  | cons op ops ih =>
    intro s V h ha
    obtain ⟨s1, e1, h1⟩ := inv_step h b ha.1
    obtain ⟨s2, e2, h2⟩ := ih h1 (ha.2 s1 _ e1)
    exact ⟨s2, by simp only [itemRun, e1, e2, Option.bind_eq_bind, Option.bind_some, pure]; rfl, h2⟩

theorem ItemInv.shown {s : ItemSys} {V : View} (h : ItemInv s V) : V.ShownIn s.st.dom s.list := by
  obtain ⟨left, hg, hl⟩ := h.good
  refine ⟨fun x => (s.st.groups x.stop).map Prod.snd, left, ?_, hg.shows, hl⟩
  intro x _
  refine ⟨(s.st.groups x.stop).map fun e => ⟨x.stop, e.1.reverse, e.2⟩, ?_, ?_, ?_⟩
  · have hn1 : ((s.st.groups x.stop).map fun e => (⟨x.stop, e.1.reverse, e.2⟩ : Part)).Nodup := by
      have := group_nodes h x.stop
      rw [show (fun e : Pos × NodeId => e.2) = Part.node ∘ fun e => (⟨x.stop, e.1.reverse, e.2⟩ : Part) from rfl,
        ← List.map_map] at this
      exact nodup_of_map this
    have hn2 : (V.parts.filter fun p => p.stop == x.stop).Nodup :=
      List.filter_sublist.nodup (nodup_of_map h.nodes)
    rw [List.perm_ext_iff_of_nodup hn1 hn2]
    intro p
    rw [List.mem_map, List.mem_filter]
    constructor
    · rintro ⟨e, he, rfl⟩
      exact ⟨(h.agree _ e).1 he, by simp⟩
    · rintro ⟨hp, e⟩
      simp only [beq_iff_eq] at e
      refine ⟨(p.path.reverse, p.node), (h.agree _ _).2 (by rw [← e]; simpa using hp), ?_⟩
      rw [← e]
      simp
  · rw [List.pairwise_map]
    refine (h.sorted x.stop).imp ?_
    intro e e' hlt
    exact (cmp_lt_iff_sourceBefore _ _).1 hlt
  · rw [List.map_map]; rfl

theorem inv_start {d0 : Dom} {L0 : DynList} (hg : Good ⟨d0, L0⟩ [] []) :
    ItemInv ⟨⟨fun _ => [], d0⟩, L0, none⟩ ⟨[], []⟩ := by
  refine ⟨⟨[], hg, ?_⟩, fun _ => List.Pairwise.nil, ?_, List.nodup_nil, ?_⟩
  · intro n
    refine ⟨fun h => (by cases h), ?_⟩
    rintro ⟨p, hp, -⟩
    cases hp
  · intro g e
    refine ⟨fun h => (by cases h), fun h => (by cases h)⟩
  · intro c hc; cases hc

/-- **C56.** Start with a new list in any document. Run any history of calls of the list, of rendering the
list and dropping the rendering, of the futures of its items displaying nodes, taking them away and
ending, and of changes of the rest of the page. Then nothing has panicked, `insert` and `remove` have
answered whether the key was there, and the document shows the items in the order of the list, each
between its markers with exactly what its components display, in source order. Nothing else is between
the markers of the list but the nodes that removed items still display because their futures have not
been dropped yet.

Missing: the calls that C33 leaves out, and **an item that displays something after it was removed**, see
`removed_item_panics`. -/
theorem listItems_shown_partial {d : Dom} {frag ls le : NodeId} (hd : Proper d) (hf : d.kids frag = [])
    (hne : ls ≠ le) (b : Build) (ops : List ItemOp) :
    ∃ d0 L0, new d frag ls le = some (d0, L0) ∧
      (ItemAllowedRun b ⟨⟨fun _ => [], d0⟩, L0, none⟩ ⟨[], []⟩ ops →
        ∃ s', itemRun b ⟨⟨fun _ => [], d0⟩, L0, none⟩ ops = some (s', (View.run ⟨[], []⟩ ops).2) ∧
          (View.run ⟨[], []⟩ ops).1.ShownIn s'.st.dom s'.list ∧ Proper s'.st.dom) := by
  obtain ⟨d0, L0, h, hg⟩ := good_new hd hf hne
  refine ⟨d0, L0, h, fun ha => ?_⟩
  obtain ⟨s', h1, g1⟩ := inv_run b ops (inv_start hg) ha
  refine ⟨s', h1, g1.shown, ?_⟩
  obtain ⟨left, hg', -⟩ := g1.good
  exact hg'.proper

/-- When every displayed node belongs to an item of the list, the children between the markers of the list
are exactly the items. -/
theorem shownIn_exact {V : View} {d : Dom} {L : DynList} (h : V.ShownIn d L)
    (hp : ∀ p ∈ V.parts, ∃ x ∈ V.rows, x.stop = p.stop) :
    ∃ (content : Item → List NodeId) (pre post : List NodeId), (∀ x ∈ V.rows, V.Displays x.stop (content x)) ∧
      d.kids L.container = pre ++ [L.listStart] ++
        V.rows.flatMap (fun x => x.start :: (content x ++ [x.stop])) ++ [L.listEnd] ++ post := by
  obtain ⟨content, left, h1, h2, h3⟩ := h
  obtain ⟨pre, post, h4⟩ := shows_exact h2 (by
    intro n hn
    obtain ⟨p, hp', -, hno⟩ := (h3 n).1 hn
    obtain ⟨x, hx, e⟩ := hp p hp'
    exact absurd e (hno x hx))
  refine ⟨content, pre, post, h1, ?_⟩
  rw [h4, List.flatMap_map]
  rfl

/-- **What is missing is wrong.** After any allowed history that leaves the list rendered, remove an item. If
a component of this item then displays a node, with none of the item's nodes after it in source order,
the program panics. (The executor does not poll a removed item again, but the item may have been removed
by itself, in the middle of a poll.) -/
theorem removed_item_panics {d : Dom} {frag ls le : NodeId} (hd : Proper d) (hf : d.kids frag = [])
    (hne : ls ≠ le) (b : Build) (ops : List ItemOp) :
    ∃ d0 L0, new d frag ls le = some (d0, L0) ∧
      (ItemAllowedRun b ⟨⟨fun _ => [], d0⟩, L0, none⟩ ⟨[], []⟩ ops →
        ∃ s1, itemRun b ⟨⟨fun _ => [], d0⟩, L0, none⟩ ops = some (s1, (View.run ⟨[], []⟩ ops).2) ∧
          (s1.ctx.isSome → ∀ x ∈ (View.run ⟨[], []⟩ ops).1.rows, ∀ path n,
            (∀ p ∈ (View.run ⟨[], []⟩ ops).1.parts, p.stop = x.stop → SourceBefore p.path path) →
            ∃ s2, itemStep b s1 (.list (.remove x.key)) = some (s2, some true) ∧
              itemStep b s2 (.add x.stop path n) = none)) := by
  obtain ⟨d0, L0, h, hg⟩ := good_new hd hf hne
  refine ⟨d0, L0, h, fun ha => ?_⟩
  obtain ⟨s1, h1, i1⟩ := inv_run b ops (inv_start hg) ha
  refine ⟨s1, h1, fun hctx x hx path n hlast => ?_⟩
  obtain ⟨c, hc⟩ := Option.isSome_iff_exists.1 hctx
  obtain ⟨r, e2, i2⟩ := inv_call i1 (op := .remove x.key) rfl rfl trivial
  obtain ⟨left, g1, -⟩ := i1.good
  have hans : specAnswer (View.run ⟨[], []⟩ ops).1.rows (.remove x.key) = some true := by
    simp only [specAnswer, Option.some.injEq]
    cases hfx : find x.key (View.run ⟨[], []⟩ ops).1.rows with
    | none => exact absurd ⟨x, hx, rfl⟩ (find_none.1 hfx)
    | some y => rfl
  rw [hans] at e2
  refine ⟨s1.withSys r, by simp only [itemStep, e2, Option.map_some], ?_⟩
  have hgone : Fresh r.dom x.stop := (removed_markers_gone g1 (List.mem_map_of_mem (f := fill s1.st.groups) hx) e2).2
  have hfirst : (s1.st.groups x.stop).firstFrom path.reverse = none := by
    unfold Group.firstFrom
    rw [Option.map_eq_none_iff, List.find?_eq_none]
    intro e he
    have := (cmp_lt_iff_sourceBefore e.1 path.reverse).2 (by
      rw [List.reverse_reverse]; exact hlast _ ((i1.agree x.stop e).1 he) rfl)
    simp [this]
  simp only [itemStep, ItemSys.withSys, hc, Option.bind_eq_bind, Option.bind_some, item_add, addHere, hfirst,
    Option.none_or, Dom.insertBefore]
  rw [if_neg (hgone _)]
  rfl

end Verif.Lists
