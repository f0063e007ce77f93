import Verif.Whole.ListSteps
import Verif.Whole.Comps
/-! # The invariant, and the events of components -/
namespace Verif.Whole
open Verif.Dom Verif.Drop Verif.Lists Verif.Lists.Forest Verif.Tree

def Whole.dyn (W : Whole) (i : Nat) : Option DynList := (W.lists i).map (·.list)

/-- The components: the app and the items, with their groups. -/
def Whole.comps (W : Whole) : List (GroupId × Fut) := (W.app.group, W.app.fut) :: W.tasks.map fun t => (t.stop, t.fut)

theorem dyn_some {W : Whole} {i : Nat} {L : DynList} : W.dyn i = some L ↔ ∃ L', W.lists i = some L' ∧ L'.list = L := by
  simp [Whole.dyn]

structure WInv (r : Nat) (l : Lay) (D : Display) (F : Page) (W : Whole) (O : Orders) : Prop where
  group : W.app.group = r
  node : W.app.node < r
  flag : W.app.t.d.flag = none
  inv : Inv l.P D W.st
  paged : Paged l W.dyn W.app.foreign O D W.dom F
  glob : Global l.P r W.next D
  comps : Comps r W.next D W.comps
  root : l.at_ r = W.app.node ∧ l.lab r = .top
  plain : ∀ g, g ∉ W.comps.map (·.1) → l.at_ g = g ∧ l.lab g = .top
  tasks : ∀ t ∈ W.tasks, t.addr ∉ t.fut.addrs ∧ ∃ L, W.lists t.list = some L ∧ l.at_ t.stop = L.list.container ∧
    l.lab t.stop = (if t.live = true then .item t.stop else .list t.list)
  live : ∀ t ∈ W.tasks, t.live = true → ∃ k s, (k, ⟨s, t.stop⟩) ∈ O t.list
  dead : ∀ t ∈ W.tasks, t.live = false → ∀ j k s, W.lists j ≠ none → (k, ⟨s, t.stop⟩) ∉ O j
  frag : ∀ i L, W.lists i = some L → r ≤ L.list.frag ∧ L.list.frag < W.next ∧ ∀ p ∈ W.comps, L.list.frag ∉ ids p.2
  here : ∀ i L, W.lists i = some L → (L.ctx = none → L.list.container = L.list.frag) ∧
    ∀ ctx, L.ctx = some ctx → L.list.container = ctx.home ∧ ctx.home < W.next ∧
      ∀ j Lj, W.lists j = some Lj → Lj.list.frag ≠ ctx.home
  low : ∀ c x, (c, x) ∈ D.foreign → c < W.next

section
variable {r : Nat} {l : Lay} {D : Display} {F : Page} {W : Whole} {O : Orders}

theorem mem_comps {p : GroupId × Fut} : p ∈ W.comps ↔ p = (W.app.group, W.app.fut) ∨ ∃ t ∈ W.tasks, (t.stop, t.fut) = p := by
  simp [Whole.comps]

/-- Where elements display their content. -/
theorem WInv.ids_place (h : WInv r l D F W O) {p : GroupId × Fut} (hp : p ∈ W.comps) {i : NodeId}
    (hi : i ∈ ids p.2) : l.at_ i = i ∧ l.lab i = .top := by
  apply h.plain
  intro hk
  obtain ⟨q, hq, rfl⟩ := List.mem_map.1 hk
  exact h.comps.not q hq p hp hi

theorem WInv.new_place (h : WInv r l D F W O) {g : Nat} (hg : W.next ≤ g) : l.at_ g = g ∧ l.lab g = .top := by
  apply h.plain
  intro hk
  obtain ⟨q, hq, rfl⟩ := List.mem_map.1 hk
  exact Nat.not_le_of_lt (h.comps.each q hq).gLt.2 hg

/-- Components may display elements in their places. -/
def Ok (l : Lay) (W : Whole) (g : GroupId) : Prop :=
  (∀ i, l.lab g ≠ .list i) ∧ ∀ j L, W.dyn j = some L → L.frag ≠ l.at_ g

theorem WInv.ok_ids (h : WInv r l D F W O) {p : GroupId × Fut} (hp : p ∈ W.comps) {i : NodeId}
    (hi : i ∈ ids p.2) : Ok l W i := by
  obtain ⟨h1, h2⟩ := h.ids_place hp hi
  refine ⟨fun j => by rw [h2]; simp, ?_⟩
  intro j L hL e
  obtain ⟨L', hL', rfl⟩ := dyn_some.1 hL
  rw [h1] at e
  exact (h.frag j L' hL').2.2 p hp (e ▸ hi)

theorem WInv.ok_new (h : WInv r l D F W O) {g : Nat} (hg : W.next ≤ g) : Ok l W g := by
  obtain ⟨h1, h2⟩ := h.new_place hg
  refine ⟨fun j => by rw [h2]; simp, ?_⟩
  intro j L hL e
  obtain ⟨L', hL', rfl⟩ := dyn_some.1 hL
  rw [h1] at e
  have := (h.frag j L' hL').2.1
  om

theorem WInv.ok_root (h : WInv r l D F W O) : Ok l W r := by
  obtain ⟨h1, h2⟩ := h.root
  refine ⟨fun j => by rw [h2]; simp, ?_⟩
  intro j L hL e
  obtain ⟨L', hL', rfl⟩ := dyn_some.1 hL
  rw [h1] at e
  have := (h.frag j L' hL').1
  have := h.node
  om

/-- The context of a live item. -/
theorem WInv.item_local (h : WInv r l D F W O) {t : Task} (ht : t ∈ W.tasks) (hl : t.live = true) {L : ListSt} {ctx : Ctx}
    (hL : W.lists t.list = some L) (hc : L.ctx = some ctx) :
    Local l.P r W.next D (itemCtx ctx t.stop) t.fut ∧ Ok l W t.stop := by
  obtain ⟨-, L', hL', h1, h2⟩ := h.tasks t ht
  rw [hL] at hL'
  cases hL'
  rw [if_pos hl] at h2
  obtain ⟨h3, h4, h5⟩ := (h.here _ _ hL).2 ctx hc
  have hmem : (t.stop, t.fut) ∈ W.comps := mem_comps.2 (.inr ⟨t, ht, rfl⟩)
  refine ⟨(h.comps.each _ hmem).local rfl rfl ?_ ?_ ?_, ?_, ?_⟩
  · show (l.at_ _, Cell.marker (l.lab _)) = _
    rw [h1, h2, h3]; rfl
  · intro i hi
    obtain ⟨h6, h7⟩ := h.ids_place hmem hi
    show (l.at_ _, Cell.marker (l.lab _)) = _
    rw [h6, h7]; rfl
  · intro r hr
    obtain rfl : t.stop = r := by
      have : (itemCtx ctx t.stop).marker = some t.stop := rfl
      rw [this] at hr; exact Option.some.inj hr
    have := (h.paged.ref h2).2
    rw [h1, h3] at this
    exact (h.paged.marks _ _).2 (.inr this)
  · intro j; rw [h2]; simp
  · intro j L hL e
    obtain ⟨L', hL', rfl⟩ := dyn_some.1 hL
    rw [h1, h3] at e
    exact h5 j L' hL' e

/-- The place of an item that has been taken out of its list. -/
theorem WInv.dead_local (h : WInv r l D F W O) {t : Task} (ht : t ∈ W.tasks) (hl : t.live = false) {L : ListSt} {ctx : Ctx}
    (hL : W.lists t.list = some L) (hc : L.ctx = some ctx) :
    Local l.P r W.next D (.container t.stop ctx.home) t.fut := by
  obtain ⟨-, L', hL', h1, h2⟩ := h.tasks t ht
  rw [hL] at hL'
  cases hL'
  rw [if_neg (by rw [hl]; simp)] at h2
  obtain ⟨h3, h4, h5⟩ := (h.here _ _ hL).2 ctx hc
  have hmem : (t.stop, t.fut) ∈ W.comps := mem_comps.2 (.inr ⟨t, ht, rfl⟩)
  refine (h.comps.each _ hmem).local rfl rfl ?_ ?_ ?_
  · show (l.at_ _, Cell.marker (l.lab _)) = _
    rw [h1, h2, h3]; rfl
  · intro i hi
    obtain ⟨h6, h7⟩ := h.ids_place hmem hi
    show (l.at_ _, Cell.marker (l.lab _)) = _
    rw [h6, h7]; rfl
  · intro r hr; cases hr

/-- A component has changed. -/
theorem WInv.replace {W' : Whole} {g : GroupId} {f f' : Fut} {ctx : Ctx} {n' : Nat} {D' : Display} {F' : Page}
    (h : WInv r l D F W O) (hgf : (g, f) ∈ W.comps) (hgood : Good none f')
    (hc : Change l.P r W.next D ctx f n' D' f') (hg : ctx.group = g) (hp : ctx.path = [])
    (hi' : Inv l.P D' W'.st) (hP' : Paged l W.dyn W.app.foreign O D' W'.dom F')
    (h1 : W'.app.group = W.app.group ∧ W'.app.node = W.app.node ∧ W'.app.foreign = W.app.foreign ∧
      W'.app.t.d.flag = none ∧ W'.next = n' ∧ W'.lists = W.lists)
    (h2 : W'.comps.map (·.1) = W.comps.map (·.1)) (h3 : ∀ p ∈ W'.comps, p = (g, f') ∨ (p ∈ W.comps ∧ p.1 ≠ g))
    (h4 : ∀ t' ∈ W'.tasks, t' ∈ W.tasks ∨ ∃ t ∈ W.tasks, t' = { t with fut := f' } ∧ t.addr ∉ f'.addrs) :
    WInv r l D' F' W' O := by
  obtain ⟨e1, e2, e3, e4, e5, e6⟩ := h1
  have hdyn : W'.dyn = W.dyn := by funext i; simp only [Whole.dyn, e6]
  have hle : W.next ≤ W'.next := by rw [e5]; exact hc.le
  have ht : ∀ t' ∈ W'.tasks, ∃ t ∈ W.tasks, t'.list = t.list ∧ t'.stop = t.stop ∧ t'.live = t.live ∧
      (t' = t ∨ (t' = { t with fut := f' } ∧ t.addr ∉ f'.addrs)) := by
    intro t' ht'
    rcases h4 t' ht' with h5 | ⟨t, h5, rfl, h6⟩
    · exact ⟨t', h5, rfl, rfl, rfl, .inl rfl⟩
    · exact ⟨t, h5, rfl, rfl, rfl, .inr ⟨rfl, h6⟩⟩
  refine ⟨e1.trans h.group, by rw [e2]; exact h.node, e4, hi', by rw [hdyn, e3]; exact hP', by rw [e5]; exact hc.glob,
    ?_, by rw [e2]; exact h.root, by rw [h2]; exact h.plain, ?_, ?_, ?_, ?_, ?_, ?_⟩
  · rw [e5]
    exact h.comps.change hgf hgood hc hg hp (by rw [h2]; exact h.comps.keys) h3
  · intro t' ht'
    obtain ⟨t, h5, h6, h7, h8, h9⟩ := ht t' ht'
    obtain ⟨h10, h11⟩ := h.tasks t h5
    rw [h6, h7, h8, e6]
    refine ⟨?_, h11⟩
    rcases h9 with rfl | ⟨rfl, h9⟩
    · exact h10
    · exact h9
  · intro t' ht'
    obtain ⟨t, h5, h6, h7, h8, -⟩ := ht t' ht'
    rw [h6, h7, h8]; exact h.live t h5
  · intro t' ht'
    obtain ⟨t, h5, h6, h7, h8, -⟩ := ht t' ht'
    rw [h7, h8, e6]; exact h.dead t h5
  · intro i L hL
    rw [e6] at hL
    obtain ⟨h5, h6, h7⟩ := h.frag i L hL
    refine ⟨h5, Nat.lt_of_lt_of_le h6 hle, ?_⟩
    intro p hp'
    rcases h3 p hp' with rfl | ⟨h8, -⟩
    · intro h9
      rcases hc.ids _ h9 with h10 | ⟨h10, -⟩
      · exact h7 _ hgf h10
      · om
    · exact h7 p h8
  · intro i L hL
    rw [e6] at hL ⊢
    obtain ⟨h5, h6⟩ := h.here i L hL
    refine ⟨h5, fun ctx hctx => ?_⟩
    obtain ⟨h7, h8, h9⟩ := h6 ctx hctx
    exact ⟨h7, Nat.lt_of_lt_of_le h8 hle, h9⟩
  · intro c x hx
    rw [hc.foreign] at hx
    exact Nat.lt_of_lt_of_le (h.low c x hx) hle

open Classical in
/-- A group that is not used any more. -/
noncomputable def Lay.free (l : Lay) (y : GroupId) : Lay :=
  ⟨fun g => if g = y then y else l.at_ g, fun g => if g = y then .top else l.lab g⟩

/-- The future of an item has been dropped. -/
theorem WInv.dropped {t : Task} {ctx : Ctx} {n' : Nat} {D' : Display} {F' : Page} {st' : State}
    (h : WInv r l D F W O) (ht : t ∈ W.tasks)
    (hc : Change l.P r W.next D ctx t.fut n' D' (.block .done)) (hg : ctx.group = t.stop) (hp : ctx.path = [])
    (hi' : Inv l.P D' st') (hP' : Paged l W.dyn W.app.foreign O D' st'.dom F') :
    WInv r (l.free t.stop) D' F' ((W.withState ⟨⟨st', none⟩, n'⟩).dropTask t.stop) O := by
  have hmem : (t.stop, t.fut) ∈ W.comps := mem_comps.2 (.inr ⟨t, ht, rfl⟩)
  have hempty : ∀ x ∈ D'.shown, x.group ≠ t.stop := by
    intro x hx e
    have := (hc.loc.runs x).2 ⟨hx, (below_iff hg hp x).2 e⟩
    simp [Fut.shownHere] at this
  have hlab : ∀ g, g ≠ t.stop → (l.free t.stop).at_ g = l.at_ g ∧ (l.free t.stop).lab g = l.lab g := by
    intro g hg; exact ⟨if_neg hg, if_neg hg⟩
  have hkeys := h.comps.keys
  have hne : ∀ t' ∈ W.tasks, t'.stop ≠ r := by
    intro t' ht' e
    simp only [Whole.comps, List.map_cons, List.map_map, List.nodup_cons] at hkeys
    refine hkeys.1 (List.mem_map.2 ⟨t', ht', ?_⟩)
    simp [h.group, e]
  obtain ⟨hI, hPg⟩ := hP'.relay_inv hi' (l' := l.free t.stop) (fun x hx => hlab _ (hempty x hx)) (by
    intro g y hgy
    by_cases hg : g = t.stop
    · subst hg; simp [Lay.free] at hgy
    · obtain ⟨h1, h2⟩ := hlab g hg
      rw [h1]; rw [h2] at hgy
      exact hP'.ends g y hgy)
  have hcs : ((W.withState ⟨⟨st', none⟩, n'⟩).dropTask t.stop).comps =
      (W.app.group, W.app.fut) :: (W.tasks.filter fun t' => t'.stop ≠ t.stop).map fun t => (t.stop, t.fut) := rfl
  have hin : ∀ p ∈ ((W.withState ⟨⟨st', none⟩, n'⟩).dropTask t.stop).comps, p ∈ W.comps ∧ p.1 ≠ t.stop := by
    intro p hp'
    rw [hcs] at hp'
    simp only [List.mem_cons, List.mem_map, List.mem_filter, decide_eq_true_eq] at hp'
    rcases hp' with rfl | ⟨t', ⟨h1, h2⟩, rfl⟩
    · refine ⟨mem_comps.2 (.inl rfl), ?_⟩
      rw [h.group]; exact fun e => hne t ht e.symm
    · exact ⟨mem_comps.2 (.inr ⟨t', h1, rfl⟩), h2⟩
  have htask : ∀ t' ∈ ((W.withState ⟨⟨st', none⟩, n'⟩).dropTask t.stop).tasks, t' ∈ W.tasks ∧ t'.stop ≠ t.stop := by
    intro t' ht'
    simpa [Whole.dropTask, Whole.withState] using ht'
  refine ⟨h.group, h.node, rfl, hI, hPg, ⟨hc.glob.node, hc.glob.group, hc.glob.foreign, ?_, hc.glob.low⟩, ?_, ?_, ?_, ?_, ?_,
    ?_, ?_, ?_, ?_⟩
  · intro g hgn
    have hgn' : n' ≤ g := hgn
    have h1 := h.new_place (Nat.le_trans hc.le hgn')
    have h2 : g ≠ t.stop := by
      have h3 := (h.comps.each _ hmem).gLt.2
      have h4 := hc.le
      intro e
      subst e
      exact Nat.lt_irrefl _ (Nat.lt_of_lt_of_le h3 (Nat.le_trans h4 hgn'))
    obtain ⟨h3, h4⟩ := hlab g h2
    show ((l.free t.stop).at_ g, Cell.marker ((l.free t.stop).lab g)) = _
    rw [h3, h4, h1.1, h1.2]; rfl
  · refine h.comps.change hmem .idle hc hg hp ?_ (fun p hp => .inr (hin p hp))
    rw [hcs]
    refine List.Sublist.nodup ?_ hkeys
    simp only [Whole.comps, List.map_cons, List.map_map]
    exact (List.Sublist.map _ List.filter_sublist).cons_cons _
  · obtain ⟨h1, h2⟩ := hlab r (fun e => hne t ht e.symm)
    rw [h1, h2]; exact h.root
  · intro g hgn
    by_cases hgt : g = t.stop
    · subst hgt; simp [Lay.free]
    · obtain ⟨h1, h2⟩ := hlab g hgt
      rw [h1, h2]
      refine h.plain g fun hk => hgn ?_
      rw [hcs]
      simp only [Whole.comps, List.map_cons, List.map_map, List.mem_cons, List.mem_map, List.mem_filter] at hk ⊢
      rcases hk with hk | ⟨t', ht', rfl⟩
      · exact .inl hk
      · exact .inr ⟨t', ⟨ht', by simpa using hgt⟩, rfl⟩
  · intro t' ht'
    obtain ⟨h1, h2⟩ := htask t' ht'
    obtain ⟨h3, h4⟩ := hlab _ h2
    rw [h3, h4]; exact h.tasks t' h1
  · intro t' ht'; exact h.live t' (htask t' ht').1
  · intro t' ht'; exact h.dead t' (htask t' ht').1
  · intro i L hL
    obtain ⟨h1, h2, h3⟩ := h.frag i L hL
    exact ⟨h1, Nat.lt_of_lt_of_le h2 hc.le, fun p hp => h3 p (hin p hp).1⟩
  · intro i L hL
    obtain ⟨h5, h6⟩ := h.here i L hL
    refine ⟨h5, fun ctx hctx => ?_⟩
    obtain ⟨h7, h8, h9⟩ := h6 ctx hctx
    exact ⟨h7, Nat.lt_of_lt_of_le h8 hc.le, h9⟩
  · intro c x hx
    rw [hc.foreign] at hx
    exact Nat.lt_of_lt_of_le (h.low c x hx) hc.le

/-! ## events of components -/

theorem WInv.state (h : WInv r l D F W O) : W.app.t = ⟨⟨W.st, none⟩, W.next⟩ := by
  have := h.flag
  show W.app.t = ⟨⟨W.app.t.d.st, none⟩, W.app.t.next⟩
  rw [← this]

theorem WInv.poll_app (b : Build) (h : WInv r l D F W O) {s : Script} (hs : s.Narrow) :
    ∃ W' D' F', W.step b (.app (.poll s)) = some W' ∧ WInv r l D' F' W' O := by
  have hmem : (r, W.app.fut) ∈ W.comps := mem_comps.2 (.inl (by rw [h.group]))
  have hc := h.comps.each _ hmem
  have hL : Local l.P r W.next D (.container r W.app.node) W.app.fut := by
    refine hc.local rfl rfl ?_ ?_ ?_
    · show (l.at_ _, Cell.marker (l.lab _)) = _
      rw [h.root.1, h.root.2]; rfl
    · intro i hi
      obtain ⟨h6, h7⟩ := h.ids_place hmem hi
      show (l.at_ _, Cell.marker (l.lab _)) = _
      rw [h6, h7]; rfl
    · intro r hr; cases hr
  obtain ⟨f', st', n', D', ready, hp, ⟨hi', F', hP'⟩, hf', hch⟩ := poll_keeps b
    (keeps_page b l W.dyn W.app.foreign O) s hs (.container r W.app.node) W.app.fut W.next D W.st
    ⟨fun g hg => h.ok_new hg, h.ok_root, fun i hi => h.ok_ids hmem hi⟩ hc.good ⟨h.inv, F, h.paged⟩ h.glob hL
  refine ⟨{ W with app := { W.app with fut := f', t := ⟨⟨st', none⟩, n'⟩ } }, D', F', ?_, ?_⟩
  · simp only [Whole.step, App.step, h.group, h.state]
    rw [hp]; rfl
  · have hkeys := h.comps.keys
    refine h.replace hmem hf' hch rfl rfl hi' hP' ⟨rfl, rfl, rfl, rfl, rfl, rfl⟩ rfl ?_ (fun t' ht' => .inl ht')
    intro p hp'
    rcases mem_comps.1 hp' with rfl | ⟨t, ht, rfl⟩
    · left; show (W.app.group, f') = _; rw [h.group]
    · refine .inr ⟨mem_comps.2 (.inr ⟨t, ht, rfl⟩), ?_⟩
      intro e
      simp only [Whole.comps, List.map_cons, List.map_map, List.nodup_cons] at hkeys
      refine hkeys.1 (List.mem_map.2 ⟨t, ht, ?_⟩)
      simp only [Function.comp_apply, h.group]; exact e

theorem task_mem {y : NodeId} {t : Task} (h : W.task y = some t) : t ∈ W.tasks ∧ t.stop = y := by
  obtain ⟨h1, h2⟩ := List.find?_eq_some_iff_append.1 h
  refine ⟨List.mem_of_find?_eq_some h, by simpa using h1⟩

theorem WInv.tasks_unique (h : WInv r l D F W O) {t t' : Task} (ht : t ∈ W.tasks) (ht' : t' ∈ W.tasks)
    (e : t.stop = t'.stop) : t = t' := by
  have hkeys := h.comps.keys
  simp only [Whole.comps, List.map_cons, List.map_map, List.nodup_cons] at hkeys
  have h2 : (W.tasks.map (·.stop)).Nodup := hkeys.2
  revert h2
  generalize W.tasks = ts at ht ht'
  intro h2
  induction ts with
  | nil => cases ht
  | cons x ts ih =>
    rw [List.map_cons, List.nodup_cons] at h2
    rcases List.mem_cons.1 ht with h3 | h3 <;> rcases List.mem_cons.1 ht' with h4 | h4
    · rw [h3, h4]
    · exact absurd (List.mem_map.2 ⟨t', h4, by rw [← e, h3]⟩) h2.1
    · exact absurd (List.mem_map.2 ⟨t, h3, by rw [e, h4]⟩) h2.1
    · exact ih h3 h4 h2.2

theorem WInv.poll_item (b : Build) (h : WInv r l D F W O) {y : NodeId} {s : Script} (hs : s.Narrow)
    (ha : ∀ t, W.task y = some t → t.addr ∉ scriptAddrs s) :
    ∃ W' l' D' F', W.step b (.pollItem y s) = some W' ∧ WInv r l' D' F' W' O := by
  simp only [Whole.step]
  cases hy : W.task y with
  | none => exact ⟨W, l, D, F, rfl, h⟩
  | some t =>
    obtain ⟨ht, rfl⟩ := task_mem hy
    obtain ⟨haddr, L, hL, hat, hlab⟩ := h.tasks t ht
    simp only [Option.bind_some, hL]
    cases hc : L.ctx with
    | none => exact ⟨W, l, D, F, rfl, h⟩
    | some ctx =>
      simp only
      cases hlive : t.live with
      | false => exact ⟨W, l, D, F, rfl, h⟩
      | true =>
        simp only [if_true]
        have hmem : (t.stop, t.fut) ∈ W.comps := mem_comps.2 (.inr ⟨t, ht, rfl⟩)
        have hcomp := h.comps.each _ hmem
        obtain ⟨hloc, hok⟩ := h.item_local ht hlive hL hc
        obtain ⟨f', st', n', D', ready, hp, ⟨hi', F', hP'⟩, hf', hch⟩ := poll_keeps b
          (keeps_page b l W.dyn W.app.foreign O) s hs (itemCtx ctx t.stop) t.fut W.next D W.st
          ⟨fun g hg => h.ok_new hg, hok, fun i hi => h.ok_ids hmem hi⟩ hcomp.good ⟨h.inv, F, h.paged⟩ h.glob hloc
        have haddr' : t.addr ∉ f'.addrs := by
          intro hf
          rcases poll_addrs b s _ _ _ _ _ _ hp _ hf with h1 | h1
          · exact haddr h1
          · exact ha t hy h1
        rw [h.state]
        simp only [hp, Option.bind_eq_bind, Option.bind_some]
        cases ready with
        | false =>
          simp only [Bool.false_eq_true, if_false]
          refine ⟨_, l, D', F', rfl, ?_⟩
          refine h.replace hmem hf' hch rfl rfl hi' hP' ⟨rfl, rfl, rfl, rfl, rfl, rfl⟩ ?_ ?_ ?_
          · simp only [Whole.comps, Whole.setTask, Whole.withState, List.map_cons, List.map_map]
            congr 1
            apply List.map_congr_left
            intro t' _
            simp only [Function.comp_apply]
            split <;> rfl
          · intro p hp'
            rcases mem_comps.1 hp' with rfl | ⟨t', ht', rfl⟩
            · refine .inr ⟨mem_comps.2 (.inl rfl), ?_⟩
              have hkeys := h.comps.keys
              simp only [Whole.comps, List.map_cons, List.map_map, List.nodup_cons] at hkeys
              intro e
              exact hkeys.1 (List.mem_map.2 ⟨t, ht, e.symm⟩)
            · simp only [Whole.setTask, Whole.withState, List.mem_map] at ht'
              obtain ⟨t0, ht0, rfl⟩ := ht'
              by_cases e : t0.stop = t.stop
              · left; simp [e]
              · right; rw [if_neg e]; exact ⟨mem_comps.2 (.inr ⟨t0, ht0, rfl⟩), e⟩
          · intro t' ht'
            simp only [Whole.setTask, Whole.withState, List.mem_map] at ht'
            obtain ⟨t0, ht0, rfl⟩ := ht'
            by_cases e : t0.stop = t.stop
            · rw [if_pos e]
              refine .inr ⟨t0, ht0, rfl, ?_⟩
              rw [h.tasks_unique ht0 ht e]; exact haddr'
            · rw [if_neg e]; exact .inl ht0
        | true =>
          simp only [if_true]
          obtain ⟨st2, D2, hd, ⟨hi2, F2, hP2⟩, hch2⟩ := item_drop b (keeps_page b l W.dyn W.app.foreign O) (ctx := ctx)
            hi' ⟨F', hP'⟩ hf' hch.glob hch.loc rfl rfl rfl haddr'
          have hd' : Fut.drop b (some ctx) (Fut.item t.stop t.stop t.addr f') ⟨st', none⟩ = some ⟨st2, none⟩ := hd
          rw [hd']
          refine ⟨_, l.free t.stop, D2, F2, rfl, ?_⟩
          exact h.dropped ht (hch.trans hch2) rfl rfl hi2 hP2

theorem WInv.drop_item (b : Build) (h : WInv r l D F W O) {y : NodeId} :
    ∃ W' l' D' F', W.step b (.dropItem y) = some W' ∧ WInv r l' D' F' W' O := by
  simp only [Whole.step]
  cases hy : W.task y with
  | none => exact ⟨W, l, D, F, rfl, h⟩
  | some t =>
    obtain ⟨ht, rfl⟩ := task_mem hy
    obtain ⟨haddr, L, hL, hat, hlab⟩ := h.tasks t ht
    simp only [Option.bind_some, hL]
    cases hc : L.ctx with
    | none => exact ⟨W, l, D, F, rfl, h⟩
    | some ctx =>
      simp only
      cases hlive : t.live with
      | true => exact ⟨W, l, D, F, rfl, h⟩
      | false =>
        simp only [Bool.false_eq_true, if_false]
        have hmem : (t.stop, t.fut) ∈ W.comps := mem_comps.2 (.inr ⟨t, ht, rfl⟩)
        have hcomp := h.comps.each _ hmem
        obtain ⟨st2, D2, hd, ⟨hi2, F2, hP2⟩, hch2⟩ := item_drop b (keeps_page b l W.dyn W.app.foreign O) (ctx := ctx)
          h.inv ⟨F, h.paged⟩ hcomp.good h.glob (h.dead_local ht hlive hL hc) rfl rfl rfl haddr
        have hs : W.app.t.d = ⟨W.st, none⟩ := by rw [h.state]
        have hd' : Fut.drop b (some ctx) (Fut.item t.stop t.stop t.addr t.fut) ⟨W.st, none⟩ = some ⟨st2, none⟩ := hd
        rw [hs, hd']
        refine ⟨_, l.free t.stop, D2, F2, rfl, ?_⟩
        exact h.dropped ht hch2 rfl rfl hi2 hP2

end
end Verif.Whole
