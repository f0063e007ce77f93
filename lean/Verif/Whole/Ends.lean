import Verif.Whole.Shown
/-!
# C64: the end of a list

What is left of a list that has been dropped stays in its fragment. The invariant goes on to speak about a
system in which the list and the futures of its items are still there, and in which they are not used.
-/
namespace Verif.Whole
open Verif.Dom Verif.Drop Verif.Lists Verif.Lists.Forest Verif.Tree

/-- `V` is `W` with the lists that have been dropped. -/
structure Sim (W V : Whole) : Prop where
  app : V.app = W.app
  lists : ∀ i, V.lists i = (W.lists i).or (W.gone i)
  gone : ∀ i L, W.gone i = some L → W.lists i = none ∧ L.ctx = none
  tasks : W.tasks = V.tasks.filter fun t => (W.gone t.list).isNone
  none : ∀ i, V.gone i = none

section
variable {r : Nat} {l : Lay} {D : Display} {F : Page} {W V : Whole} {O : Orders}

theorem Sim.list (h : Sim W V) {i : Nat} {L : ListSt} (hL : W.lists i = some L) : V.lists i = some L := by
  rw [h.lists, hL]; rfl

theorem Sim.not_gone (h : Sim W V) {i : Nat} {L : ListSt} (hL : W.lists i = some L) : W.gone i = .none := by
  cases hg : W.gone i with
  | none => rfl
  | some L' => rw [(h.gone i L' hg).1] at hL; cases hL

theorem Sim.list_iff (h : Sim W V) {i : Nat} (hg : W.gone i = .none) : V.lists i = W.lists i := by
  rw [h.lists, hg, Option.or_none]

theorem Sim.list_or (h : Sim W V) {i : Nat} {L : ListSt} (hL : V.lists i = some L) :
    W.lists i = some L ∨ W.gone i = some L := by
  rw [h.lists] at hL
  cases hW : W.lists i with
  | none => rw [hW] at hL; exact .inr hL
  | some L' => rw [hW] at hL; exact .inl hL

theorem Sim.mem (h : Sim W V) {t : Task} : t ∈ W.tasks ↔ t ∈ V.tasks ∧ W.gone t.list = .none := by
  rw [h.tasks, List.mem_filter, Option.isNone_iff_eq_none]

theorem Sim.st (h : Sim W V) : V.st = W.st := by rw [Whole.st, h.app]; rfl
theorem Sim.next (h : Sim W V) : V.next = W.next := by rw [Whole.next, h.app]; rfl
theorem Sim.dom (h : Sim W V) : V.dom = W.dom := by rw [Whole.dom, h.st]; rfl

theorem Sim.task (h : Sim W V) (hI : WInv r l D F V O) (y : NodeId) :
    W.task y = (V.task y).filter fun t => (W.gone t.list).isNone := by
  cases hW : W.task y with
  | some t =>
    obtain ⟨ht, rfl⟩ := task_mem hW
    obtain ⟨h1, h2⟩ := h.mem.1 ht
    rw [hI.task_eq h1, Option.filter_some_pos (by rw [h2]; rfl)]
  | none =>
    cases hV : V.task y with
    | none => rfl
    | some t =>
      obtain ⟨ht, rfl⟩ := task_mem hV
      cases hg : W.gone t.list with
      | some L => rw [Option.filter_some_neg (by rw [hg]; rfl)]
      | none =>
        have := List.find?_eq_none.1 hW t (h.mem.2 ⟨ht, hg⟩)
        simp at this

theorem Sim.withApp (h : Sim W V) (A : App) : Sim { W with app := A } { V with app := A } :=
  ⟨rfl, h.lists, h.gone, h.tasks, h.none⟩

theorem Sim.withState (h : Sim W V) (t : TState) : Sim (W.withState t) (V.withState t) := by
  simp only [Whole.withState, h.app]
  exact h.withApp _

theorem Sim.setList (h : Sim W V) {i : Nat} (hg : W.gone i = .none) (L : ListSt) : Sim (W.setList i L) (V.setList i L) := by
  refine ⟨h.app, ?_, ?_, h.tasks, h.none⟩
  · intro j
    show (if j = i then _ else _) = Option.or (if j = i then _ else _) _
    split
    · rfl
    · exact h.lists j
  · intro j L' hj
    obtain ⟨h1, h2⟩ := h.gone j L' hj
    refine ⟨?_, h2⟩
    show (if j = i then _ else _) = _
    rw [if_neg]
    · exact h1
    · rintro rfl
      rw [show W.gone j = some L' from hj] at hg
      cases hg

theorem Sim.withTasks (h : Sim W V) {ts ts' : List Task} (ht : ts = ts'.filter fun t => (W.gone t.list).isNone) :
    Sim { W with tasks := ts } { V with tasks := ts' } :=
  ⟨h.app, h.lists, h.gone, ht, h.none⟩

theorem filter_map_list (p : Nat → Bool) (g : Task → Task) (hg : ∀ t, (g t).list = t.list) (ts : List Task) :
    (ts.map g).filter (fun t => p t.list) = (ts.filter fun t => p t.list).map g := by
  induction ts with
  | nil => rfl
  | cons t ts ih =>
    simp only [List.map_cons, List.filter_cons, hg, ih]
    split <;> rfl

theorem Sim.dropTask (h : Sim W V) (y : NodeId) : Sim (W.dropTask y) (V.dropTask y) := by
  refine h.withTasks ?_
  rw [h.tasks, List.filter_filter, List.filter_filter]
  congr 1
  funext t
  rw [Bool.and_comm]

theorem Sim.setTask (h : Sim W V) (y : NodeId) (f : Fut) : Sim (W.setTask y f) (V.setTask y f) := by
  refine h.withTasks ?_
  rw [h.tasks, filter_map_list (fun i => (W.gone i).isNone)]
  intro t
  split <;> rfl

/-- The drop of the items is blocked. -/
theorem drop_items (b : Build) {s : State} {i : Nat} {a : Addr} {ts : List Task}
    (ha : ∀ t ∈ ts, t.list = i → a ≠ t.addr ∧ a ∉ t.fut.addrs)
    (hu : ∀ t ∈ ts, ∀ g ∈ t.fut.unpolledGroups, s.groups g = []) :
    (Fut.list a (itemFuts i ts)).drop b .none ⟨s, .none⟩ = some ⟨s, .none⟩ := by
  have : a ∉ (itemFuts i ts).addrs ∧ ∀ g ∈ (itemFuts i ts).unpolledGroups, s.groups g = [] := by
    induction ts with
    | nil => exact ⟨by simp [itemFuts, Fut.addrs], by simp [itemFuts, Fut.unpolledGroups]⟩
    | cons t ts ih =>
      obtain ⟨h1, h2⟩ := ih (fun t' ht' => ha t' (by simp [ht'])) (fun t' ht' => hu t' (by simp [ht']))
      rw [itemFuts]
      split
      · rename_i e
        obtain ⟨h3, h4⟩ := ha t (by simp) e
        refine ⟨by simp [Fut.addrs, h1, h3, h4], ?_⟩
        intro g hg
        simp only [Fut.unpolledGroups, List.mem_append] at hg
        rcases hg with hg | hg
        · exact hu t (by simp) g hg
        · exact h2 g hg
      · exact ⟨h1, h2⟩
  simp [Fut.drop, blockOr, blockUntilDrop, drop_blocked b .none (itemFuts i ts) s a this.1 this.2, endBlock, release]

/-- The drop of a list. -/
theorem Sim.drop_list (b : Build) (hs : Sim W V) (h : WInv r l D F V O) {i : Nat} {a : Addr}
    (ha : (Event.dropList i a).Allowed W O) (L : ListSt) (hL : W.lists i = some L) :
    W.step b (.dropList i a) = some { W with
      lists := fun j => if j = i then Option.none else W.lists j
      tasks := W.tasks.filter fun t => t.list ≠ i
      gone := fun j => if j = i then some L else W.gone j } := by
  obtain ⟨-, ha⟩ := ha
  have hflag : W.app.t.d = ⟨W.st, .none⟩ := by
    have := h.flag
    rw [hs.app] at this
    rw [← this]; rfl
  have hdrop : (Fut.list a (itemFuts i W.tasks)).drop b .none W.app.t.d = some W.app.t.d := by
    rw [hflag]
    refine drop_items b ha ?_
    intro t ht g hg
    have hcomp := h.comps.each _ (mem_comps.2 (.inr ⟨t, (hs.mem.1 ht).1, rfl⟩))
    rw [List.eq_nil_iff_forall_not_mem]
    intro e he
    exact Inner.unpolled hcomp.good hcomp.inner g hg _ ((h.inv.agree g e.1 e.2).1 (hs.st ▸ he)) rfl
  simp only [Whole.step, hL, hdrop, Option.bind_eq_bind, Option.bind_some, Option.pure_def]
  rfl

/-- Every event. -/
theorem Sim.step (b : Build) (hs : Sim W V) (h : WInv r l D F V O) (e : Event) (ha : e.Allowed W O) :
    ∃ W' V' l' D' F', W.step b e = some W' ∧ Sim W' V' ∧ WInv r l' D' F' V' (O.step W.next e) := by
  rw [← hs.next]
  cases e with
  | app e =>
    have hV : (Event.app e).Allowed V O := by
      cases e with
      | poll s => exact ha
      | foreignInsert c ref =>
        obtain ⟨h1, h2, h3⟩ := ha
        refine ⟨hs.next ▸ h1, ?_, ?_⟩
        · rintro i L (hL | hL)
          · exact h2 i L (hs.list_or hL)
          · rw [hs.none] at hL; cases hL
        · rintro x hx ⟨i, L, A, B, C, hL, hk, hm⟩
          rcases hs.list_or hL with hW | hW
          · exact h3 x hx ⟨i, L, A, B, C, hW, hs.dom ▸ hk, hm⟩
          · refine h2 i L (.inr hW) ?_
            have hd : V.dyn i = some L.list := dyn_some.2 ⟨L, hL, rfl⟩
            obtain ⟨m, hm⟩ := h.paged.homes i L.list hd
            rw [← (h.here i L hL).1 (hs.gone i L hW).2]
            have h4 : L.list.listStart ∈ V.dom.kids c := by rw [hk]; simp
            have h5 : L.list.listStart ∈ V.dom.kids L.list.container := by
              rw [show V.dom.kids _ = _ from h.paged.ninv.kids _]
              exact (has_mem hm).1
            exact h.paged.ninv.proper.2 _ _ _ h4 h5
      | foreignRemove c n => trivial
    obtain ⟨V', l', D', F', h1, h2⟩ := h.step b _ hV (by simp)
    simp only [Whole.step, Option.map_eq_some_iff] at h1
    obtain ⟨A, hA, rfl⟩ := h1
    rw [hs.app] at hA
    exact ⟨_, _, l', D', F', by simp only [Whole.step, hA]; rfl, hs.withApp A, h2⟩
  | newList i =>
    have hV : (Event.newList i).Allowed V O := ⟨by rw [hs.lists, ha.1, ha.2]; rfl, hs.none i⟩
    obtain ⟨V', l', D', F', h1, h2⟩ := h.step b _ hV (by simp)
    simp only [Whole.step, Option.bind_eq_bind, Option.bind_eq_some_iff, Option.pure_def, Option.some.injEq] at h1
    obtain ⟨⟨d, L'⟩, hr, rfl⟩ := h1
    rw [hs.dom, hs.next] at hr
    refine ⟨_, _, l', D', F', (by simp only [Whole.step, hr, Option.bind_eq_bind, Option.bind_some, Option.pure_def]; rfl), ?_, h2⟩
    · rw [hs.st, hs.app, hs.next]
      refine (hs.withState _).setList ?_ _
      exact ha.2
  | call i c =>
    obtain ⟨⟨L, hL⟩, hok, hins⟩ := ha
    have hV : (Event.call i c).Allowed V O := ⟨⟨L, hs.list hL⟩, hok, hins⟩
    obtain ⟨V', l', D', F', h1, h2⟩ := h.step b _ hV (by simp)
    simp only [Whole.step, Option.bind_eq_bind, Option.bind_eq_some_iff, Option.pure_def, Option.some.injEq] at h1
    obtain ⟨LV, hLV, ⟨d, L', ans⟩, hr, rfl⟩ := h1
    rw [hs.list hL] at hLV
    cases hLV
    rw [hs.dom, hs.next] at hr
    refine ⟨_, _, l', D', F', (by simp only [Whole.step, hL, hr, Option.bind_eq_bind, Option.bind_some, Option.pure_def]; rfl), ?_, h2⟩
    · rw [hs.st, hs.app, hs.next]
      refine ((hs.withState _).setList ?_ _).withTasks ?_
      · exact hs.not_gone hL
      show _ = List.filter (fun t : Task => (W.gone t.list).isNone) _
      rw [List.filter_append, hs.tasks, cancel, cancel, filter_map_list (fun i => (W.gone i).isNone)
        (hg := by intro t; split <;> rfl)]
      congr 1
      cases c with
      | insert k bf a item =>
        simp only [LCall.newTasks]
        rw [List.filter_cons_of_pos, List.filter_nil]
        show Option.isNone (W.gone i) = true
        rw [hs.not_gone hL]
        rfl
      | _ => rfl
  | render i ctx =>
    obtain ⟨⟨L, hL, hc⟩, hel, hp, hgr⟩ := ha
    have hV : (Event.render i ctx).Allowed V O := by
      refine ⟨⟨L, hs.list hL, hc⟩, ⟨hel.1, ?_⟩, hp, hs.st ▸ hgr⟩
      rw [hs.app]
      rcases hel.2 with h1 | ⟨h1, h2 | ⟨t, ht, h2⟩⟩
      · exact .inl h1
      · exact .inr ⟨h1, .inl h2⟩
      · exact .inr ⟨h1, .inr ⟨t, (hs.mem.1 ht).1, h2⟩⟩
    obtain ⟨V', l', D', F', h1, h2⟩ := h.step b _ hV (by simp)
    simp only [Whole.step, Option.bind_eq_bind, Option.bind_eq_some_iff, Option.pure_def, Option.some.injEq] at h1
    obtain ⟨LV, hLV, ⟨d, L'⟩, hr, rfl⟩ := h1
    rw [hs.list hL] at hLV
    cases hLV
    rw [hs.st] at hr
    refine ⟨_, _, l', D', F', (by simp only [Whole.step, hL, hr, Option.bind_eq_bind, Option.bind_some, Option.pure_def]; rfl), ?_, h2⟩
    · rw [hs.app, hs.next]
      refine (hs.withState _).setList ?_ _
      exact (hs.not_gone hL)
  | unrender i =>
    obtain ⟨L, hL⟩ := ha
    have hV : (Event.unrender i).Allowed V O := ⟨L, hs.list hL⟩
    obtain ⟨V', l', D', F', h1, h2⟩ := h.step b _ hV (by simp)
    simp only [Whole.step, hs.list hL, Option.bind_eq_bind, Option.bind_some] at h1
    cases hc : L.ctx with
    | none =>
      rw [hc] at h1
      cases h1
      exact ⟨W, V, l', D', F', by simp [Whole.step, hL, hc], hs, h2⟩
    | some ctx =>
      rw [hc] at h1
      simp only [Option.bind_eq_some_iff, Option.pure_def, Option.some.injEq] at h1
      obtain ⟨⟨d, L'⟩, hr, rfl⟩ := h1
      rw [hs.dom] at hr
      refine ⟨_, _, l', D', F', (by simp only [Whole.step, hL, hc, hr, Option.bind_eq_bind, Option.bind_some, Option.pure_def]; rfl), ?_, h2⟩
      · rw [hs.st, hs.app, hs.next]
        refine (hs.withState _).setList ?_ _
        exact (hs.not_gone hL)
  | pollItem y s =>
    cases hW : W.task y with
    | none => exact ⟨W, V, l, D, F, by simp only [Whole.step, hW], hs, h⟩
    | some t =>
      have hVt : V.task y = some t := by
        rw [hs.task h, Option.filter_eq_some_iff] at hW; exact hW.1
      have hg : W.gone t.list = .none := (hs.mem.1 (task_mem hW).1).2
      have hV : (Event.pollItem y s).Allowed V O := ⟨ha.1, by rw [hVt, ← hW]; exact ha.2⟩
      obtain ⟨V', l', D', F', h1, h2⟩ := h.step b _ hV (by simp)
      simp only [Whole.step, hVt, Option.bind_some, hs.list_iff hg] at h1
      simp only [Whole.step, hW, Option.bind_some]
      cases hc : (W.lists t.list).bind (·.ctx) with
      | none =>
        rw [hc] at h1
        cases h1
        exact ⟨W, V, l', D', F', rfl, hs, h2⟩
      | some ctx =>
        rw [hc] at h1
        simp only at h1 ⊢
        by_cases hl : t.live = true
        · rw [if_pos hl] at h1 ⊢
          simp only [Option.bind_eq_bind, Option.bind_eq_some_iff] at h1
          obtain ⟨⟨f, T, ready⟩, hp, h1⟩ := h1
          rw [hs.app] at hp
          simp only [hp, Option.bind_eq_bind, Option.bind_some]
          cases ready with
          | true =>
            simp only [if_true, Option.bind_eq_some_iff, Option.pure_def, Option.some.injEq] at h1 ⊢
            obtain ⟨d, hd, rfl⟩ := h1
            exact ⟨_, _, l', D', F', ⟨d, hd, rfl⟩, (hs.withState _).dropTask y, h2⟩
          | false =>
            simp only [Bool.false_eq_true, if_false, Option.pure_def, Option.some.injEq] at h1 ⊢
            subst h1
            exact ⟨_, _, l', D', F', rfl, (hs.withState _).setTask y f, h2⟩
        · rw [if_neg hl] at h1 ⊢
          cases h1
          exact ⟨W, V, l', D', F', rfl, hs, h2⟩
  | dropItem y =>
    cases hW : W.task y with
    | none => exact ⟨W, V, l, D, F, by simp only [Whole.step, hW], hs, h⟩
    | some t =>
      have hVt : V.task y = some t := by
        rw [hs.task h, Option.filter_eq_some_iff] at hW; exact hW.1
      have hg : W.gone t.list = .none := (hs.mem.1 (task_mem hW).1).2
      obtain ⟨V', l', D', F', h1, h2⟩ := h.step b (.dropItem y) trivial (by simp)
      simp only [Whole.step, hVt, Option.bind_some, hs.list_iff hg] at h1
      simp only [Whole.step, hW, Option.bind_some]
      cases hc : (W.lists t.list).bind (·.ctx) with
      | none =>
        rw [hc] at h1
        cases h1
        exact ⟨W, V, l', D', F', rfl, hs, h2⟩
      | some ctx =>
        rw [hc] at h1
        simp only at h1 ⊢
        by_cases hl : t.live = true
        · rw [if_pos hl] at h1 ⊢
          cases h1
          exact ⟨W, V, l', D', F', rfl, hs, h2⟩
        · rw [if_neg hl] at h1 ⊢
          simp only [Option.bind_eq_bind, Option.bind_eq_some_iff, Option.pure_def, Option.some.injEq] at h1 ⊢
          obtain ⟨d, hd, rfl⟩ := h1
          rw [hs.app] at hd
          refine ⟨_, _, l', D', F', ⟨d, hd, rfl⟩, ?_, h2⟩
          rw [hs.next]
          exact (hs.withState _).dropTask y
  | dropList i a =>
    have hstep := hs.drop_list b h ha
    obtain ⟨⟨L, hL, hc⟩, ha⟩ := ha
    refine ⟨_, V, l, D, F, hstep L hL, ?_, h⟩
    · refine ⟨hs.app, ?_, ?_, ?_, hs.none⟩
      · intro j
        show V.lists j = Option.or (if j = i then _ else _) (if j = i then _ else _)
        split
        · rename_i e; rw [e, hs.list hL]; rfl
        · exact hs.lists j
      · intro j Lj hj
        have hj' : (if j = i then some L else W.gone j) = some Lj := hj
        show (if j = i then _ else _) = _ ∧ _
        split
        · rename_i e
          rw [if_pos e] at hj'
          cases hj'
          exact ⟨rfl, hc⟩
        · rename_i e
          rw [if_neg e] at hj'
          exact hs.gone j Lj hj'
      · show W.tasks.filter _ = V.tasks.filter fun t => Option.isNone (if t.list = i then _ else _)
        rw [hs.tasks, List.filter_filter]
        congr 1
        funext t
        by_cases e : t.list = i
        · simp [e]
        · simp [e]

/-- What the invariant says about the futures of the items. -/
structure Facts (W : Whole) (O : Orders) : Prop where
  task_eq : ∀ t ∈ W.tasks, W.task t.stop = some t
  tasks : ∀ t ∈ W.tasks, ∃ L, W.lists t.list = some L
  live : ∀ t ∈ W.tasks, t.live = true → ∃ k s, (k, ⟨s, t.stop⟩) ∈ O t.list
  dead : ∀ t ∈ W.tasks, t.live = false → ∀ j k s, W.lists j ≠ none → (k, ⟨s, t.stop⟩) ∉ O j
  one : ∀ i j k k' s s' y, W.lists i ≠ none → W.lists j ≠ none → (k, ⟨s, y⟩) ∈ O i → (k', ⟨s', y⟩) ∈ O j → i = j

theorem Sim.facts (hs : Sim W V) (h : WInv r l D F V O) : Facts W O := by
  have hsome : ∀ j, W.lists j ≠ .none → ∃ L, W.lists j = some L ∧ V.lists j = some L := by
    intro j hj
    obtain ⟨L, hL⟩ := Option.ne_none_iff_exists'.1 hj
    exact ⟨L, hL, hs.list hL⟩
  refine ⟨?_, ?_, ?_, ?_, ?_⟩
  · intro t ht
    obtain ⟨h1, h2⟩ := hs.mem.1 ht
    rw [hs.task h, h.task_eq h1, Option.filter_some_pos (by rw [h2]; rfl)]
  · intro t ht
    obtain ⟨h1, h2⟩ := hs.mem.1 ht
    obtain ⟨-, L, hL, -⟩ := h.tasks t h1
    rw [hs.list_iff h2] at hL
    exact ⟨L, hL⟩
  · intro t ht
    exact h.live t (hs.mem.1 ht).1
  · intro t ht hl j k s hj
    obtain ⟨L, -, hL⟩ := hsome j hj
    exact h.dead t (hs.mem.1 ht).1 hl j k s (by rw [hL]; simp)
  · intro i j k k' s s' y hi hj h1 h2
    obtain ⟨L, -, hL⟩ := hsome i hi
    obtain ⟨Lj, -, hLj⟩ := hsome j hj
    exact (h.paged.row_stop (dyn_some.2 ⟨L, hL, rfl⟩) (dyn_some.2 ⟨Lj, hLj, rfl⟩) h1 h2).1

theorem items_entries {m : Forest} {k : Key} {y : NodeId} {f : Forest} (h : (k, y, f) ∈ itemsOf m) :
    ∃ x, (k, (⟨x, y⟩ : Stored)) ∈ m.entries := by
  induction m with
  | nil => cases h
  | node n r ih => exact ih h
  | item k' x y' m r _ ih =>
    rcases List.mem_cons.1 h with h | h
    · cases h
      exact ⟨x, List.mem_cons_self⟩
    · obtain ⟨x', hx⟩ := ih h
      exact ⟨x', List.mem_cons_of_mem _ hx⟩
  | list i x y m r _ ih => exact ih h

theorem Sim.rendered (hs : Sim W V) (h : WInv r l D F V O) : W.Rendered O := by
  obtain ⟨page, h1, h2, h3, h4, h5, h6, h7, h8⟩ := h.rendered hs.none
  rw [hs.dom] at h1
  rw [hs.app] at h4 h5 h6 h7
  refine ⟨page, h1, ?_, ?_, h4, h5, h6, fun t ht => h7 t (hs.mem.1 ht).1, ?_⟩
  · intro c i x y m hm
    rcases h2 c i x y m hm with ⟨L, hL, hc⟩ | ⟨L, hL, -⟩
    · rcases hs.list_or hL with hW | hW
      · exact .inl ⟨L, hW, hc⟩
      · exact .inr ⟨L, hW, hc.trans ((h.here i L hL).1 (hs.gone i L hW).2)⟩
    · rw [hs.none] at hL; cases hL
  · intro i L hL he
    refine h3 i L (.inl ?_) ?_
    · rcases hL with hL | hL
      · exact hs.list hL
      · rw [hs.lists, (hs.gone i L hL).1, hL]; rfl
    · rcases he with e | e | ⟨t, ht, e⟩
      · exact .inl (by rw [hs.app]; exact e)
      · exact .inr (.inl (by rw [hs.app]; exact e))
      · exact .inr (.inr ⟨t, (hs.mem.1 ht).1, e⟩)
  · intro i L hL
    obtain ⟨g1, m, g2, g3, g4, g5⟩ := h8 i L (hs.list hL)
    refine ⟨g1, m, g2, g3, ?_, ?_⟩
    · intro k y f hf
      rw [g4 k y f hf]
      simp only [Whole.itemTops]
      rw [hs.task h]
      cases hV : V.task y with
      | none => rfl
      | some t =>
        obtain ⟨ht, rfl⟩ := task_mem hV
        obtain ⟨x, hx⟩ := items_entries hf
        rw [g3] at hx
        have hlive : t.live = true := by
          cases hl : t.live with
          | true => rfl
          | false => exact absurd hx (h.dead t ht hl i k x (by rw [hs.list hL]; simp))
        obtain ⟨-, Lt, hLt, -⟩ := h.tasks t ht
        obtain ⟨k', s', hks⟩ := h.live t ht hlive
        obtain ⟨e, -, -⟩ := h.paged.row_stop (dyn_some.2 ⟨Lt, hLt, rfl⟩) (dyn_some.2 ⟨L, hs.list hL, rfl⟩) hks hx
        rw [Option.filter_some_pos (by rw [e, hs.not_gone hL]; rfl)]
    · intro n
      rw [g5]
      constructor
      · rintro ⟨t, ht, e, hh⟩
        exact ⟨t, hs.mem.2 ⟨ht, by rw [e]; exact hs.not_gone hL⟩, e, hh⟩
      · rintro ⟨t, ht, hh⟩
        exact ⟨t, (hs.mem.1 ht).1, hh⟩

/-- Along a run. -/
theorem Sim.run (b : Build) : ∀ (events : List Event) {l : Lay} {D : Display} {F : Page} {W V : Whole} {O : Orders},
    Sim W V → WInv r l D F V O → Allowed b W O events →
    ∃ W' V' l' D' F', W.run b events = some W' ∧ Sim W' V' ∧ WInv r l' D' F' V' (Orders.run b O W events)
  | [], l, D, F, W, V, _, hs, h, _ => ⟨W, V, l, D, F, rfl, hs, h⟩
  | e :: es, _, _, _, _, _, _, hs, h, hev => by
    obtain ⟨W1, V1, l1, D1, F1, hst, hs1, h1⟩ := hs.step b h e hev.1
    obtain ⟨W2, V2, l2, D2, F2, hr, hs2, h2⟩ := Sim.run b es hs1 h1 (hev.2 W1 hst)
    exact ⟨W2, V2, l2, D2, F2, by simp [Whole.run, hst, hr], hs2, by simp only [Orders.run, hst]; exact h2⟩

end
end Verif.Whole
