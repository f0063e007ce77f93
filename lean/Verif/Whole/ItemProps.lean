import Verif.Whole.Props
/-!
# C64: the futures of the items
-/
namespace Verif.Whole
open Verif.Dom Verif.Drop Verif.Lists Verif.Tree

theorem reached (b : Build) (app : Shape) (node : NodeId) (dom : Dom)
    (foreign : List (NodeId × NodeId)) (next : Nat) (events : List Event)
    (hdoc : Document dom foreign next) (hlow : ∀ c x, (c, x) ∈ foreign → c < next) (hnode : node < next)
    (happ : app.Narrow) (hev : Allowed b (Whole.mount app node dom foreign next) (fun _ => []) events) {W : Whole}
    (hrun : (Whole.mount app node dom foreign next).run b events = some W) :
    ∃ V l D F, Sim W V ∧
      WInv next l D F V (Orders.run b (fun _ => []) (Whole.mount app node dom foreign next) events) := by
  obtain ⟨W', V, l, D, F, hr, hs, h⟩ := Sim.run b events ⟨rfl, fun _ => rfl, fun i L h => (by cases h), rfl, fun _ => rfl⟩
    (WInv.mount app node dom foreign next hdoc hlow hnode happ) hev
  rw [hrun] at hr
  cases hr
  exact ⟨V, l, D, F, hs, h⟩

theorem find_map (ts : List Task) (y : NodeId) (g : Task → Task) (hg : ∀ t, (g t).stop = t.stop) :
    (ts.map g).find? (fun t => t.stop = y) = (ts.find? fun t => t.stop = y).map g := by
  induction ts with
  | nil => rfl
  | cons t ts ih =>
    simp only [List.map_cons, List.find?_cons, hg, ih]
    split <;> rfl

theorem find_filter (ts : List Task) (y z : NodeId) (h : y ≠ z) :
    (ts.filter (fun t => t.stop ≠ z)).find? (fun t => t.stop = y) = ts.find? fun t => t.stop = y := by
  induction ts with
  | nil => rfl
  | cons t ts ih =>
    simp only [List.filter_cons, List.find?_cons]
    by_cases e : t.stop = z
    · have : ¬ t.stop = y := fun e' => h (e'.symm.trans e)
      simp only [e, ne_eq, not_true_eq_false, decide_false, Bool.false_eq_true, if_false]
      rw [ih, ← e]
      simp [this]
    · simp only [ne_eq, e, not_false_eq_true, decide_true, if_true, List.find?_cons, ih]

theorem find_gone (ts : List Task) (y : NodeId) :
    (ts.filter (fun t => t.stop ≠ y)).find? (fun t => t.stop = y) = none := by
  rw [List.find?_eq_none]
  intro t ht
  simpa using (List.mem_filter.1 ht).2

theorem find_list (ts : List Task) (y : NodeId) (i : Nat) (h : ∀ t ∈ ts, t.stop = y → t.list ≠ i) :
    (ts.filter (fun t => t.list ≠ i)).find? (fun t => t.stop = y) = ts.find? fun t => t.stop = y := by
  induction ts with
  | nil => rfl
  | cons t ts ih =>
    have ih := ih fun t' ht' => h t' (by simp [ht'])
    simp only [List.filter_cons, List.find?_cons]
    by_cases e : t.list = i
    · have : ¬ t.stop = y := fun e' => h t (by simp) e' e
      simp only [e, ne_eq, not_true_eq_false, decide_false, Bool.false_eq_true, if_false, this]
      exact ih
    · simp only [ne_eq, e, not_false_eq_true, decide_true, if_true, List.find?_cons]
      rw [← ih]

/-- **C64.** The futures of the items. `insert` keeps the future that it is given. After that only polling
the item changes it, until it completes, or until it is dropped after the item was taken out of its list, or with
the list.
An item is polled in its place in the list whenever the list is rendered and the item is in it; items that
were taken out, and items of a list that is not rendered, are not polled. -/
theorem whole_items (b : Build) (app : Shape) (node : NodeId) (dom : Dom)
    (foreign : List (NodeId × NodeId)) (next : Nat) (events : List Event)
    (hdoc : Document dom foreign next) (hlow : ∀ c x, (c, x) ∈ foreign → c < next) (hnode : node < next)
    (happ : app.Narrow) (hev : Allowed b (Whole.mount app node dom foreign next) (fun _ => []) events)
    {W : Whole} {O : Orders} (hrun : (Whole.mount app node dom foreign next).run b events = some W)
    (hO : O = Orders.run b (fun _ => []) (Whole.mount app node dom foreign next) events)
    (e : Event) (he : e.Allowed W O) :
    ∃ W', W.step b e = some W' ∧
      -- a new item
      (∀ i k bf a item, e = .call i (.insert k bf a item) → W'.itemFut (W.next + 1) = some (item.make (W.next + 2)).1) ∧
      -- an item that is not polled
      (∀ y < W.next, (∀ s, e ≠ .pollItem y s) → e ≠ .dropItem y → (∀ i a, e ≠ .dropList i a) →
        W'.itemFut y = W.itemFut y) ∧
      -- a rendered item that is polled
      (∀ y s f i k x L ctx, e = .pollItem y s → W.itemFut y = some f → (k, ⟨x, y⟩) ∈ O i → W.lists i = some L →
        L.ctx = some ctx → ∃ f' T ready, Tree.poll b s (itemCtx ctx y) f W.app.t = some (f', T, ready) ∧
          W'.itemFut y = if ready then none else some f') ∧
      -- an item that has been taken out of its list, which is rendered, and that is dropped
      (∀ y i L ctx, e = .dropItem y → (∃ t ∈ W.tasks, t.stop = y ∧ t.list = i) → W.lists i = some L →
        L.ctx = some ctx → (∀ k x, (k, ⟨x, y⟩) ∉ O i) → W'.itemFut y = none) ∧
      -- an item that is still in its list, and that is dropped: cannot happen
      (∀ y i k x, e = .dropItem y → W.lists i ≠ none → (k, ⟨x, y⟩) ∈ O i → W'.itemFut y = W.itemFut y) ∧
      -- an item that has been taken out of its list is not polled any more
      (∀ y s, e = .pollItem y s → (∀ i k x, W.lists i ≠ none → (k, ⟨x, y⟩) ∉ O i) → W' = W) ∧
      -- the items of a list that is not rendered are neither polled nor dropped
      (∀ y i L, ((∃ s, e = .pollItem y s) ∨ e = .dropItem y) → (∃ t ∈ W.tasks, t.stop = y ∧ t.list = i) →
        W.lists i = some L → L.ctx = none → W' = W) ∧
      -- a list that is dropped: the futures of its items are dropped, and nothing else happens
      (∀ i a, e = .dropList i a → W'.app = W.app ∧ W'.lists i = none ∧ (∀ j ≠ i, W'.lists j = W.lists j) ∧
        (∀ t ∈ W.tasks, t.list = i → W'.itemFut t.stop = none) ∧
        ∀ y, (∀ t ∈ W.tasks, t.stop = y → t.list ≠ i) → W'.itemFut y = W.itemFut y) := by
  obtain ⟨V, l, D, F, hV, hI⟩ := reached b app node dom foreign next events hdoc hlow hnode happ hev hrun
  rw [← hO] at hI
  have h := hV.facts hI
  obtain ⟨W', -, -, -, -, hs, -⟩ := hV.step b hI e he
  refine ⟨W', hs, ?_, ?_, ?_, ?_, ?_, ?_, ?_, ?_⟩
  · rintro i k bf a item rfl
    simp only [Whole.step, Option.bind_eq_bind, Option.bind_eq_some_iff, Option.pure_def, Option.some.injEq] at hs
    obtain ⟨L, hL, ⟨d, L', ans⟩, hr, rfl⟩ := hs
    simp [Whole.itemFut, Whole.task, LCall.newTasks]
  · intro y hy h1 h2 h3
    cases e with
    | app e =>
      simp only [Whole.step, Option.map_eq_some_iff] at hs
      obtain ⟨A, -, rfl⟩ := hs
      rfl
    | newList i =>
      simp only [Whole.step, Option.bind_eq_bind, Option.bind_eq_some_iff, Option.pure_def, Option.some.injEq] at hs
      obtain ⟨⟨d, L'⟩, hr, rfl⟩ := hs
      rfl
    | call i c =>
      simp only [Whole.step, Option.bind_eq_bind, Option.bind_eq_some_iff, Option.pure_def, Option.some.injEq] at hs
      obtain ⟨L, hL, ⟨d, L', ans⟩, hr, rfl⟩ := hs
      have hnew : ((c.newTasks i W.next).1).find? (fun t => t.stop = y) = none := by
        rw [List.find?_eq_none]
        intro t ht
        cases c with
        | insert k b a s =>
          simp only [LCall.newTasks, List.mem_singleton] at ht
          subst ht
          simp only [decide_eq_true_eq]
          om
        | _ => cases ht
      simp only [Whole.itemFut, Whole.task, List.find?_append, hnew, Option.none_or, cancel]
      rw [find_map _ _ _ (by intro t; split <;> rfl), Option.map_map]
      congr 1
      funext t
      simp only [Function.comp_apply]
      split <;> rfl
    | render i ctx =>
      simp only [Whole.step, Option.bind_eq_bind, Option.bind_eq_some_iff, Option.pure_def, Option.some.injEq] at hs
      obtain ⟨L, hL, ⟨d, L'⟩, hr, rfl⟩ := hs
      rfl
    | unrender i =>
      obtain ⟨L, hL⟩ := he
      simp only [Whole.step, hL, Option.bind_eq_bind, Option.bind_some] at hs
      split at hs
      · cases hs; rfl
      · simp only [Option.bind_eq_some_iff, Option.pure_def, Option.some.injEq] at hs
        obtain ⟨⟨d, L'⟩, hr, rfl⟩ := hs
        rfl
    | pollItem z s =>
      have hne : y ≠ z := by rintro rfl; exact h1 s rfl
      simp only [Whole.step] at hs
      split at hs
      · split at hs
        · simp only [Option.bind_eq_bind, Option.bind_eq_some_iff] at hs
          obtain ⟨⟨f, T, ready⟩, hp, hs⟩ := hs
          simp only at hs
          split at hs
          · simp only [Option.bind_eq_some_iff, Option.pure_def, Option.some.injEq] at hs
            obtain ⟨d, -, rfl⟩ := hs
            simp only [Whole.itemFut, Whole.task, Whole.dropTask, Whole.withState, find_filter _ _ _ hne]
          · simp only [Option.pure_def, Option.some.injEq] at hs
            subst hs
            simp only [Whole.itemFut, Whole.task, Whole.setTask, Whole.withState]
            rw [find_map _ _ _ (by intro t; split <;> rfl), Option.map_map]
            cases hf : W.tasks.find? (fun t => t.stop = y) with
            | none => rfl
            | some t =>
              have ht : t.stop = y := by simpa using List.find?_some hf
              simp only [Option.map_some, Function.comp_apply]
              rw [if_neg (by rw [ht]; exact hne)]
        · cases hs; rfl
      · cases hs; rfl
    | dropItem z =>
      have hne : y ≠ z := by rintro rfl; exact h2 rfl
      simp only [Whole.step] at hs
      split at hs
      · split at hs
        · cases hs; rfl
        · simp only [Option.bind_eq_bind, Option.bind_eq_some_iff, Option.pure_def, Option.some.injEq] at hs
          obtain ⟨d, -, rfl⟩ := hs
          simp only [Whole.itemFut, Whole.task, Whole.dropTask, Whole.withState, find_filter _ _ _ hne]
      · cases hs; rfl
    | dropList i a => exact absurd rfl (h3 i a)
  · rintro y s f i k x L ctx rfl hf hk hL hc
    simp only [Whole.itemFut, Option.map_eq_some_iff] at hf
    obtain ⟨t, hy, rfl⟩ := hf
    obtain ⟨ht, rfl⟩ := task_mem hy
    have hlive : t.live = true := by
      cases hl : t.live with
      | true => rfl
      | false => exact absurd hk (h.dead t ht hl i k x (by rw [hL]; simp))
    obtain ⟨Lt, hLt⟩ := h.tasks t ht
    obtain ⟨k', s', hks⟩ := h.live t ht hlive
    have e' := h.one _ _ _ _ _ _ _ (by rw [hLt]; simp) (by rw [hL]; simp) hks hk
    rw [← e'] at hL
    simp only [Whole.step, hy, Option.bind_some, hL, hc, hlive, if_true, Option.bind_eq_bind,
      Option.bind_eq_some_iff] at hs
    obtain ⟨⟨f, T, ready⟩, hp, hs⟩ := hs
    refine ⟨f, T, ready, hp, ?_⟩
    cases ready with
    | true =>
      simp only [if_true, Option.bind_eq_some_iff, Option.pure_def, Option.some.injEq] at hs
      obtain ⟨d, -, rfl⟩ := hs
      simp only [if_true, Whole.itemFut, Whole.task, Whole.dropTask, Whole.withState, find_gone, Option.map_none]
    | false =>
      simp only [Bool.false_eq_true, if_false, Option.pure_def, Option.some.injEq] at hs
      subst hs
      simp only [Bool.false_eq_true, if_false, Whole.itemFut, Whole.task, Whole.setTask, Whole.withState]
      rw [find_map _ _ _ (by intro t; split <;> rfl)]
      have : W.tasks.find? (fun t' => t'.stop = t.stop) = some t := hy
      rw [this]
      simp
  · rintro y i L ctx rfl ⟨t, ht, rfl, rfl⟩ hL hc hno
    have hlive : t.live = false := by
      cases hl : t.live with
      | false => rfl
      | true =>
        obtain ⟨k', s', hks⟩ := h.live t ht hl
        exact absurd hks (hno k' s')
    simp only [Whole.step, h.task_eq t ht, Option.bind_some, hL, hc, hlive, Bool.false_eq_true, if_false,
      Option.bind_eq_bind, Option.bind_eq_some_iff, Option.pure_def, Option.some.injEq] at hs
    obtain ⟨d, -, rfl⟩ := hs
    simp only [Whole.itemFut, Whole.task, Whole.dropTask, Whole.withState, find_gone, Option.map_none]
  · rintro y i k x rfl hL hk
    simp only [Whole.step] at hs
    split at hs
    · rename_i t ctx hy hc
      obtain ⟨ht, rfl⟩ := task_mem hy
      split at hs
      · cases hs; rfl
      · rename_i hl
        exact absurd hk (h.dead t ht (by simpa using hl) i k x hL)
    · cases hs; rfl
  · rintro y s rfl hno
    simp only [Whole.step] at hs
    split at hs
    · rename_i t ctx hy hc
      obtain ⟨ht, rfl⟩ := task_mem hy
      split at hs
      · rename_i hl
        obtain ⟨k', s', hks⟩ := h.live t ht hl
        obtain ⟨Lt, hLt⟩ := h.tasks t ht
        exact absurd hks (hno t.list k' s' (by rw [hLt]; simp))
      · cases hs; rfl
    · cases hs; rfl
  · rintro y i L he' ⟨t, ht, rfl, rfl⟩ hL hc
    rcases he' with ⟨s, rfl⟩ | rfl
    · simp only [Whole.step, h.task_eq t ht, Option.bind_some, hL, hc, Option.some.injEq] at hs
      exact hs.symm
    · simp only [Whole.step, h.task_eq t ht, Option.bind_some, hL, hc, Option.some.injEq] at hs
      exact hs.symm
  · rintro i a rfl
    obtain ⟨L, hL, -⟩ := he.1
    rw [hV.drop_list b hI he L hL] at hs
    cases hs
    refine ⟨rfl, if_pos rfl, fun j hj => if_neg hj, ?_, ?_⟩
    · intro t ht hi
      simp only [Whole.itemFut, Whole.task, Option.map_eq_none_iff]
      rw [List.find?_eq_none]
      intro t' ht' e'
      obtain ⟨h1, h2⟩ := List.mem_filter.1 ht'
      have e'' : t'.stop = t.stop := by simpa using e'
      have := h.task_eq t' h1
      rw [e'', h.task_eq t ht] at this
      cases this
      simp [hi] at h2
    · intro y hy
      simp only [Whole.itemFut, Whole.task]
      congr 1
      exact find_list W.tasks y i hy

end Verif.Whole
