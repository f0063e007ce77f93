import Verif.Apps.BigListCalls
/-! # C79: what the big list shows, and how many elements it needs -/
namespace Verif.Apps.BigList
open Verif.Lists

/-- The window (as in C37). -/
def window (w : Window) : BOp → Window
  | .visible g => w.next g
  | .setNum n g => { w with num := n }.next g
  | .exec _ => w

/-- The window after a history. -/
def windowAfter (ops : List BOp) : Window := ops.foldl window ⟨0, 0, 0⟩

/-- The panic of C37: from an empty window to one around its start. -/
def restarts (w : Window) : BOp → Prop
  | .visible g => w.restarts g
  | .setNum n g => { w with num := n }.restarts g
  | .exec _ => False

structure Inv (s : Big) (w : Window) : Prop where
  core : Core s
  keys : s.keys = upTo w.start w.stop
  same : s.start = w.start ∧ s.stop = w.stop ∧ s.num = w.num

theorem inv_init : Inv .init ⟨0, 0, 0⟩ := ⟨core_init, rfl, rfl, rfl, rfl⟩

theorem call_num {s s' : Big} {op : Op} (h : s.call op = some s') : s'.num = s.num := by
  cases op with
  | remove k =>
    simp only [Big.call, Option.some.injEq] at h
    subst h
    unfold Big.remove
    split <;> rfl
  | insert k b x y =>
    simp only [Big.call, Big.insert] at h
    split at h
    · obtain ⟨l, -, rfl⟩ := Option.map_eq_some_iff.1 h; rfl
    · split at h
      · cases h; rfl
      · obtain ⟨l, -, rfl⟩ := Option.map_eq_some_iff.1 h; rfl
  | _ => cases h

theorem calls_num {ops : List Op} : ∀ {s s' : Big}, s.calls ops = some s' → s'.num = s.num := by
  induction ops with
  | nil => intro s s' h; cases h; rfl
  | cons op ops ih =>
    intro s s' h
    simp only [Big.calls, bind, Option.bind] at h
    split at h
    · cases h
    · rename_i s1 e
      exact (ih h).trans (call_num e)

theorem update_none {s : Big} {w : Window} (h : Inv s w) {g : Measured} (hr : w.restarts g) : s.update g = none := by
  obtain ⟨h1, h2, h3⟩ := h.same
  unfold Window.restarts Window.next at hr
  unfold Big.update
  have hq : ¬ ((g.farFront || s.start == 0) && (g.farBack || s.stop == s.num)) = true := by
    intro hq
    simp only [Bool.and_eq_true, Bool.or_eq_true, beq_iff_eq, h1, h2, h3] at hq
    rw [if_pos hq] at hr
    omega
  have hq' := hq
  simp only [Bool.and_eq_true, Bool.or_eq_true, beq_iff_eq, h1, h2, h3] at hq'
  rw [if_neg hq'] at hr
  simp only at hr
  rw [← h1, ← h2, ← h3] at hr
  rw [if_neg hq]
  have hrows : s.rows = [] := by
    have := h.keys
    rw [upTo_nil (by omega), Big.keys, List.map_eq_nil_iff] at this
    exact this
  have hc : s.calls (virtualCalls (fun _ => (0, 0)) s.start s.stop g.newStart (min g.newEnd s.num)) = none := by
    unfold virtualCalls
    simp only [virtualRemoved]
    rw [upTo_nil (a := s.start) (by omega), upTo_nil (b := s.stop) (by omega), virtualRemaining, if_pos (by omega),
      upTo_cons (a := g.newStart) (by omega)]
    simp only [List.append_nil, List.map_nil, List.nil_append, insCalls, List.cons_append, Big.calls, Big.call, Big.insert, Big.find,
      hrows, List.find?_nil, place, Option.map_none]
    rfl
  simp only [hc]
  rfl

theorem inv_update {s : Big} {w : Window} (h : Inv s w) {g : Measured} (hr : ¬ w.restarts g) :
    ∃ s', s.update g = some s' ∧ Inv s' (w.next g) ∧ ∀ M, Bound s M → (w.next g).indices.length ≤ M → Bound s' M := by
  obtain ⟨h1, h2, h3⟩ := h.same
  unfold Window.restarts at hr
  unfold Big.update
  by_cases hq : ((g.farFront || s.start == 0) && (g.farBack || s.stop == s.num)) = true
  · rw [if_pos hq]
    simp only [Bool.and_eq_true, Bool.or_eq_true, beq_iff_eq, h1, h2, h3] at hq
    rw [Window.next, if_pos hq]
    exact ⟨s, rfl, h, fun _ hB _ => hB⟩
  · rw [if_neg hq]
    simp only [Bool.and_eq_true, Bool.or_eq_true, beq_iff_eq, h1, h2, h3] at hq
    rw [Window.next, if_neg hq] at hr ⊢
    simp only at hr ⊢
    have hk := h.keys
    rw [← h1, ← h2] at hk hr
    rw [← h3] at hr
    obtain ⟨s', e, c1, c2, c3⟩ := calls_virtual h.core hk hr
    refine ⟨{ s' with start := g.newStart, stop := min g.newEnd s.num, num := s'.num }, ?_, ⟨?_, ?_, ?_⟩, ?_⟩
    · simp only [e, bind, Option.bind, pure]
    · exact { c1 with }
    · rw [← h3]; exact c2
    · refine ⟨rfl, by rw [h3], ?_⟩
      exact (calls_num e).trans h3
    · intro M hB hM
      rw [indices_eq, ← h3] at hM
      exact c3 M hB hM

theorem inv_step {s : Big} {w : Window} (h : Inv s w) (op : BOp) :
    (restarts w op ∧ s.step op = none) ∨ (¬ restarts w op ∧ ∃ s', s.step op = some s' ∧ Inv s' (window w op) ∧
      ∀ M, Bound s M → (window w op).indices.length ≤ M → (∀ i, op = .exec i → i = 0) → Bound s' M) := by
  cases op with
  | visible g =>
    by_cases hr : w.restarts g
    · exact .inl ⟨hr, update_none h hr⟩
    · obtain ⟨s', h1, h2, h3⟩ := inv_update h hr
      exact .inr ⟨hr, s', h1, h2, fun M hB hM _ => h3 M hB hM⟩
  | setNum n g =>
    have h' : Inv { s with num := n } { w with num := n } := ⟨{ h.core with }, h.keys, h.same.1, h.same.2.1, rfl⟩
    by_cases hr : Window.restarts { w with num := n } g
    · exact .inl ⟨hr, update_none h' hr⟩
    · obtain ⟨s', h1, h2, h3⟩ := inv_update h' hr
      exact .inr ⟨hr, s', h1, h2, fun M hB hM _ => h3 M hB hM⟩
  | exec i =>
    obtain ⟨h1, h2, h3, h4⟩ := core_exec h.core i
    refine .inr ⟨id, s.exec i, rfl, ⟨h1, h2.trans h.keys, ?_⟩, fun M hB _ hi => h4 (hi i rfl) M hB⟩
    have : (s.exec i).start = s.start ∧ (s.exec i).stop = s.stop ∧ (s.exec i).num = s.num := by
      unfold Big.exec
      split
      · exact ⟨rfl, rfl, rfl⟩
      · simp only
        split
        · split
          · exact ⟨rfl, rfl, rfl⟩
          · split <;> exact ⟨rfl, rfl, rfl⟩
        · split <;> exact ⟨rfl, rfl, rfl⟩
    exact ⟨this.1.trans h.same.1, this.2.1.trans h.same.2.1, this.2.2.trans h.same.2.2⟩

theorem inv_run (ops : List BOp) : ∀ {s s' : Big} {w : Window}, Inv s w → s.run ops = some s' → Inv s' (ops.foldl window w) ∧
    ∀ M, Bound s M → (∀ p, p <+: ops → (p.foldl window w).indices.length ≤ M) → (∀ i, .exec i ∈ ops → i = 0) → Bound s' M := by
  induction ops with
  | nil => intro s s' w h e; cases e; exact ⟨h, fun _ hB _ _ => hB⟩
  | cons op ops ih =>
    intro s s' w h e
    simp only [Big.run, bind, Option.bind] at e
    rcases inv_step h op with ⟨-, hn⟩ | ⟨-, s1, h1, h2, h3⟩
    · rw [hn] at e; cases e
    · rw [h1] at e
      obtain ⟨k1, k2⟩ := ih h2 e
      refine ⟨k1, fun M hB hp hi => k2 M (h3 M hB (hp [op] (by simp)) fun i e => hi i (by simp [e])) (fun p hp' => ?_)
        fun i hi' => hi i (by simp [hi'])⟩
      exact hp (op :: p) (List.cons_prefix_cons.2 ⟨rfl, hp'⟩)

/-- **C79, panics.** The only panic is that of C37. -/
theorem bigList_panics_iff (ops : List BOp) : Big.init.run ops = none ↔
    ∃ p op, p ++ [op] <+: ops ∧ restarts (windowAfter p) op := by
  have key : ∀ (ops : List BOp) (s : Big) (w : Window), Inv s w → (s.run ops = none ↔
      ∃ p op, p ++ [op] <+: ops ∧ restarts (p.foldl window w) op) := by
    intro ops
    induction ops with
    | nil =>
      intro s w _
      refine ⟨fun h => absurd h (by simp [Big.run]), ?_⟩
      rintro ⟨p, op, h, -⟩
      simp at h
    | cons op ops ih =>
      intro s w h
      simp only [Big.run, bind, Option.bind]
      rcases inv_step h op with ⟨hr, hn⟩ | ⟨hr, s1, h1, h2, -⟩
      · rw [hn]
        exact ⟨fun _ => ⟨[], op, by simp, hr⟩, fun _ => rfl⟩
      · rw [h1]
        simp only
        rw [ih s1 _ h2]
        constructor
        · rintro ⟨p, o, hp, hr'⟩
          exact ⟨op :: p, o, by rw [List.cons_append, List.cons_prefix_cons]; exact ⟨rfl, hp⟩, hr'⟩
        · rintro ⟨p, o, hp, hr'⟩
          cases p with
          | nil =>
            simp only [List.nil_append, List.cons_prefix_cons, List.nil_prefix, and_true] at hp
            subst hp
            exact absurd hr' hr
          | cons q p =>
            rw [List.cons_append, List.cons_prefix_cons] at hp
            obtain ⟨rfl, hp⟩ := hp
            exact ⟨p, o, hp, hr'⟩
  exact key ops .init _ inv_init

/-- **C79, texts.** The rows display indices of the window, in increasing order, and each the text of its own index; those that do
not display anything yet wait for the executor. When it has no more work, exactly the indices of the window are displayed. -/
theorem bigList_page {ops : List BOp} {s : Big} (h : Big.init.run ops = some s) :
    s.page.Sublist ((windowAfter ops).indices.map toString) ∧
      (s.queue = [] → s.page = (windowAfter ops).indices.map toString) := by
  obtain ⟨hi, -⟩ := inv_run ops inv_init h
  have hk := hi.keys
  rw [windowAfter, indices_eq, ← hk, Big.keys, List.map_map, Big.page]
  have ht := hi.core.text
  have hq := hi.core.queued
  constructor
  · clear hq hk
    revert ht
    induction s.rows with
    | nil => simp
    | cons t l ih =>
      intro ht
      rw [List.filterMap_cons]
      have ih' := ih fun t' h' => ht t' (by simp [h'])
      cases hd : s.div t with
      | none => exact ih'.trans (List.sublist_cons_self _ _)
      | some d =>
        simp only [Option.map_some, List.map_cons, Function.comp_apply]
        rw [ht t (by simp) d hd]
        exact ih'.cons_cons _
  · intro he
    rw [he] at hq
    clear hk
    revert ht hq
    induction s.rows with
    | nil => simp
    | cons t l ih =>
      intro ht hq
      rw [List.filterMap_cons, List.map_cons, ← ih (fun t' h' => ht t' (by simp [h'])) fun t' h' => hq t' (by simp [h'])]
      cases hd : s.div t with
      | none => exact absurd ((hq t (by simp)).2 hd) (by simp)
      | some d =>
        simp only [Option.map_some, Function.comp_apply]
        rw [ht t (by simp) d hd]

/-- **C79, one place for every element.** Every element that was ever created is in the pool or in use by exactly one item: none is
used twice, none in the pool is in use, and none is lost. -/
theorem bigList_elements {ops : List BOp} {s : Big} (h : Big.init.run ops = some s) :
    (s.free ++ s.held).Perm (List.range s.made) := (inv_run ops inv_init h).1.core.divs

theorem exec_queue (s : Big) : (s.exec 0).queue = s.queue.tail := by
  unfold Big.exec
  cases hq : s.queue with
  | nil => simp [hq]
  | cons t q =>
    simp only [List.getElem?_cons_zero, List.eraseIdx_zero, List.tail_cons]
    split
    · split
      · rfl
      · split <;> rfl
    · split <;> rfl

/-- **C79, the executor catches up.** After any history it is enough that it works through its queue: then the page shows exactly
the indices of the window, and all elements that are not shown are in the pool. -/
theorem bigList_settles {ops : List BOp} {s : Big} (h : Big.init.run ops = some s) :
    ∃ s', Big.init.run (ops ++ List.replicate s.queue.length (.exec 0)) = some s' ∧
      s'.page = (windowAfter ops).indices.map toString ∧ s'.made = s'.free.length + (windowAfter ops).indices.length := by
  have happ : ∀ (ops ops' : List BOp) (s : Big), s.run (ops ++ ops') = (s.run ops).bind fun s => s.run ops' := by
    intro ops ops'
    induction ops with
    | nil => intro s; rfl
    | cons op ops ih =>
      intro s
      simp only [List.cons_append, Big.run, bind, Option.bind]
      cases s.step op with
      | none => rfl
      | some s' => exact ih s'
  have hq : ∀ (n : Nat) (s : Big), s.queue.length = n → ∃ s', s.run (List.replicate n (.exec 0)) = some s' ∧ s'.queue = [] := by
    intro n
    induction n with
    | zero => intro s hs; exact ⟨s, rfl, List.length_eq_zero_iff.1 hs⟩
    | succ n ih =>
      intro s hs
      obtain ⟨s', h1, h2⟩ := ih (s.exec 0) (by rw [exec_queue]; simp [hs])
      exact ⟨s', by rw [List.replicate_succ]; exact h1, h2⟩
  have hw : ∀ (n : Nat) (w : Window), (List.replicate n (BOp.exec 0)).foldl window w = w := by
    intro n
    induction n with
    | zero => intro w; rfl
    | succ n ih => intro w; rw [List.replicate_succ, List.foldl_cons]; exact ih w
  obtain ⟨s', h1, h2⟩ := hq _ s rfl
  have hr : Big.init.run (ops ++ List.replicate s.queue.length (.exec 0)) = some s' := by rw [happ, h]; exact h1
  have hwin : windowAfter (ops ++ List.replicate s.queue.length (.exec 0)) = windowAfter ops := by
    rw [windowAfter, List.foldl_append, hw]; rfl
  refine ⟨s', hr, ?_, ?_⟩
  · rw [(bigList_page hr).2 h2, hwin]
  · have hi := (inv_run _ inv_init hr).1
    have hc := hi.core.count
    have hl : s'.rows.length = (windowAfter ops).indices.length := by
      rw [← hwin, windowAfter, indices_eq, ← hi.keys, Big.keys, List.length_map]
    rw [h2] at hc
    simp only [List.map_nil, List.sum_nil] at hc
    omega

/-- **C79, no more elements than needed.** If the executor runs its tasks in the order in which they were woken, then the number of
elements ever created is at most the size of the largest window so far, however long the user scrolls. -/
theorem bigList_few {ops : List BOp} {s : Big} (h : Big.init.run ops = some s) (hi : ∀ i, .exec i ∈ ops → i = 0) (M : Nat)
    (hM : ∀ p, p <+: ops → (windowAfter p).indices.length ≤ M) : s.made ≤ M :=
  ((inv_run ops inv_init h).2 M (bound_init M) hM hi).1

/-! ## Examples -/

theorem prefixes {P : List BOp → Prop} {ops : List BOp} (h : ∀ n, n ≤ ops.length → P (ops.take n)) (p : List BOp) (hp : p <+: ops) :
    P p := by
  have := h p.length hp.length_le
  rwa [← List.prefix_iff_eq_take.1 hp] at this

/-- scroll so that the window is `a..b` -/
def scroll (a b : Nat) : BOp := .visible ⟨false, false, a, b⟩

/-- One hundred items, three of them visible; the executor runs; then the list is scrolled by two. -/
def scrolled : List BOp :=
  [.setNum 100 ⟨false, false, 0, 3⟩, .exec 0, .exec 0, .exec 0, scroll 2 5, .exec 0, .exec 0, .exec 0, .exec 0]

example : (Big.init.run scrolled).map (fun s => (s.page, s.made, s.queue)) = some (["2", "3", "4"], 3, []) := by decide

example : ∃ s, Big.init.run scrolled = some s ∧ s.made ≤ 3 := by
  refine ⟨_, rfl, bigList_few (ops := scrolled) rfl (by simp [scrolled, scroll]) 3 (prefixes ?_)⟩
  decide

/-- If the executor runs the new tasks before it drops the old ones, more elements are needed. -/
theorem bigList_order_matters : ∃ ops s, Big.init.run ops = some s ∧ s.made = 5 ∧
    ∀ p, p <+: ops → (windowAfter p).indices.length ≤ 3 := by
  refine ⟨[.setNum 100 ⟨false, false, 0, 3⟩, .exec 0, .exec 0, .exec 0, scroll 2 5, .exec 2, .exec 2], _, rfl, by decide,
    prefixes ?_⟩
  decide

/-- The panic: the list shrinks while it is scrolled far down, so that the window is empty, and then grows again. -/
example : Big.init.run [.setNum 100 ⟨false, false, 10, 13⟩, .exec 0, .setNum 5 ⟨false, false, 10, 13⟩, .setNum 100 ⟨false, false, 8, 13⟩] = none :=
  (bigList_panics_iff _).2 ⟨[.setNum 100 ⟨false, false, 10, 13⟩, .exec 0, .setNum 5 ⟨false, false, 10, 13⟩],
    .setNum 100 ⟨false, false, 8, 13⟩, List.prefix_refl _, by simp only [restarts, Window.restarts]; decide⟩

end Verif.Apps.BigList
