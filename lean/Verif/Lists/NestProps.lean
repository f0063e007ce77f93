import Verif.Lists.NestSteps
/-!
# Lists in lists

Any number of lists, rendered anywhere, also as items of each other (C58).
-/
namespace Verif.Lists
open Verif.Dom

/-- Plain nodes. -/
def Forest.plain : List NodeId → Forest
  | [] => .nil
  | n :: ns => .node n (plain ns)

/-- A document without lists. -/
def World.start (d : Dom) : World := ⟨d, fun _ => none⟩

/-- The description of a document without lists. -/
def Page.start (d : Dom) : Page := ⟨fun c => .plain (d.kids c), fun _ => 0⟩

theorem ninv_start {d : Dom} (hp : Proper d) : NInv (World.start d) (Page.start d) := by
  have pl : ∀ l : List NodeId, (Forest.plain l).flat = l ∧ (Forest.plain l).Clean ∧
      ∀ i x y m, ¬ (Forest.plain l).Has i x y m := by
    intro l
    induction l with
    | nil => exact ⟨rfl, trivial, fun _ _ _ _ h => h⟩
    | cons n ns ih =>
      refine ⟨?_, ih.2.1, ih.2.2⟩
      show n :: (Forest.plain ns).flat = _
      rw [ih.1]
  refine ⟨hp, fun c => (pl _).1.symm, fun c => (pl _).2.1, ?_, ?_, ?_⟩
  · intro c i x y m h; exact absurd h ((pl _).2.2 i x y m)
  · intro i L h; cases h
  · intro i j L L' h; cases h

theorem ninv_run {w : World} {F : Page} (h : NInv w F) (ops : List NOp) (ha : NAllowedRun w F ops) :
    ∃ w' as, nrun w ops = some (w', as) ∧ NInv w' (nspecRun F ops) := by
  induction ops generalizing w F with
  | nil => exact ⟨w, [], rfl, h⟩
  | cons op ops ih =>
    obtain ⟨h1, h2⟩ := ha
    obtain ⟨w1, a, e1, i1⟩ := ninv_step h h1
    obtain ⟨w2, as, e2, i2⟩ := ih i1 (h2 w1 a e1)
    exact ⟨w2, a :: as, by simp only [nrun, e1, e2, bind, Option.bind, pure], i2⟩

/-- C58. In every history the children of every node of the document are exactly what the plain
description says, and no call panics. Partial: only calls on lists that are still children of the node
in which they were rendered are covered; see `nested_moved_panics` for the others. -/
theorem lists_nested_partial {d : Dom} (hp : Proper d) (ops : List NOp)
    (ha : NAllowedRun (World.start d) (Page.start d) ops) :
    ∃ w as, nrun (World.start d) ops = some (w, as) ∧
      ∀ c, w.dom.kids c = ((nspecRun (Page.start d) ops).at_ c).flat := by
  obtain ⟨w, as, e, i⟩ := ninv_run (ninv_start hp) ops ha
  exact ⟨w, as, e, i.kids⟩

/-- C58. A call on a list changes what is between the markers of this list and nothing else in the
document, whatever it is rendered in and whatever is rendered in it. It answers whether the key was in
the list. -/
theorem nested_call {d : Dom} (hp : Proper d) (ops : List NOp)
    (ha : NAllowedRun (World.start d) (Page.start d) ops) {w : World} {as : List (Option Bool)}
    (hr : nrun (World.start d) ops = some (w, as)) {i : Nat} {L : DynList} {f : Forest} {c : Call}
    (hL : w.lists i = some L)
    (hf : ((nspecRun (Page.start d) ops).at_ L.container).Has i L.listStart L.listEnd f) (hc : c.ok w.dom f) :
    ∃ w' A B, nstep w (.call i c) = some (w', c.answer f) ∧
      w.dom.kids L.container = A ++ L.listStart :: (f.flat ++ L.listEnd :: B) ∧
      w'.dom.kids L.container = A ++ L.listStart :: ((c.spec f).flat ++ L.listEnd :: B) ∧
      (∀ x, x ≠ L.container → w'.dom.kids x = w.dom.kids x) ∧ ∀ j, j ≠ i → w'.lists j = w.lists j := by
  obtain ⟨w1, as1, e, h⟩ := ninv_run (ninv_start hp) ops ha
  rw [hr] at e
  cases e
  obtain ⟨L1, f1, w', hL1, hf1, e1, h'⟩ := ninv_call (c := c) h ⟨L, f, hL, hf, hc⟩
  rw [hL] at hL1
  cases hL1
  obtain rfl := h.inner hf1 hf
  obtain ⟨A, B, g1, g2, -, -⟩ := h.frame hf
  refine ⟨w', A, B, e1, ?_, ?_, ?_, ?_⟩
  · rw [h.kids, g1]
  · rw [h'.kids]; exact g2 _
  · intro x hx
    rw [h'.kids, h.kids]
    show (((nspecRun (Page.start d) ops).at_ x).atList i c.spec).flat = _
    rw [Forest.atList_none]
    intro a b m hm
    exact hx (h.one hm hf).1
  · intro j hj
    simp only [nstep, hL, Option.bind_eq_bind, Option.bind_some, Option.bind_eq_some_iff, pure, Option.some.injEq,
      Prod.mk.injEq] at e1
    obtain ⟨r, -, rfl, -⟩ := e1
    exact if_neg hj

/-- The calls that change the document, or ask for a key that is not there. -/
def Call.Writes (f : Forest) : Call → Prop
  | .insert _ _ _ _ => True
  | .remove k => k ∈ f.keys
  | .moveBefore _ _ => True
  | .swap a b => a ≠ b ∨ a ∉ f.keys
  | .retain p => ∃ k ∈ f.keys, p k = false

theorem get_mem {L : DynList} {k : Key} {x : Stored} (h : L.get k = some x) : (k, x) ∈ L.items := by
  unfold DynList.get at h
  rw [Option.map_eq_some_iff] at h
  obtain ⟨e, h1, h2⟩ := h
  have h3 := List.find?_some h1
  have h4 := List.mem_of_find?_eq_some h1
  simp only [beq_iff_eq] at h3
  rw [← h3, ← h2]; exact h4

theorem entry_mem {f : Forest} {k : Key} {x : Stored} (h : (k, x) ∈ f.entries) :
    x.start ∈ f.flat ∧ x.stop ∈ f.flat := by
  induction f with
  | nil => cases h
  | node n r ih => have := ih h; simp [Forest.flat, this]
  | item k' a b m r _ ih =>
    simp only [Forest.entries, List.mem_cons] at h
    rcases h with h | h
    · cases h; simp [Forest.flat]
    · have := ih h; simp [Forest.flat, this]
  | list i a b m r _ ih => have := ih h; simp [Forest.flat, this]

theorem insert_absent {d : Dom} {c n r : NodeId} (h : r ∉ d.kids c) : d.insertBefore c n (some r) = none := by
  simp only [Dom.insertBefore, if_neg h]

theorem moveNodes_absent {d : Dom} {c x y r : NodeId} (h : r ∉ d.kids c) :
    moveNodes d c c x y (some r) = none := by
  simp only [moveNodes, moveLoop, insert_absent h, bind, Option.bind]

theorem removeMarkers_absent {d : Dom} {c : NodeId} {x : Stored} (h : x.start ∉ d.kids c) :
    removeMarkers d c x = none := by
  simp only [removeMarkers, Dom.removeChild, if_neg h, bind, Option.bind]

theorem retain_absent {d : Dom} {c : NodeId} {keep : Key → Bool} {es : List (Key × Stored)}
    (h : ∀ e ∈ es, e.2.start ∉ d.kids c) :
    retainLoop c keep es d = none ↔ ∃ e ∈ es, keep e.1 = false := by
  induction es with
  | nil => simp [retainLoop]
  | cons e es ih =>
    simp only [retainLoop]
    by_cases hk : keep e.1 = true
    · rw [if_pos hk, ih (fun e he => h e (by simp [he]))]
      simp [hk]
    · rw [if_neg hk, removeMarkers_absent (h e (by simp))]
      simp only [bind, Option.bind, true_iff]
      exact ⟨e, by simp, by simpa using hk⟩

theorem moved_panics {w : World} {F : Page} (h : NInv w F) {i : Nat} {L : DynList} {c : NodeId} {f : Forest}
    (hL : w.lists i = some L) (hf : (F.at_ c).Has i L.listStart L.listEnd f) (hc : c ≠ L.container) (q : Call) :
    nstep w (.call i q) = none ↔ q.Writes f := by
  obtain ⟨L', hL', -, -, hperm, hkeys⟩ := h.known _ _ _ _ _ hf
  rw [hL] at hL'
  cases hL'
  obtain ⟨A, B, hfl, -, -, -⟩ := h.frame hf
  have habs : ∀ n, n ∈ f.flat ∨ n = L.listEnd → n ∉ w.dom.kids L.container := by
    intro n hn hn'
    refine hc (h.proper.2 c L.container n ?_ hn')
    rw [h.kids, hfl]
    rcases hn with hn | hn <;> simp [hn]
  have hst : ∀ {k x}, L.get k = some x → x.start ∉ w.dom.kids L.container := fun hg =>
    habs _ (Or.inl (entry_mem (hperm.mem_iff.1 (get_mem hg))).1)
  have haf : ∀ {b r}, L.after b = some r → r ∉ w.dom.kids L.container := by
    intro b r hr
    cases b with
    | none => simp only [DynList.after, Option.some.injEq] at hr; exact habs _ (Or.inr hr.symm)
    | some k =>
      simp only [DynList.after, Option.map_eq_some_iff] at hr
      obtain ⟨x, h1, rfl⟩ := hr
      exact hst h1
  have hget : ∀ k, (L.get k).isSome = true ↔ k ∈ f.keys := by
    intro k
    constructor
    · intro hk
      obtain ⟨x, hx⟩ := Option.isSome_iff_exists.1 hk
      exact List.mem_map_of_mem (f := (·.1)) (hperm.mem_iff.1 (get_mem hx))
    · intro hk
      obtain ⟨e, he, rfl⟩ := List.mem_map.1 hk
      rw [get_entries hperm hkeys (k := e.1) (x := e.2) he]; rfl
  have hstep : nstep w (.call i q) = none ↔ q.run w.dom L = none := by
    simp only [nstep, hL, bind, Option.bind, pure]
    cases q.run w.dom L <;> simp
  rw [hstep]
  cases q with
  | insert k b x y =>
    simp only [Call.run, Option.map_eq_none_iff, Call.Writes, iff_true, Lists.insert]
    cases ha : L.after b with
    | none => rfl
    | some r => simp only [bind, Option.bind, insert_absent (haf ha)]
  | remove k =>
    simp only [Call.run, Option.map_eq_none_iff, Call.Writes, Lists.remove]
    cases hg : L.get k with
    | none =>
      have : k ∉ f.keys := by rw [← hget, hg]; simp
      simp [this]
    | some x =>
      have : k ∈ f.keys := by rw [← hget, hg]; simp
      simp [this, removeMarkers_absent (hst hg)]
  | moveBefore k b =>
    simp only [Call.run, Option.map_eq_none_iff, Call.Writes, iff_true, Lists.moveBefore]
    cases ha : L.after b with
    | none => rfl
    | some r =>
      cases hg : L.get k with
      | none => rfl
      | some x => simp only [bind, Option.bind, moveNodes_absent (haf ha)]
  | swap a b =>
    simp only [Call.run, Option.map_eq_none_iff, Call.Writes, Lists.swap]
    cases hga : L.get a with
    | none =>
      have : a ∉ f.keys := by rw [← hget, hga]; simp
      simp [this]
    | some x =>
      have hka : a ∈ f.keys := by rw [← hget, hga]; simp
      by_cases hab : a = b
      · subst hab
        simp [hga, hka]
      · cases hgb : L.get b with
        | none => simp [hab]
        | some y => simp [hab, moveNodes_absent (hst hgb)]
  | retain p =>
    simp only [Call.run, Option.map_eq_none_iff, Call.Writes, Lists.retain]
    have hl := retain_absent (d := w.dom) (c := L.container) (keep := p) (es := L.items) (by
      intro e he
      exact habs _ (Or.inl (entry_mem (k := e.1) (x := e.2) (hperm.mem_iff.1 he)).1))
    have hk : (∃ e ∈ L.items, p e.1 = false) ↔ ∃ k ∈ f.keys, p k = false := by
      constructor
      · rintro ⟨e, he, hp⟩
        exact ⟨e.1, List.mem_map_of_mem (f := (·.1)) (hperm.mem_iff.1 he), hp⟩
      · rintro ⟨k, hk, hp⟩
        obtain ⟨e, he, rfl⟩ := List.mem_map.1 hk
        exact ⟨e, hperm.mem_iff.2 he, hp⟩
    rw [← hk, ← hl]
    cases retainLoop L.container p L.items w.dom <;> simp

/-- C58, what is wrong. A list that is not a child of the node in which it was rendered any more panics
on every call that would change it. -/
theorem nested_moved_panics {d : Dom} (hp : Proper d) (ops : List NOp)
    (ha : NAllowedRun (World.start d) (Page.start d) ops) {w : World} {as : List (Option Bool)}
    (hr : nrun (World.start d) ops = some (w, as)) {i : Nat} {L : DynList} {c : NodeId} {f : Forest}
    (hL : w.lists i = some L)
    (hf : ((nspecRun (Page.start d) ops).at_ c).Has i L.listStart L.listEnd f) (hc : c ≠ L.container) (q : Call) :
    nstep w (.call i q) = none ↔ q.Writes f := by
  obtain ⟨w1, as1, e, h⟩ := ninv_run (ninv_start hp) ops ha
  rw [hr] at e
  cases e
  exact moved_panics h hL hf hc q

/-- C58, what is wrong. The list `i` is rendered in an item of the list `j`. When the future that renders
`j` is dropped, `i` cannot be changed any more. -/
theorem nested_outer_dropped {d : Dom} (hp : Proper d) (ops : List NOp)
    (ha : NAllowedRun (World.start d) (Page.start d) ops) {w w' : World} {as : List (Option Bool)}
    (hr : nrun (World.start d) ops = some (w, as)) {i j : Nat} {Li Lj : DynList} {f g : Forest}
    (hi : w.lists i = some Li) (hj : w.lists j = some Lj)
    (hg : ((nspecRun (Page.start d) ops).at_ Lj.container).Has j Lj.listStart Lj.listEnd g)
    (hf : g.Has i Li.listStart Li.listEnd f) (hc : Li.container = Lj.container) (hn : Lj.container ≠ Lj.frag)
    {a : Option Bool} (hd : nstep w (.unrender j Lj.container) = some (w', a)) (q : Call) :
    nstep w' (.call i q) = none ↔ q.Writes f := by
  obtain ⟨w1, as1, e, h⟩ := ninv_run (ninv_start hp) ops ha
  rw [hr] at e
  cases e
  have hmem : Lj.listStart ∈ w.dom.kids Lj.container := by rw [h.kids]; exact (Forest.has_mem hg).1
  obtain ⟨w2, e2, h2⟩ := ninv_unrender h ⟨Lj, hj, hn, hmem⟩
  rw [e2] at hd
  cases hd
  have hij : i ≠ j := by
    rintro rfl
    exact h.not_self hg hf
  obtain ⟨g1, -, -, -⟩ := h.here j Lj hj
  obtain ⟨-, -, -, -, -, g4⟩ := h.frame hg
  refine moved_panics h2 (L := Li) (c := Lj.frag) (f := f) ?_ ?_ ?_ q
  · simp only [nstep, hj, Option.bind_eq_bind, Option.bind_some, Option.bind_eq_some_iff, pure, Option.some.injEq,
      Prod.mk.injEq] at e2
    obtain ⟨r, -, rfl, -⟩ := e2
    show (if i = j then _ else w.lists i) = _
    rw [if_neg hij]; exact hi
  · show ((if Lj.frag = (nspecRun (Page.start d) ops).frag j then
      ((nspecRun (Page.start d) ops).at_ Lj.container).pickList j else _ : Forest)).Has _ _ _ _
    rw [if_pos g1.symm, g4]
    exact Or.inr (Or.inl hf)
  · rw [hc]; exact fun e => hn e.symm

/-- C58, what is wrong. It stays like this if `j` is then rendered in another node than before. -/
theorem nested_outer_elsewhere {d : Dom} (hp : Proper d) (ops : List NOp)
    (ha : NAllowedRun (World.start d) (Page.start d) ops) {w w1 w2 : World} {as : List (Option Bool)}
    (hr : nrun (World.start d) ops = some (w, as)) {i j : Nat} {Li Lj : DynList} {f g : Forest}
    (hi : w.lists i = some Li) (hj : w.lists j = some Lj)
    (hg : ((nspecRun (Page.start d) ops).at_ Lj.container).Has j Lj.listStart Lj.listEnd g)
    (hf : g.Has i Li.listStart Li.listEnd f) (hc : Li.container = Lj.container) (hn : Lj.container ≠ Lj.frag)
    {p : NodeId} {r : Option NodeId} {a b : Option Bool} (hd : nstep w (.unrender j Lj.container) = some (w1, a))
    (hp' : ∀ k L, w.lists k = some L → L.frag ≠ p) (hpr : ∀ n, r = some n → n ∈ w1.dom.kids p)
    (hne : p ≠ Lj.container) (hd2 : nstep w1 (.render j p r) = some (w2, b)) (q : Call) :
    nstep w2 (.call i q) = none ↔ q.Writes f := by
  obtain ⟨w0, as0, e, h⟩ := ninv_run (ninv_start hp) ops ha
  rw [hr] at e
  cases e
  have hmem : Lj.listStart ∈ w.dom.kids Lj.container := by rw [h.kids]; exact (Forest.has_mem hg).1
  obtain ⟨w1', e1, h1⟩ := ninv_unrender h ⟨Lj, hj, hn, hmem⟩
  rw [hd] at e1
  cases e1
  have hij : i ≠ j := by
    rintro rfl
    exact h.not_self hg hf
  obtain ⟨g1, -, -, -⟩ := h.here j Lj hj
  obtain ⟨-, -, -, -, -, g4⟩ := h.frame hg
  have hw1 : w1.lists = (w.set w1.dom j { Lj with container := Lj.frag }).lists := by
    simp only [nstep, unrenderAt, hj, Option.bind_eq_bind, Option.bind_some, Option.bind_eq_some_iff, pure,
      Option.some.injEq, Prod.mk.injEq] at hd
    obtain ⟨_, ⟨_, _, rfl⟩, rfl, -⟩ := hd
    rfl
  have hj1 : w1.lists j = some { Lj with container := Lj.frag } := by
    rw [hw1]; exact if_pos rfl
  obtain ⟨w2', e2, h2⟩ := ninv_render (p := p) (a := r) h1 ⟨_, hj1, rfl, (by
    intro k L hk
    rw [hw1] at hk
    rcases set_old hk with ⟨rfl, rfl⟩ | ⟨_, hk⟩
    · exact hp' _ Lj hj
    · exact hp' _ _ hk), hpr⟩
  rw [hd2] at e2
  cases e2
  have hfrag : (nspec (nspecRun (Page.start d) ops) (.unrender j Lj.container)).at_ Lj.frag =
      .list j Lj.listStart Lj.listEnd g .nil := by
    show (if Lj.frag = (nspecRun (Page.start d) ops).frag j then
      ((nspecRun (Page.start d) ops).at_ Lj.container).pickList j else _ : Forest) = _
    rw [if_pos g1.symm, g4]
  have hpf : p ≠ (nspecRun (Page.start d) ops).frag j := by rw [g1]; exact fun e => hp' j Lj hj e.symm
  refine moved_panics h2 (L := Li) (c := p) (f := f) ?_ ?_ ?_ q
  · simp only [nstep, hj1, Option.bind_eq_bind, Option.bind_some, Option.bind_eq_some_iff, pure, Option.some.injEq,
      Prod.mk.injEq] at hd2
    obtain ⟨_, -, rfl, -⟩ := hd2
    show (if i = j then _ else w1.lists i) = _
    rw [if_neg hij, hw1]
    exact (if_neg hij).trans hi
  · show (if p = (nspecRun (Page.start d) ops).frag j then _ else if p = p then Forest.place
      ((nspec (nspecRun (Page.start d) ops) (.unrender j Lj.container)).at_ ((nspecRun (Page.start d) ops).frag j)) r
      ((nspec (nspecRun (Page.start d) ops) (.unrender j Lj.container)).at_ p) else _ : Forest).Has _ _ _ _
    rw [if_neg hpf, if_pos rfl, g1, hfrag]
    exact place_put (Or.inr (Or.inl hf)) (fun n hn => by rw [← h1.kids]; exact hpr n hn)
  · rw [hc]; exact hne

end Verif.Lists
