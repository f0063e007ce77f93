import Verif.Whole.Steps
/-! # Calls of lists -/
namespace Verif.Whole
open Verif.Dom Verif.Drop Verif.Lists Verif.Lists.Forest Verif.Tree

section
variable {r : Nat} {l : Lay} {D : Display} {F : Page} {W : Whole} {O : Orders}

theorem cancel_mem {i : Nat} {L : DynList} {ts : List Task} {t' : Task} (h : t' ∈ cancel i L ts) :
    ∃ t ∈ ts, t'.list = t.list ∧ t'.stop = t.stop ∧ t'.addr = t.addr ∧ t'.fut = t.fut ∧
      (t'.live = (t.live && !decide (t.list = i ∧ t.stop ∉ L.items.map (·.2.stop)))) := by
  obtain ⟨t, ht, rfl⟩ := List.mem_map.1 h
  refine ⟨t, ht, ?_⟩
  split
  · rename_i h1
    exact ⟨rfl, rfl, rfl, rfl, by rw [decide_eq_true h1]; simp⟩
  · rename_i h1
    exact ⟨rfl, rfl, rfl, rfl, by rw [decide_eq_false h1]; simp⟩

theorem cancel_comps (i : Nat) (L : DynList) (ts : List Task) :
    (cancel i L ts).map (fun t => (t.stop, t.fut)) = ts.map fun t => (t.stop, t.fut) := by
  simp only [cancel, List.map_map]
  apply List.map_congr_left
  intro t _
  simp only [Function.comp_apply]
  split <;> rfl

open Classical in
theorem WInv.call_list (b : Build) (h : WInv r l D F W O) {i : Nat} {c : LCall}
    (ha : (Event.call i c).Allowed W O) :
    ∃ W' l' D' F', W.step b (.call i c) = some W' ∧ WInv r l' D' F' W' (O.step W.next (.call i c)) := by
  obtain ⟨⟨L, hL⟩, hok, hins⟩ := ha
  have hd : W.dyn i = some L.list := by simp [Whole.dyn, hL]
  obtain ⟨d', L', D', F', ans, hr, hcon, hfrag, hI, hP, hs, hfo⟩ := h.paged.call h.inv hd (n := W.next) hok (by
    intro k b' a s e
    refine ⟨fun x => ⟨h.not_kid (Nat.le_refl _) x, h.not_kid (Nat.le_succ _) x⟩, ?_⟩
    intro x hx
    have := (h.glob.group x hx).2
    om)
  have hkeys := h.paged.row_keys hd
  -- the first unused number afterwards
  obtain ⟨new, n', hnew⟩ : ∃ new n', c.newTasks i W.next = (new, n') := ⟨_, _, rfl⟩
  have hn' : W.next ≤ n' ∧ ((added c).isSome → W.next + 2 ≤ n') := by
    cases c with
    | insert k b' a s =>
      simp only [LCall.newTasks, Prod.mk.injEq] at hnew
      have := (Shape.make_fresh s (W.next + 2) hins.1).le
      rw [hnew.2] at this
      exact ⟨by om, fun _ => by om⟩
    | _ =>
      simp only [LCall.newTasks, Prod.mk.injEq] at hnew
      rw [← hnew.2]
      exact ⟨Nat.le_refl _, fun h => by simp [added] at h⟩
  -- the new task
  have hnt : ∀ t ∈ new, t.list = i ∧ t.stop = W.next + 1 ∧ t.live = true ∧ t.addr ∉ t.fut.addrs ∧
      ∃ k, added c = some k := by
    cases c with
    | insert k b' a s =>
      simp only [LCall.newTasks, Prod.mk.injEq] at hnew
      rw [← hnew.1]
      intro t ht
      rw [List.mem_singleton] at ht
      subst ht
      refine ⟨rfl, rfl, rfl, ?_, k, rfl⟩
      show a ∉ (s.make _).1.addrs
      rw [make_addrs]; exact hins.2
    | _ =>
      simp only [LCall.newTasks, Prod.mk.injEq] at hnew
      rw [← hnew.1]
      intro t ht; cases ht
  have hfo' : ∀ p x, (p, x) ∈ D'.foreign → ((∃ p', (p', x) ∈ D.foreign) ∨ W.next ≤ x) ∧
      (x < W.next ∨ ((added c).isSome ∧ x < W.next + 2)) ∧ p < W.next := by
    intro p x hx
    rcases hfo p x hx with ⟨p', h1, rfl⟩ | ⟨rfl, h1, h2⟩
    · exact ⟨.inl ⟨_, h1⟩, .inl (h.glob.foreign _ x h1), h.low _ x h1⟩
    · exact ⟨.inr (by om), .inr ⟨h1, by om⟩, h.at_container hL⟩
  let W' : Whole := { (W.withState ⟨⟨⟨W.st.groups, d'⟩, none⟩, n'⟩).setList i ⟨L', L.ctx⟩ with tasks := new ++ cancel i L' W.tasks }
  have hcomps' : W'.comps = (W.app.group, W.app.fut) ::
      (new.map (fun t => (t.stop, t.fut)) ++ W.tasks.map fun t => (t.stop, t.fut)) := by
    show (W.app.group, W.app.fut) :: (new ++ cancel i L' W.tasks).map _ = _
    rw [List.map_append, cancel_comps]
  have hC : Comps r n' D' W'.comps := by
    have h1 := h.comps.keep (n' := W.next) (Nat.le_refl _) hs (fun c x hx => (hfo' c x hx).1)
    rw [hcomps']
    cases c with
    | insert k b' a s =>
      simp only [LCall.newTasks, Prod.mk.injEq] at hnew
      have hf := Shape.make_fresh s (W.next + 2) hins.1
      rw [hnew.2] at hf
      have h2 := h1.add h.glob.low (g := W.next + 1) (k := W.next + 2) (Nat.le_succ _) (Nat.lt_succ_self _) hf (by
        rw [hs]; exact fun x hx => ⟨h.glob.node x hx, (h.glob.group x hx).2⟩) (by
        intro p x hx
        rcases (hfo' p x hx).2.1 with h3 | h3 <;> om)
      have hp : ((W.next + 1, (s.make (W.next + 2)).1) :: W.comps).Perm ((W.app.group, W.app.fut) ::
          (new.map (fun t => (t.stop, t.fut)) ++ W.tasks.map fun t => (t.stop, t.fut))) := by
        rw [← hnew.1]
        exact List.Perm.swap _ _ _
      exact h2.of_mem ((hp.map _).nodup_iff.1 h2.keys) (fun p hm => hp.mem_iff.2 hm)
    | _ =>
      simp only [LCall.newTasks, Prod.mk.injEq] at hnew
      rw [← hnew.1, ← hnew.2]
      exact h1
  have hlists : ∀ j, W'.lists j = if j = i then some ⟨L', L.ctx⟩ else W.lists j := fun j => rfl
  have hW' : W'.dyn = fun j => if j = i then some L' else W.dyn j := by
    funext j
    simp only [Whole.dyn, hlists]
    split <;> rfl
  have hperm : L'.items.Perm (rowStep ⟨W.next, W.next + 1⟩ (O i) c) := by
    have := hP.items (i := i) (L := L') (by simp)
    simpa using this
  have hlayold : ∀ g, g < W.next → (callLay l i W.next c (O i) L.list.container).at_ g = l.at_ g ∧
      (callLay l i W.next c (O i) L.list.container).lab g =
        (match l.lab g with | .item y => if Out c (O i) y then .list i else .item y | κ => κ) := by
    intro g hg
    have : ¬ ((added c).isSome ∧ g = W.next + 1) := by rintro ⟨-, e⟩; om
    exact ⟨if_neg this, if_neg this⟩
  -- what becomes of a task
  have hout : ∀ t ∈ W.tasks, t.live = true → t.list = i → ∀ k s, (k, ⟨s, t.stop⟩) ∈ O i →
      ((t.stop ∉ L'.items.map (·.2.stop)) ↔ gone c k = true) ∧ (Out c (O i) t.stop ↔ gone c k = true) := by
    intro t ht hl e k s hks
    have hlt : t.stop < W.next := (h.comps.each _ (mem_comps.2 (.inr ⟨t, ht, rfl⟩))).gLt.2
    constructor
    · have : t.stop ∈ L'.items.map (·.2.stop) ↔ gone c k = false := by
        rw [(hperm.map _).mem_iff]
        constructor
        · intro hm
          obtain ⟨⟨k', s', y⟩, hm, e'⟩ := List.mem_map.1 hm
          simp only at e'
          subst e'
          rcases (mem_rowStep hkeys hok _).1 hm with ⟨h1, h2⟩ | ⟨h1, -⟩
          · obtain ⟨-, rfl, -⟩ := h.paged.row_stop hd hd h1 hks
            exact h2
          · have : t.stop = W.next + 1 := congrArg Stored.stop h1
            om
        · intro hg
          exact List.mem_map.2 ⟨_, (mem_rowStep hkeys hok _).2 (.inl ⟨hks, hg⟩), rfl⟩
      rw [this]; simp
    · constructor
      · rintro ⟨k', s', h1, h2⟩
        obtain ⟨-, rfl, -⟩ := h.paged.row_stop hd hd h1 hks
        exact h2
      · exact fun hg => ⟨k, s, hks, hg⟩
  have hother : ∀ t ∈ W.tasks, t.live = true → t.list ≠ i → ¬ ∃ k s, (k, ⟨s, t.stop⟩) ∈ O i := by
    rintro t ht hl hne ⟨k, s, h1⟩
    obtain ⟨-, Lt, hLt, -⟩ := h.tasks t ht
    obtain ⟨k', s', h2⟩ := h.live t ht hl
    exact hne (h.paged.row_stop (dyn_some.2 ⟨Lt, hLt, rfl⟩) hd h2 h1).1
  have hlive' : ∀ t ∈ W.tasks, (t.live && !decide (t.list = i ∧ t.stop ∉ L'.items.map (·.2.stop))) = true →
      t.live = true ∧ ¬ (t.list = i ∧ t.stop ∉ L'.items.map (·.2.stop)) := by
    intro t _ h1
    rw [Bool.and_eq_true, Bool.not_eq_true', decide_eq_false_iff_not] at h1
    exact h1
  have hlabtask : ∀ t ∈ W.tasks, (callLay l i W.next c (O i) L.list.container).lab t.stop =
      (if (t.live && !decide (t.list = i ∧ t.stop ∉ L'.items.map (·.2.stop))) = true then .item t.stop else .list t.list) := by
    intro t ht
    have hlt : t.stop < W.next := (h.comps.each _ (mem_comps.2 (.inr ⟨t, ht, rfl⟩))).gLt.2
    obtain ⟨-, Lt, hLt, h1, h2⟩ := h.tasks t ht
    rw [(hlayold _ hlt).2, h2]
    cases hl : t.live with
    | false => simp
    | true =>
      simp only [if_true, Bool.true_and]
      obtain ⟨k, s, hks⟩ := h.live t ht hl
      by_cases e : t.list = i
      · rw [e] at hks
        obtain ⟨h3, h4⟩ := hout t ht hl e k s hks
        by_cases hg : gone c k = true
        · rw [if_pos (h4.2 hg), if_neg (by simp [e]; simpa using h3.2 hg), e]
        · rw [if_neg (fun h => hg (h4.1 h)), if_pos]
          rw [Bool.not_eq_true', decide_eq_false_iff_not]
          rintro ⟨-, h5⟩
          exact hg (h3.1 h5)
      · rw [if_neg, if_pos (by simp [e])]
        rintro ⟨k', s', h5, -⟩
        exact hother t ht hl e ⟨k', s', h5⟩
  have hO : ∀ j, O.step W.next (.call i c) j = if j = i then rowStep ⟨W.next, W.next + 1⟩ (O i) c else O j :=
    fun j => rfl
  refine ⟨W', callLay l i W.next c (O i) L.list.container, D', F', ?_, ?_⟩
  · simp only [Whole.step, hL, Option.bind_eq_bind, Option.bind_some]
    rw [show (c.call W.next).run W.dom L.list = _ from hr, h.flag]
    simp only [Option.bind_some, hnew]
    rfl
  · refine ⟨h.group, h.node, rfl, hI, by rw [hW']; exact hP, ?_, hC, ?_, ?_, ?_, ?_, ?_, ?_, ?_, ?_⟩
    · refine global_of_plain h.glob hn'.1 hs ?_ ?_
      · intro p x hx
        show x < n'
        rcases (hfo' p x hx).2.1 with h3 | ⟨h3, h4⟩
        · have := hn'.1; om
        · have := hn'.2 h3; om
      · intro g hg
        have hg : n' ≤ g := hg
        obtain ⟨h1, h2⟩ := h.new_place (Nat.le_trans hn'.1 hg)
        have : ¬ ((added c).isSome ∧ g = W.next + 1) := by
          rintro ⟨h3, e⟩; have := hn'.2 h3; om
        refine ⟨(if_neg this).trans h1, (if_neg this).trans ?_⟩
        rw [h2]
    · have hlt : r < W.next := by
        have := (h.comps.each _ (mem_comps.2 (.inl rfl))).gLt.2
        rw [← h.group]; exact this
      obtain ⟨h1, h2⟩ := hlayold r hlt
      refine ⟨h1.trans h.root.1, h2.trans ?_⟩
      rw [h.root.2]
    · intro g hg
      have hg2 : g ∉ W.comps.map (·.1) := by
        intro hm
        apply hg
        rw [hcomps']
        simp only [Whole.comps, List.map_cons, List.map_map, List.mem_cons, List.map_append, List.mem_append] at hm ⊢
        rcases hm with hm | hm
        · exact .inl hm
        · exact .inr (.inr hm)
      obtain ⟨h1, h2⟩ := h.plain g hg2
      have : ¬ ((added c).isSome ∧ g = W.next + 1) := by
        rintro ⟨h3, rfl⟩
        apply hg
        rw [hcomps']
        cases c with
        | insert k b' a s =>
          simp only [LCall.newTasks, Prod.mk.injEq] at hnew
          rw [← hnew.1]; simp
        | _ => simp [added] at h3
      refine ⟨(if_neg this).trans h1, (if_neg this).trans ?_⟩
      rw [h2]
    · intro t' ht'
      rcases List.mem_append.1 ht' with ht' | ht'
      · obtain ⟨h1, h2, h3, h4, k, h5⟩ := hnt t' ht'
        refine ⟨h4, ⟨L', L.ctx⟩, by rw [hlists, if_pos h1], ?_, ?_⟩
        · rw [h2, hcon]
          exact if_pos ⟨by simp [h5], rfl⟩
        · rw [h2, if_pos h3]
          exact if_pos ⟨by simp [h5], rfl⟩
      · obtain ⟨t, ht, h1, h2, h3, h4, h5⟩ := cancel_mem ht'
        have hlt : t.stop < W.next := (h.comps.each _ (mem_comps.2 (.inr ⟨t, ht, rfl⟩))).gLt.2
        obtain ⟨h6, Lt, hLt, h7, h8⟩ := h.tasks t ht
        rw [h1, h2, h3, h4, h5, hlabtask t ht, (hlayold _ hlt).1, hlists]
        refine ⟨h6, ?_⟩
        by_cases e : t.list = i
        · rw [e, hL] at hLt
          cases hLt
          exact ⟨⟨L', L.ctx⟩, if_pos e, h7.trans hcon.symm, rfl⟩
        · exact ⟨Lt, by rw [if_neg e]; exact hLt, h7, rfl⟩
    · intro t' ht' hl'
      rcases List.mem_append.1 ht' with ht' | ht'
      · obtain ⟨h1, h2, h3, h4, k, h5⟩ := hnt t' ht'
        rw [h1, h2, hO, if_pos rfl]
        exact ⟨k, W.next, (mem_rowStep hkeys hok _).2 (.inr ⟨rfl, h5⟩)⟩
      · obtain ⟨t, ht, h1, h2, h3, h4, h5⟩ := cancel_mem ht'
        rw [h5] at hl'
        obtain ⟨h6, h7⟩ := hlive' t ht hl'
        rw [h1, h2, hO]
        obtain ⟨k, s, hks⟩ := h.live t ht h6
        by_cases e : t.list = i
        · rw [if_pos e]
          rw [e] at hks
          obtain ⟨h8, -⟩ := hout t ht h6 e k s hks
          refine ⟨k, s, (mem_rowStep hkeys hok _).2 (.inl ⟨hks, ?_⟩)⟩
          cases hg : gone c k with
          | false => rfl
          | true => exact absurd ⟨e, h8.2 hg⟩ h7
        · rw [if_neg e]; exact ⟨k, s, hks⟩
    · intro t' ht' hl' j k s hj hm
      rcases List.mem_append.1 ht' with ht' | ht'
      · obtain ⟨h1, h2, h3, h4, k, h5⟩ := hnt t' ht'
        rw [h3] at hl'; cases hl'
      · obtain ⟨t, ht, h1, h2, h3, h4, h5⟩ := cancel_mem ht'
        have hlt : t.stop < W.next := (h.comps.each _ (mem_comps.2 (.inr ⟨t, ht, rfl⟩))).gLt.2
        rw [h2, hO] at hm
        rw [hlists] at hj
        rw [h5] at hl'
        cases hl : t.live with
        | false =>
          by_cases e : j = i
          · rw [if_pos e] at hm
            rcases (mem_rowStep hkeys hok _).1 hm with ⟨h6, -⟩ | ⟨h6, -⟩
            · exact h.dead t ht hl i k s (by rw [hL]; simp) h6
            · have : t.stop = W.next + 1 := congrArg Stored.stop h6
              om
          · rw [if_neg e] at hm hj
            exact h.dead t ht hl j k s hj hm
        | true =>
          rw [hl, Bool.true_and, Bool.not_eq_false', decide_eq_true_eq] at hl'
          obtain ⟨e', h7⟩ := hl'
          by_cases e : j = i
          · rw [if_pos e] at hm
            apply h7
            rw [(hperm.map _).mem_iff]
            exact List.mem_map.2 ⟨_, hm, rfl⟩
          · rw [if_neg e] at hm hj
            obtain ⟨k', s', hks⟩ := h.live t ht hl
            rw [e'] at hks
            cases hLj : W.lists j with
            | none => exact hj hLj
            | some Lj => exact e (h.paged.row_stop (dyn_some.2 ⟨Lj, hLj, rfl⟩) hd hm hks).1
    · intro j Lj hLj
      have hids : ∀ fr : NodeId, fr < W.next → (∀ p ∈ W.comps, fr ∉ ids p.2) → ∀ p ∈ W'.comps, fr ∉ ids p.2 := by
        intro fr hfr hp p hp'
        rw [hcomps'] at hp'
        simp only [List.mem_cons, List.mem_append, List.mem_map] at hp'
        rcases hp' with rfl | ⟨t, ht, rfl⟩ | ⟨t, ht, rfl⟩
        · exact hp _ (mem_comps.2 (.inl rfl))
        · intro hi
          cases c with
          | insert k b' a s =>
            simp only [LCall.newTasks, Prod.mk.injEq] at hnew
            rw [← hnew.1, List.mem_singleton] at ht
            subst ht
            have := (Shape.make_fresh s (W.next + 2) hins.1).range fr hi
            om
          | _ =>
            simp only [LCall.newTasks, Prod.mk.injEq] at hnew
            rw [← hnew.1] at ht
            cases ht
        · exact hp _ (mem_comps.2 (.inr ⟨t, ht, rfl⟩))
      rw [hlists] at hLj
      have hle := hn'.1
      split at hLj
      · cases hLj
        obtain ⟨h1, h2, h3⟩ := h.frag i L hL
        simp only [hfrag]
        exact ⟨h1, Nat.lt_of_lt_of_le h2 hle, hids _ h2 h3⟩
      · obtain ⟨h1, h2, h3⟩ := h.frag j Lj hLj
        exact ⟨h1, Nat.lt_of_lt_of_le h2 hle, hids _ h2 h3⟩
    · have hfr : ∀ (c : NodeId), (∀ j Lj, W.lists j = some Lj → Lj.list.frag ≠ c) → ∀ j Lj,
          W'.lists j = some Lj → Lj.list.frag ≠ c := by
        intro c hc' j Lj hLj
        rw [hlists] at hLj
        split at hLj
        · cases hLj; simp only [hfrag]; exact hc' i L hL
        · exact hc' j Lj hLj
      intro j Lj hLj
      rw [hlists] at hLj
      have hle := hn'.1
      split at hLj
      · cases hLj
        obtain ⟨h1, h2⟩ := h.here i L hL
        simp only [hcon, hfrag]
        refine ⟨h1, fun ctx e => ?_⟩
        obtain ⟨h3, h4, h5⟩ := h2 ctx e
        exact ⟨h3, Nat.lt_of_lt_of_le h4 hle, hfr _ h5⟩
      · obtain ⟨h1, h2⟩ := h.here j Lj hLj
        refine ⟨h1, fun ctx e => ?_⟩
        obtain ⟨h3, h4, h5⟩ := h2 ctx e
        exact ⟨h3, Nat.lt_of_lt_of_le h4 hle, hfr _ h5⟩
    · exact fun p x hx => Nat.lt_of_lt_of_le (hfo' p x hx).2.2 hn'.1

/-- Every event but the drop of a list. -/
theorem WInv.step (b : Build) (h : WInv r l D F W O) (e : Event) (ha : e.Allowed W O)
    (hne : ∀ i a, e ≠ .dropList i a) :
    ∃ W' l' D' F', W.step b e = some W' ∧ WInv r l' D' F' W' (O.step W.next e) := by
  cases e with
  | app e =>
    cases e with
    | poll s => obtain ⟨W', D', F', h1, h2⟩ := h.poll_app b ha; exact ⟨W', l, D', F', h1, h2⟩
    | foreignInsert c ref => obtain ⟨W', D', F', h1, h2⟩ := h.foreign_insert b ha; exact ⟨W', l, D', F', h1, h2⟩
    | foreignRemove c n => obtain ⟨W', D', F', h1, h2⟩ := h.foreign_remove b; exact ⟨W', l, D', F', h1, h2⟩
  | newList i => obtain ⟨W', D', F', h1, h2⟩ := h.new_list b ha.1; exact ⟨W', l, D', F', h1, h2⟩
  | call i c => exact h.call_list b ha
  | render i ctx => exact h.render_list b ha
  | unrender i => obtain ⟨L, hL⟩ := ha; exact h.unrender_list b hL
  | pollItem y s => exact h.poll_item b ha.1 ha.2
  | dropItem y => exact h.drop_item b
  | dropList i a => exact absurd rfl (hne i a)

end
end Verif.Whole
