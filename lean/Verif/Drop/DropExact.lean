import Verif.Drop.DropProps
/-!
# C05, C07 and C08: exactly when dropping goes wrong
-/
namespace Verif.Drop
open Verif.Dom

/-- What is displayed at or below a place. -/
def _root_.Verif.Dom.Display.At (D : Display) (ctx : Ctx) (n : NodeId) : Prop :=
  ∃ x ∈ D.shown, x.node = n ∧ x.group = ctx.group ∧ ctx.path <+: x.path

/-- The future owns, outside of its lists, an element on display or a combinator (polled or not, finished or not).
(`Fut.active` in the proofs.) -/
inductive Fut.Owns : Fut → Prop
  | left {x y} : x.Owns → (Fut.both x y).Owns
  | right {x y} : y.Owns → (Fut.both x y).Owns
  | block {f} : f.Owns → (Fut.block f).Owns
  | slot {i f} : f.Owns → (Fut.slot i f).Owns
  | shown {id g a child} : (Fut.node id g .added a child).Owns
  | inside {id g mode a child} : child.Owns → (Fut.node id g mode a child).Owns
  | item {g r a child} : (Fut.item g r a child).Owns
  | comb {a f} : (Fut.comb a f).Owns

theorem owns_iff (f : Fut) : f.Owns ↔ f.active = true := by
  constructor
  · intro h
    induction h with
    | left _ ih => simp [Fut.active, ih]
    | right _ ih => simp [Fut.active, ih]
    | block _ ih => exact ih
    | slot _ ih => exact ih
    | shown => rfl
    | inside _ ih => rename_i mode _ _ _; cases mode <;> first | rfl | exact ih
    | item => rfl
    | comb => rfl
  · intro h
    induction f with
    | done => cases h
    | both x y ihx ihy =>
      simp only [Fut.active, Bool.or_eq_true] at h
      exact h.elim (fun h => .left (ihx h)) (fun h => .right (ihy h))
    | block f ih => exact .block (ih h)
    | slot i f ih => exact .slot (ih h)
    | node id g mode a child ih =>
      cases mode with
      | added => exact .shown
      | shouldAdd => exact .inside (ih h)
      | shouldNotAdd => exact .inside (ih h)
    | item => exact .item
    | comb => exact .comb
    | list => cases h

/-- **C05, exactly.** Dropping a future at a place takes out everything that is displayed there, whoever displayed it,
if the future owns something, and otherwise nothing. -/
theorem drop_takes (b : Build) (P : Places) (D : Display) (s s1 : State) (ops : List Op) (hstart : Starts D s)
    (hh : HistoryOk P D ops) (hrun : runOps b s ops = some s1) (f : Fut) (ctx : Ctx)
    (hok : (Op.unrender ctx).Ok P (D.run ops)) (hd : f.Distinct) (hi : f.ItemsInside)
    (hu : ∀ g ∈ f.unpolledGroups, s1.groups g = []) :
    ∃ s2, f.drop b (some ctx) ⟨s1, none⟩ = some ⟨s2, none⟩ ∧
      TakesOut s1 s2 ctx.home (fun n => f.Owns ∧ (D.run ops).At ctx n) := by
  obtain ⟨s'', h1, h⟩ := (Inv.start hstart).run b ops hh
  rw [hrun, Option.some.injEq] at h1
  subst h1
  obtain ⟨s', hst, -⟩ := stable_of_inv h b ctx hok
  refine ⟨_, drop_free b ctx f s1 s' s1 hst (.inl rfl) hd hi hu, ?_⟩
  cases ha : f.active with
  | true =>
    refine drop_result h b ctx hok hst.first _ fun n => ?_
    simp [owns_iff, ha, Display.At]
  | false =>
    apply takesOut_nothing
    rintro n ⟨hn, -⟩
    rw [owns_iff, ha] at hn
    cases hn

/-- Two descriptions of the nodes that were taken out agree. -/
theorem takesOut_unique {s1 s2 : State} {c : NodeId} {p q : NodeId → Prop} (h1 : TakesOut s1 s2 c p)
    (h2 : TakesOut s1 s2 c q) {n : NodeId} (hn : n ∈ s1.dom.kids c) : p n ↔ q n := by
  obtain ⟨L, a1, a2⟩ := h1 c
  obtain ⟨L', b1, b2⟩ := h2 c
  have hL := a1 n
  have hL' := b1 n
  simp only [true_and] at hL hL'
  rw [← hL, ← hL']
  have : n ∈ (s1.dom.kids c).filter (fun n => decide (n ∉ L)) ↔ n ∈ (s1.dom.kids c).filter (fun n => decide (n ∉ L')) := by
    rw [← a2, ← b2]
  simp only [List.mem_filter, hn, true_and, decide_eq_true_eq] at this
  exact Decidable.not_iff_not.1 this

theorem takesOut_congr {s1 s2 : State} {c : NodeId} {p q : NodeId → Prop} (h : TakesOut s1 s2 c p)
    (hq : ∃ L : List NodeId, ∀ n, q n ↔ n ∈ L) (hpq : ∀ n ∈ s1.dom.kids c, p n ↔ q n) : TakesOut s1 s2 c q := by
  intro c'
  obtain ⟨L, a1, a2⟩ := h c'
  obtain ⟨L', hL'⟩ := hq
  by_cases hc : c' = c
  · subst hc
    refine ⟨L', fun n => by simp [hL'], ?_⟩
    rw [a2]
    apply List.filter_congr
    intro n hn
    have h1 := a1 n
    simp only [true_and] at h1
    simp only [h1, hpq n hn, hL']
  · refine ⟨[], by simp [hc], ?_⟩
    rw [a2]
    apply List.filter_congr
    intro n hn
    have h1 := a1 n
    simp only [hc, false_and, iff_false] at h1
    simp [h1]

/-- **C05, exactly when it holds.** Dropping a future takes out exactly what the future displays if and only if, of the
nodes in the containing node, it displays exactly those at or below this place; a future that owns nothing has to
display nothing. -/
theorem drop_unrenders_iff (b : Build) (P : Places) (D : Display) (s s1 : State) (ops : List Op) (hstart : Starts D s)
    (hh : HistoryOk P D ops) (hrun : runOps b s ops = some s1) (f : Fut) (ctx : Ctx)
    (hok : (Op.unrender ctx).Ok P (D.run ops)) (hd : f.Distinct) (hi : f.ItemsInside)
    (hu : ∀ g ∈ f.unpolledGroups, s1.groups g = []) :
    (∃ s2, f.drop b (some ctx) ⟨s1, none⟩ = some ⟨s2, none⟩ ∧
      TakesOut s1 s2 ctx.home (fun n => ∃ x ∈ f.shownHere ctx, x.node = n)) ↔
    ∀ n ∈ s1.dom.kids ctx.home, (∃ x ∈ f.shownHere ctx, x.node = n) ↔ (f.Owns ∧ (D.run ops).At ctx n) := by
  obtain ⟨s2, h1, h2⟩ := drop_takes b P D s s1 ops hstart hh hrun f ctx hok hd hi hu
  constructor
  · rintro ⟨s3, h3, h4⟩ n hn
    rw [h1] at h3
    cases h3
    exact takesOut_unique h4 h2 hn
  · intro h
    refine ⟨s2, h1, ?_⟩
    have hq : ∃ L : List NodeId, ∀ n, (∃ x ∈ f.shownHere ctx, x.node = n) ↔ n ∈ L :=
      ⟨(f.shownHere ctx).map (·.node), by simp⟩
    exact takesOut_congr h2 hq fun n hn => (h n hn).symm

/-- For the future of `exFut` this is so; it is not so for the component that is dropped in another place
(`drop_elsewhere`), which displays node 8 while node 10 is displayed there. -/
example : (∀ n ∈ exAfter.dom.kids exRoot.home,
      (∃ x ∈ exFut.shownHere exRoot, x.node = n) ↔ (exFut.Owns ∧ (exDisplay.run exOps).At exRoot n)) ∧
    ¬ ∀ n ∈ exAfter.dom.kids (Ctx.child exRoot 1).home,
      (∃ x ∈ (Fut.node 8 6 .added 4 .done).shownHere (.child exRoot 1), x.node = n) ↔
        ((Fut.node 8 6 .added 4 .done).Owns ∧ (exDisplay.run exOps).At (.child exRoot 1) n) := by
  have hs : (exDisplay.run exOps).shown = [⟨0, [1], 10⟩, ⟨1, [], 9⟩, ⟨0, [0, 3], 8⟩] := by decide
  refine ⟨fun n _ => ?_, fun h => ?_⟩
  · have ho : exFut.Owns := .comb
    simp only [ho, true_and]
    simp only [Display.At, hs, exFut, Fut.shownHere, exRoot, Ctx.group, Ctx.path]
    simp [or_comm]
  · have := (h 8 (by decide)).1 ⟨_, .head _, rfl⟩
    simp [Display.At, hs, exRoot, Ctx.group, Ctx.path] at this

/-- A future that was never polled owns something exactly if it owns a combinator. -/
theorem unpolled_owns_iff {f : Fut} (hu : f.Unpolled) (hi : f.ItemsInside) : f.Owns ↔ ¬ f.NoComb := by
  rw [owns_iff]
  induction f with
  | done => simp [Fut.active, Fut.NoComb]
  | both x y ihx ihy =>
    have h1 := ihx hu.1 hi.1
    have h2 := ihy hu.2 hi.2
    simp only [Fut.active, Fut.NoComb, Bool.or_eq_true, h1, h2]
    by_cases hx : x.NoComb <;> simp [hx]
  | block f ih => exact ih hu hi
  | slot i f ih => exact ih hu hi
  | node id g mode a child ih =>
    obtain ⟨rfl, hu⟩ := hu
    exact ih hu hi
  | item g r a child ih => exact hi.elim
  | comb a f ih => simp [Fut.active, Fut.NoComb]
  | list a f ih => simp [Fut.active, Fut.NoComb]

/-- **C08, exactly.** Dropping a future that was never polled has no effect if and only if it owns no combinator or
nothing is displayed at or below the current place. -/
theorem drop_unpolled_iff (b : Build) (P : Places) (D : Display) (s s1 : State) (ops : List Op) (hstart : Starts D s)
    (hh : HistoryOk P D ops) (hrun : runOps b s ops = some s1) (f : Fut) (ctx : Ctx)
    (hok : (Op.unrender ctx).Ok P (D.run ops)) (hun : f.Unpolled) (hd : f.Distinct) (hi : f.ItemsInside)
    (hu : ∀ g ∈ f.unpolledGroups, s1.groups g = []) :
    f.drop b (some ctx) ⟨s1, none⟩ = some ⟨s1, none⟩ ↔ (f.NoComb ∨ ∀ n, ¬ (D.run ops).At ctx n) := by
  constructor
  · intro h
    by_cases hc : f.NoComb
    · exact .inl hc
    refine .inr fun n hn => ?_
    obtain ⟨s2, h1, h2⟩ := drop_takes b P D s s1 ops hstart hh hrun f ctx hok hd hi hu
    rw [h] at h1
    cases h1
    obtain ⟨s'', h3, h3'⟩ := (Inv.start hstart).run b ops hh
    rw [hrun, Option.some.injEq] at h3
    subst h3
    have hk : n ∈ s1.dom.kids ctx.home := by
      obtain ⟨x, hx, hxn, hxg, -⟩ := hn
      refine (h3'.mem _ _).2 (.inl ⟨x, hx, hxn, ?_⟩)
      rw [hxg]
      rw [← hok.1]
    obtain ⟨L, a1, a2⟩ := h2 ctx.home
    have hL : n ∈ L := (a1 n).2 ⟨rfl, (unpolled_owns_iff hun hi).2 hc, hn⟩
    rw [a2] at hk
    simp [hL] at hk
  · rintro (h | h)
    · exact drop_unpolled_partial b (some ctx) s1 f hun h hi hd hu
    · exact drop_unpolled_vacant_partial b P D s s1 ops hstart hh hrun f ctx hok
        (fun x hx hp => h x.node ⟨x, hx, rfl, hp⟩) hi hd hu

/-- Both cases occur: the combinator of `drop_unpolled_combinator` at place 1, where node 10 is displayed; and at place
2, where nothing is. -/
example : let f : Fut := .comb 1 (.both (.slot 0 (.node 30 20 .shouldAdd 2 .done)) .done)
    f.Unpolled ∧ f.Distinct ∧ f.ItemsInside ∧ ¬ f.NoComb ∧ (∀ g ∈ f.unpolledGroups, exAfter.groups g = []) ∧
    (Op.unrender (.child exRoot 1)).Ok exPlaces (exDisplay.run exOps) ∧
    (Op.unrender (.child exRoot 2)).Ok exPlaces (exDisplay.run exOps) ∧
    (exDisplay.run exOps).At (.child exRoot 1) 10 ∧ ∀ n, ¬ (exDisplay.run exOps).At (.child exRoot 2) n := by
  have hs : (exDisplay.run exOps).shown = [⟨0, [1], 10⟩, ⟨1, [], 9⟩, ⟨0, [0, 3], 8⟩] := by decide
  refine ⟨by simp [Fut.Unpolled], by simp [Fut.Distinct, Fut.addrs], by simp [Fut.ItemsInside], by simp [Fut.NoComb],
    by decide, by simp [Op.Ok, exRoot, exPlaces, Ctx.home, Ctx.marker, Ctx.group, Ctx.path],
    by simp [Op.Ok, exRoot, exPlaces, Ctx.home, Ctx.marker, Ctx.group, Ctx.path], ?_, fun n => ?_⟩
  · simp [Display.At, hs, exRoot, Ctx.group, Ctx.path]
  · simp [Display.At, hs, exRoot, Ctx.group, Ctx.path]

/-- **C07, exactly.** Unmounting an app panics if and only if the app owns an element on display or a combinator. -/
theorem unmount_panics_iff (b : Build) (P : Places) (D : Display) (s s1 : State)
    (ops : List Op) (hstart : Starts D s) (hh : HistoryOk P D ops)
    (hrun : runOps b s ops = some s1) (c : NodeId) (g : GroupId) (hP : P g = (c, none))
    (a : Addr) (app : Fut) (hd : app.Distinct) (hu : ∀ g ∈ app.unpolledGroups, s1.groups g = []) :
    (Fut.node c g .shouldNotAdd a app).drop b none ⟨s1, none⟩ = none ↔ app.Owns := by
  rw [owns_iff]
  constructor
  · intro h
    rw [← Bool.not_eq_false]
    intro ha
    obtain ⟨s'', h1, h'⟩ := (Inv.start hstart).run b ops hh
    rw [hrun, Option.some.injEq] at h1
    subst h1
    have hok : (Op.unrender (.container g c)).Ok P (D.run ops) := by
      simp [Op.Ok, Ctx.home, Ctx.marker, Ctx.group, hP, Ctx.path]
    obtain ⟨s', hst, -⟩ := stable_of_inv h' b _ hok
    simp [Fut.drop, hst.first, drop_inactive b none app s' ha hd (fun g hg => hst.groups g (hu g hg))] at h
  · intro ha
    exact drop_no_context b (.node c g .shouldNotAdd a app) s1 ha

example : exFut.Owns ∧ exFut.Distinct ∧ (∀ g ∈ exFut.unpolledGroups, exAfter.groups g = []) ∧ exPlaces 0 = (0, none) ∧
    let app : Fut := .both (.node 5 6 .shouldAdd 1 .done) (.list 3 (.item 8 100 4 .done))
    ¬ app.Owns ∧ app.Distinct ∧ ∀ g ∈ app.unpolledGroups, exAfter.groups g = [] := by
  refine ⟨.comb, by simp [exFut, Fut.Distinct, Fut.addrs], by decide, rfl, ?_, by simp [Fut.Distinct, Fut.addrs], by decide⟩
  rw [owns_iff]; simp [Fut.active]

end Verif.Drop
