import Verif.Drop.Lemmas
import Verif.Dom.HistoryProps
/-!
# Property theorems for C05, C07 and C08
-/
namespace Verif.Drop
open Verif.Dom

/-- The document `s2` arises from `s1` by taking exactly the nodes `gone` out of `c`. -/
def TakesOut (s1 s2 : State) (c : NodeId) (gone : NodeId → Prop) : Prop :=
  ∀ c', ∃ L : List NodeId, (∀ n, n ∈ L ↔ c' = c ∧ gone n) ∧
    s2.dom.kids c' = (s1.dom.kids c').filter (fun n => decide (n ∉ L))

theorem takesOut_nothing {s : State} {c : NodeId} {gone : NodeId → Prop} (h : ∀ n, ¬ gone n) :
    TakesOut s s c gone := by
  intro c'
  refine ⟨[], by simp [h], ?_⟩
  symm
  rw [List.filter_eq_self]
  simp

theorem drop_result {P : Places} {D : Display} {s s' : State} (h : Inv P D s)
    (b : Build) (ctx : Ctx) (hok : (Op.unrender ctx).Ok P D) (hs : ctx.removeChild b s [] = some s')
    (gone : NodeId → Prop)
    (hg : ∀ n, gone n ↔ ∃ x ∈ D.shown, x.node = n ∧ x.group = ctx.group ∧ ctx.path <+: x.path) :
    TakesOut s s' ctx.home gone := by
  have := unrender_spec h b ctx hok
  rw [unrender_exec, hs, Option.some.injEq] at this
  subst this
  intro c
  by_cases hc : c = ctx.home
  · refine ⟨((s.groups ctx.group).filter (fun e => ctx.path.isPrefixOf e.1.reverse)).map
      (·.2), ?_, ?_⟩
    · intro n
      have := mem_removed h ctx n
      simp only [List.contains_eq_mem, decide_eq_true_eq] at this
      rw [this, hg]
      simp [hc, List.isPrefixOf_iff_prefix]
    · simp only [hc, if_true]
      apply List.filter_congr
      intro y _
      simp
  · refine ⟨[], by simp [hc], ?_⟩
    simp only [if_neg hc]
    symm
    rw [List.filter_eq_self]
    simp

/-- Common part of the C05 theorems. -/
theorem drop_core {b : Build} {P : Places} {D : Display} {s1 : State} (h : Inv P D s1)
    {f : Fut} {ctx : Ctx} (hok : (Op.unrender ctx).Ok P D) (hruns : f.RunsAt ctx D)
    (hdrop : ∀ s', Stable b ctx s1 s' →
      f.drop b (some ctx) ⟨s1, none⟩ = some ⟨bif f.active then s' else s1, none⟩) :
    ∃ s2, f.drop b (some ctx) ⟨s1, none⟩ = some ⟨s2, none⟩ ∧
      TakesOut s1 s2 ctx.home (fun n => ∃ x ∈ f.shownHere ctx, x.node = n) := by
  obtain ⟨s', hst, -⟩ := stable_of_inv h b ctx hok
  refine ⟨_, hdrop s' hst, ?_⟩
  cases ha : f.active with
  | true =>
    refine drop_result h b ctx hok hst.first _ fun n => ?_
    constructor
    · rintro ⟨x, hx, rfl⟩
      obtain ⟨h1, h2, h3⟩ := (hruns x).1 hx
      exact ⟨x, h1, rfl, h2, h3⟩
    · rintro ⟨x, h1, rfl, h2, h3⟩
      exact ⟨x, (hruns x).2 ⟨h1, h2, h3⟩, rfl⟩
  | false =>
    apply takesOut_nothing
    rintro n ⟨x, hx, -⟩
    have := active_of_shown f ctx (by intro h; simp [h] at hx)
    rw [ha] at this
    cases this

/-- C05. Drop, at its place, any future in any progress state, in any state of the document that
rendering can produce. The drop does not panic, takes exactly the nodes that the future
displayed there out of the containing node, touches no other node (in particular issues no
removal inside removed nodes), and leaves detachment enabled.
Partial: the future is dropped at the place where it was polled (see `drop_elsewhere`), and a
value and its parts have blockers at different addresses (but see
`drop_unrenders_any_address_partial`). -/
theorem drop_unrenders_partial (b : Build) (P : Places) (D : Display) (s s1 : State)
    (ops : List Op) (hstart : Starts D s) (hh : HistoryOk P D ops)
    (hrun : runOps b s ops = some s1) (f : Fut) (ctx : Ctx)
    (hok : (Op.unrender ctx).Ok P (D.run ops)) (hruns : f.RunsAt ctx (D.run ops))
    (hd : f.Distinct) (hi : f.ItemsInside)
    (hu : ∀ g ∈ f.unpolledGroups, s1.groups g = []) :
    ∃ s2, f.drop b (some ctx) ⟨s1, none⟩ = some ⟨s2, none⟩ ∧
      TakesOut s1 s2 ctx.home (fun n => ∃ x ∈ f.shownHere ctx, x.node = n) := by
  obtain ⟨s'', h1, h⟩ := (Inv.start hstart).run b ops hh
  rw [hrun, Option.some.injEq] at h1
  subst h1
  exact drop_core h hok hruns fun s' hst => drop_free b ctx f s1 s' s1 hst (.inl rfl) hd hi hu

/-- C05 for every assignment of addresses to the blockers, for futures without list items. -/
theorem drop_unrenders_any_address_partial (b : Build) (P : Places) (D : Display) (s s1 : State)
    (ops : List Op) (hstart : Starts D s) (hh : HistoryOk P D ops)
    (hrun : runOps b s ops = some s1) (f : Fut) (ctx : Ctx)
    (hok : (Op.unrender ctx).Ok P (D.run ops)) (hruns : f.RunsAt ctx (D.run ops))
    (hi : f.NoItems)
    (hu : ∀ g ∈ f.unpolledGroups, s1.groups g = []) :
    ∃ s2, f.drop b (some ctx) ⟨s1, none⟩ = some ⟨s2, none⟩ ∧
      TakesOut s1 s2 ctx.home (fun n => ∃ x ∈ f.shownHere ctx, x.node = n) := by
  obtain ⟨s'', h1, h⟩ := (Inv.start hstart).run b ops hh
  rw [hrun, Option.some.injEq] at h1
  subst h1
  exact drop_core h hok hruns fun s' hst => drop_any_free b ctx f s1 s' s1 hst (.inl rfl) hi hu

/-- C05 for a list item that the list's executor drops: exactly the item's content goes. -/
theorem drop_item_unrenders (b : Build) (P : Places) (D : Display) (s s1 : State)
    (ops : List Op) (hstart : Starts D s) (hh : HistoryOk P D ops)
    (hrun : runOps b s ops = some s1) (ctx : Ctx) (g : GroupId) (r : NodeId) (a : Addr) (f : Fut)
    (hok : (Op.unrender (.sibling ctx g r)).Ok P (D.run ops))
    (hruns : f.RunsAt (.sibling ctx g r) (D.run ops)) (hd : (Fut.item g r a f).Distinct)
    (hu : ∀ g ∈ f.unpolledGroups, s1.groups g = []) :
    ∃ s2, (Fut.item g r a f).drop b (some ctx) ⟨s1, none⟩ = some ⟨s2, none⟩ ∧
      TakesOut s1 s2 ctx.home
        (fun n => ∃ x ∈ f.shownHere (.sibling ctx g r), x.node = n) := by
  obtain ⟨s'', h1, h⟩ := (Inv.start hstart).run b ops hh
  rw [hrun, Option.some.injEq] at h1
  subst h1
  obtain ⟨s', hst, -⟩ := stable_of_inv h b _ hok
  refine ⟨s', ?_, ?_⟩
  · simp [Fut.drop, blockOr, blockUntilDrop, hst.first,
      drop_blocked b (some ctx) f s' a hd.1 (fun g hg => hst.groups g (hu g hg)), endBlock, release]
  · refine drop_result h b _ hok hst.first _ fun n => ?_
    constructor
    · rintro ⟨x, hx, rfl⟩
      obtain ⟨h1, h2, h3⟩ := (hruns x).1 hx
      exact ⟨x, h1, rfl, h2, h3⟩
    · rintro ⟨x, h1, rfl, h2, h3⟩
      exact ⟨x, (hruns x).2 ⟨h1, h2, h3⟩, rfl⟩

/-! The example history of `HistoryProps` leaves nodes 8 and 10 (places 0.3 and 1) of group 0 and
node 9 of the list item on display. -/

def exFut : Fut :=
  .comb 1 (.both (.slot 0 (.comb 2 (.both (.slot 0 (.node 77 5 .shouldAdd 3 .done))
      (.slot 3 (.node 8 6 .added 4 .done)))))
    (.slot 1 (.node 10 7 .added 5 (.list 6 (.item 8 200 7 .done)))))

def exAfter : State := (runOps .debug exState exOps).getD exState

example : exFut.RunsAt exRoot (exDisplay.run exOps) ∧ exFut.Distinct ∧ exFut.ItemsInside ∧
    (Op.unrender exRoot).Ok exPlaces (exDisplay.run exOps) ∧
    (∀ g ∈ exFut.unpolledGroups, exAfter.groups g = []) := by
  refine ⟨?_, ?_, ?_, ?_, ?_⟩
  · have h : ∀ x, x ∈ (exDisplay.run exOps).shown ↔
        x = ⟨0, [1], 10⟩ ∨ x = ⟨1, [], 9⟩ ∨ x = ⟨0, [0, 3], 8⟩ := by
      have : (exDisplay.run exOps).shown = [⟨0, [1], 10⟩, ⟨1, [], 9⟩, ⟨0, [0, 3], 8⟩] := by decide
      simp [this]
    intro x
    rw [h]
    simp only [exFut, Fut.shownHere, exRoot, Ctx.group, Ctx.path, List.nil_append,
      List.mem_cons, List.not_mem_nil, or_false, List.singleton_append]
    constructor
    · rintro (rfl | rfl) <;> simp
    · rintro ⟨rfl | rfl | rfl, h, -⟩ <;> simp_all
  · simp [exFut, Fut.Distinct, Fut.addrs]
  · simp [exFut, Fut.ItemsInside]
  · simp [Op.Ok, exRoot, exPlaces, Ctx.home, Ctx.marker, Ctx.group, Ctx.path]
  · decide

example : ((exFut.drop .debug (some exRoot) ⟨exAfter, none⟩).map fun d => d.st.dom.kids 0) =
    some [60, 50, 9, 101] := by decide

/-- C05 refuted for futures that are dropped in another place than where they were polled: the
component that displays node 8 (polled at 0.3) is dropped by the component at place 1. Its own
node stays, and the other component's node 10 disappears. -/
theorem drop_elsewhere :
    ∃ (s2 : State), (Fut.node 8 6 .added 4 .done).drop .debug (some (.child exRoot 1))
        ⟨exAfter, none⟩ = some ⟨s2, none⟩ ∧
      (8 ∈ exAfter.dom.kids 0 ∧ 8 ∈ s2.dom.kids 0) ∧
      (10 ∈ exAfter.dom.kids 0 ∧ 10 ∉ s2.dom.kids 0) := by
  have h : ((Fut.node 8 6 .added 4 .done).drop .debug (some (.child exRoot 1))
      ⟨exAfter, none⟩).isSome = true := by decide
  have hf : (((Fut.node 8 6 .added 4 .done).drop .debug (some (.child exRoot 1))
      ⟨exAfter, none⟩).map (·.flag)) = some none := by decide
  have hk : (((Fut.node 8 6 .added 4 .done).drop .debug (some (.child exRoot 1))
      ⟨exAfter, none⟩).map (·.st.dom.kids 0)) = some [60, 50, 9, 101, 8] := by decide
  have hk' : exAfter.dom.kids 0 = [60, 50, 9, 101, 8, 10] := by decide
  obtain ⟨⟨s2, fl⟩, hd⟩ := Option.isSome_iff_exists.1 h
  rw [hd] at hf hk
  simp only [Option.map_some, Option.some.injEq] at hf hk
  subst hf
  exact ⟨s2, hd, by simp [hk, hk'], by simp [hk, hk']⟩

/-- C05/C06: with coinciding addresses the drop can panic. The element 10 displayed at place 1
contains a first part whose blocker has the same address, and then a list item whose content
(node 9) is inside element 10. Dropping the first part ends the blocking, so that the item
tries to remove its content from the outer containing node, where it is not. -/
theorem drop_same_address_panics :
    (runOps .debug ⟨fun _ => [], ⟨fun _ => []⟩⟩
      [.render (.child exRoot 1) 10, .foreignInsert 10 101 none,
        .render (.sibling (.container 2 10) 1 101) 9]).map (fun s =>
      (Fut.node 10 2 .added 4 (.both (.comb 4 .done)
        (.item 1 101 5 (.node 9 3 .added 6 .done)))).drop .debug (some (.child exRoot 1))
          ⟨s, none⟩ |>.isNone) = some true := by
  decide

/-! ### C07 -/

/-- C07 refuted, for every state of the document and every app that has an element on display or
is inside a combinator: dropping the mounted future panics (the executor drops it outside of
any rendering context). -/
theorem unmount_panics (b : Build) (s : State) (c : NodeId) (g : GroupId) (a : Addr) (app : Fut)
    (h : app.shownHere (.container g c) ≠ [] ∨ (∃ a' f, app = .comb a' f)) :
    (Fut.node c g .shouldNotAdd a app).drop b none ⟨s, none⟩ = none := by
  apply drop_no_context
  rcases h with h | ⟨a', f, rfl⟩
  · exact active_of_shown app _ h
  · rfl

example : exFut.shownHere (.container 0 0) ≠ [] := by decide

/-- C07, what does hold: before the panic, the first thing the drop does is to take everything
the app displays out of the mount node, and nothing else. (The document `s2` from which the drop
of the app goes on does not depend on the app.) -/
theorem unmount_removes_partial (b : Build) (P : Places) (D : Display) (s s1 : State)
    (ops : List Op) (hstart : Starts D s) (hh : HistoryOk P D ops)
    (hrun : runOps b s ops = some s1) (c : NodeId) (g : GroupId) (hP : P g = (c, none))
    (a : Addr) :
    ∃ s2, TakesOut s1 s2 c (fun n => ∃ x ∈ (D.run ops).shown, x.node = n ∧ x.group = g) ∧
      ∀ app : Fut, (Fut.node c g .shouldNotAdd a app).drop b none ⟨s1, none⟩ =
        ((app.drop b none ⟨s2, none⟩).map (endBlock a)) := by
  obtain ⟨s'', h1, h⟩ := (Inv.start hstart).run b ops hh
  rw [hrun, Option.some.injEq] at h1
  subst h1
  have hok : (Op.unrender (.container g c)).Ok P (D.run ops) := by
    simp [Op.Ok, Ctx.home, Ctx.marker, Ctx.group, hP, Ctx.path]
  obtain ⟨s', hst, -⟩ := stable_of_inv h b _ hok
  refine ⟨s', ?_, fun app => ?_⟩
  · exact drop_result h b _ hok hst.first _ fun n => by simp [Ctx.group, Ctx.path]
  · simp only [Fut.drop, hst.first, Option.bind_eq_bind, Option.bind_some]
    cases app.drop b none ⟨s', none⟩ <;> rfl

/-- C07, what does hold: an app with nothing on display and no combinator is unmounted without a
panic and without touching the document. -/
theorem unmount_idle_partial (b : Build) (s : State) (c : NodeId) (g : GroupId) (a : Addr)
    (app : Fut) (hu : app.Unpolled) (hc : app.NoComb) (hi : app.ItemsInside) (hd : app.Distinct)
    (hg : s.groups g = []) (hgs : ∀ g ∈ app.unpolledGroups, s.groups g = []) :
    (Fut.node c g .shouldNotAdd a app).drop b none ⟨s, none⟩ = some ⟨s, none⟩ := by
  simp [Fut.drop, removeChild_container_empty b s g c hg,
    drop_inactive b none app s (inactive_of_unpolled app hu hc hi) hd hgs, endBlock, release]

/-! ### C08 -/

/-- C08 for elements, lists and plain values (no combinator): dropping a future that was never
polled changes nothing, wherever it happens. -/
theorem drop_unpolled_partial (b : Build) (amb : Option Ctx) (s : State) (f : Fut)
    (hu : f.Unpolled) (hc : f.NoComb) (hi : f.ItemsInside) (hd : f.Distinct)
    (hg : ∀ g ∈ f.unpolledGroups, s.groups g = []) :
    f.drop b amb ⟨s, none⟩ = some ⟨s, none⟩ :=
  drop_inactive b amb f s (inactive_of_unpolled f hu hc hi) hd hg

example : let f := Fut.both (.node 5 6 .shouldAdd 1 (.node 6 7 .shouldAdd 2 .done)) (.list 3 (.item 8 100 4 .done))
    f.Unpolled ∧ f.NoComb ∧ f.ItemsInside ∧ f.Distinct ∧ f.unpolledGroups = [6, 7] := by
  simp [Fut.Unpolled, Fut.NoComb, Fut.ItemsInside, Fut.Distinct, Fut.addrs, Fut.unpolledGroups]

/-- C08 for all futures, when nothing is on display at or below the current place. -/
theorem drop_unpolled_vacant_partial (b : Build) (P : Places) (D : Display) (s s1 : State)
    (ops : List Op) (hstart : Starts D s) (hh : HistoryOk P D ops)
    (hrun : runOps b s ops = some s1) (f : Fut) (ctx : Ctx)
    (hok : (Op.unrender ctx).Ok P (D.run ops))
    (hvacant : ∀ x ∈ (D.run ops).shown, ¬ (x.group = ctx.group ∧ ctx.path <+: x.path))
    (hi : f.ItemsInside) (hd : f.Distinct)
    (hg : ∀ g ∈ f.unpolledGroups, s1.groups g = []) :
    f.drop b (some ctx) ⟨s1, none⟩ = some ⟨s1, none⟩ := by
  obtain ⟨s'', h1, h⟩ := (Inv.start hstart).run b ops hh
  rw [hrun, Option.some.injEq] at h1
  subst h1
  have hn := unrender_nothing h b ctx hok (by simpa [List.isPrefixOf_iff_prefix] using hvacant)
  have := drop_free b ctx f s1 s1 s1 ⟨hn, hn, fun _ h => h⟩ (.inl rfl) hd hi hg
  simpa using this

/-- C08 refuted: the component at place 1 displays node 10. Creating a combinator there and
dropping it without polling it removes node 10. The combinator may even be empty. -/
theorem drop_unpolled_combinator :
    ∃ f : Fut, f.Unpolled ∧ f.shownHere (.child exRoot 1) = [] ∧ 10 ∈ exAfter.dom.kids 0 ∧
      ((f.drop .debug (some (.child exRoot 1)) ⟨exAfter, none⟩).map fun d => d.st.dom.kids 0) =
        some [60, 50, 9, 101, 8] := by
  refine ⟨.comb 1 (.both (.slot 0 (.node 30 20 .shouldAdd 2 .done)) .done), ?_, rfl, by decide,
    by decide⟩
  simp [Fut.Unpolled]

end Verif.Drop
