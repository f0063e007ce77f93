import Verif.Whole.ItemProps
/-!
# C64: a concrete run

The mount node 0 contains a node of other code, 1. The app is `join((element, block))` (its element is 3);
the block renders a list with two items behind the element.
-/
namespace Verif.Whole
open Verif.Dom Verif.Drop Verif.Lists Verif.Tree

def exApp : Shape := .comb 7 (.cons (.element 7 .block) (.cons .block .nil))

def exDom : Dom := ⟨fun c => if c = 0 then [1] else []⟩

def exStart : Whole := Whole.mount exApp 0 exDom [(0, 1)] 2

/-- The context of the second subfuture of the app. -/
def exCtx : Ctx := .child (.container 2 0) 1

def exEvents : List Event :=
  [.app (.poll (.sub 0 (.content .pend) .pend)),
   .newList 5,
   .call 5 (.insert 10 none 8 (.element 7 .block)),
   .render 5 exCtx,
   .call 5 (.insert 20 (some 10) 8 .block),
   .pollItem 8 (.content .pend),
   .pollItem 11 (.create (.element 7 .block) (.await (.content .pend) .pend)),
   .app (.foreignInsert 0 (some 3)),
   .call 5 (.remove 10),
   .pollItem 11 (.cancel (.create (.element 7 .block) (.await (.content .pend) .pend)))]

/-- The document after that run: the mount node contains the nodes of other code, the element of the app, and
between the comments 5 and 6 the list: the item 20 with its element 14, and the element 9 of the item
10, which has been removed and not yet dropped. -/
example : (exStart.run .release exEvents).map (fun W => (W.dom.kids 0, W.tasks.map (·.stop), W.tasks.map (·.live))) =
    some ([1, 13, 3, 5, 10, 14, 11, 9, 6], [11, 8], [true, false]) := by
  decide +kernel

/-- Then the removed item is dropped. -/
example : (exStart.run .release (exEvents ++ [.dropItem 8])).map (fun W => (W.dom.kids 0, W.tasks.map (·.stop))) =
    some ([1, 13, 3, 5, 10, 14, 11, 6], [11]) := by
  decide +kernel

/-- Or the list is dropped after that: its nodes have gone back to its fragment 4, where they stay; the
futures of its items are gone, and polling one of them has no effect. -/
def exEnd : List Event := [.unrender 5, .dropList 5 9, .pollItem 11 (.cancel .pend), .newList 6]

example : (exStart.run .release (exEvents ++ exEnd)).map
    (fun W => (W.dom.kids 0, W.dom.kids 4, W.tasks.map (·.stop), (W.lists 5).isSome, (W.lists 6).isSome)) =
    some ([1, 13, 3], [5, 10, 14, 11, 9, 6], [], false, true) := by
  decide +kernel

/-! All of this is allowed. -/

theorem allowed_of_prefixes (b : Build) : ∀ (es : List Event) (W0 : Whole) (O : Orders),
    (∀ i (hi : i < es.length) W, W0.run b (es.take i) = some W →
      (es[i]).Allowed W (Orders.run b O W0 (es.take i))) → Allowed b W0 O es
  | [], _, _, _ => trivial
  | e :: es, W0, O, h => by
    refine ⟨h 0 (by simp) W0 rfl, fun W' hs => ?_⟩
    apply allowed_of_prefixes b es
    intro i hi W hr
    have := h (i + 1) (by simpa using hi) W (by simp [Whole.run, hs, hr])
    simpa [Orders.run, hs] using this

/-- Events of other lists do not touch a list. -/
theorem step_lists {b : Build} {W W' : Whole} {e : Event} {j : Nat} (h : W.step b e = some W')
    (h1 : e ≠ .newList j) (h2 : ∀ c, e ≠ .call j c) (h3 : ∀ ctx, e ≠ .render j ctx) (h4 : e ≠ .unrender j)
    (h5 : ∀ a, e ≠ .dropList j a) : W'.lists j = W.lists j ∧ W'.gone j = W.gone j := by
  cases e with
  | app e =>
    simp only [Whole.step, Option.map_eq_some_iff] at h
    obtain ⟨A, -, rfl⟩ := h
    exact ⟨rfl, rfl⟩
  | newList i =>
    simp only [Whole.step, Option.bind_eq_bind, Option.bind_eq_some_iff, Option.pure_def, Option.some.injEq] at h
    obtain ⟨⟨d, L'⟩, hr, rfl⟩ := h
    exact ⟨if_neg fun e => h1 (by rw [e]), rfl⟩
  | call i c =>
    simp only [Whole.step, Option.bind_eq_bind, Option.bind_eq_some_iff, Option.pure_def, Option.some.injEq] at h
    obtain ⟨L, hL, ⟨d, L', ans⟩, hr, rfl⟩ := h
    exact ⟨if_neg fun e => h2 c (by rw [e]), rfl⟩
  | render i ctx =>
    simp only [Whole.step, Option.bind_eq_bind, Option.bind_eq_some_iff, Option.pure_def, Option.some.injEq] at h
    obtain ⟨L, hL, ⟨d, L'⟩, hr, rfl⟩ := h
    exact ⟨if_neg fun e => h3 ctx (by rw [e]), rfl⟩
  | unrender i =>
    simp only [Whole.step, Option.bind_eq_bind, Option.bind_eq_some_iff] at h
    obtain ⟨L, hL, h⟩ := h
    split at h
    · cases h; exact ⟨rfl, rfl⟩
    · simp only [Option.bind_eq_some_iff, Option.pure_def, Option.some.injEq] at h
      obtain ⟨⟨d, L'⟩, hr, rfl⟩ := h
      exact ⟨if_neg fun e => h4 (by rw [e]), rfl⟩
  | pollItem z s =>
    simp only [Whole.step] at h
    split at h
    · split at h
      · simp only [Option.bind_eq_bind, Option.bind_eq_some_iff] at h
        obtain ⟨⟨f, T, ready⟩, hp, h⟩ := h
        simp only at h
        split at h
        · simp only [Option.bind_eq_some_iff, Option.pure_def, Option.some.injEq] at h
          obtain ⟨d, -, rfl⟩ := h
          exact ⟨rfl, rfl⟩
        · simp only [Option.pure_def, Option.some.injEq] at h
          subst h
          exact ⟨rfl, rfl⟩
      · cases h; exact ⟨rfl, rfl⟩
    · cases h; exact ⟨rfl, rfl⟩
  | dropItem z =>
    simp only [Whole.step] at h
    split at h
    · split at h
      · cases h; exact ⟨rfl, rfl⟩
      · simp only [Option.bind_eq_bind, Option.bind_eq_some_iff, Option.pure_def, Option.some.injEq] at h
        obtain ⟨d, -, rfl⟩ := h
        exact ⟨rfl, rfl⟩
    · cases h; exact ⟨rfl, rfl⟩
  | dropList i a =>
    simp only [Whole.step, Option.bind_eq_bind, Option.bind_eq_some_iff, Option.pure_def, Option.some.injEq] at h
    obtain ⟨L, hL, d, hd, rfl⟩ := h
    have hne : j ≠ i := by rintro rfl; exact h5 a rfl
    exact ⟨if_neg hne, if_neg hne⟩

theorem run_lists {b : Build} {j : Nat} : ∀ {es : List Event} {W W' : Whole}, W.run b es = some W' →
    (∀ e ∈ es, e ≠ .newList j ∧ (∀ c, e ≠ .call j c) ∧ (∀ ctx, e ≠ .render j ctx) ∧ e ≠ .unrender j ∧
      ∀ a, e ≠ .dropList j a) →
    W'.lists j = W.lists j ∧ W'.gone j = W.gone j
  | [], _, _, h, _ => by cases h; exact ⟨rfl, rfl⟩
  | e :: es, W, W', h, he => by
    simp only [Whole.run, Option.bind_eq_bind, Option.bind_eq_some_iff] at h
    obtain ⟨W1, hs, hr⟩ := h
    obtain ⟨h1, h2, h3, h4, h5⟩ := he e (by simp)
    obtain ⟨g1, g2⟩ := run_lists hr fun e he' => he e (by simp [he'])
    rw [g1, g2]
    exact step_lists hs h1 h2 h3 h4 h5

theorem of_any {α : Type} {o : Option α} {p : α → Prop} [DecidablePred p] (h : o.any p = true) :
    ∃ a, o = some a ∧ p a := by
  cases o with
  | none => cases h
  | some a => exact ⟨a, rfl, by simpa using h⟩

theorem of_all {α : Type} {o : Option α} {p : α → Prop} [DecidablePred p] (h : o.all p = true) :
    ∀ a, o = some a → p a := by
  rintro a rfl
  simpa using h

/-- The states of the run. -/
def exW (n : Nat) : Whole := (exStart.run .release ((exEvents ++ exEnd).take n)).getD exStart

def exO (n : Nat) : Orders := Orders.run .release (fun _ => []) exStart ((exEvents ++ exEnd).take n)

theorem exAllowed : Allowed .release exStart (fun _ => []) (exEvents ++ exEnd) := by
  apply allowed_of_prefixes
  intro i hi W hr
  obtain rfl : exW i = W := by rw [exW, hr]; rfl
  show ((exEvents ++ exEnd)[i]).Allowed (exW i) (exO i)
  match i, hi with
  | 0, _ => exact ⟨trivial, trivial⟩
  | 1, _ =>
    have := run_lists (j := 5) hr (by simp [exEvents, exEnd])
    exact this
  | 2, _ => exact ⟨(of_any (p := fun _ => True) (by decide +kernel)).imp fun _ h => h.1, fun k h => (by cases h), trivial, by decide +kernel⟩
  | 3, _ =>
    exact ⟨of_any (by decide +kernel), ⟨rfl, .inl ⟨rfl, rfl⟩⟩, by decide +kernel, by decide +kernel⟩
  | 4, _ =>
    exact ⟨(of_any (p := fun _ => True) (by decide +kernel)).imp fun _ h => h.1, fun k h => (by cases h; decide +kernel), trivial, by decide +kernel⟩
  | 5, _ => exact ⟨trivial, of_all (by decide +kernel)⟩
  | 6, _ => exact ⟨⟨trivial, trivial, trivial⟩, of_all (by decide +kernel)⟩
  | 7, _ =>
    have hno' : ∀ j L, (exW 7).lists j = some L ∨ (exW 7).gone j = some L → j = 5 := by
      intro j L hL
      by_cases e : j = 5
      · exact e
      · obtain ⟨h1, h2⟩ := run_lists (j := j) hr (by simp [exEvents, exEnd]; omega)
        rw [h1, h2] at hL
        rcases hL with hL | hL <;> cases hL
    have hno : ∀ j L, (exW 7).lists j = some L → j = 5 := fun j L hL => hno' j L (.inl hL)
    refine ⟨by decide +kernel, ?_, ?_⟩
    · intro j L hL
      obtain rfl := hno' j L hL
      rcases hL with hL | hL
      · exact of_all (p := fun L : ListSt => 0 ≠ L.list.frag) (by decide +kernel) L hL
      · exact of_all (p := fun L : ListSt => 0 ≠ L.list.frag) (by decide +kernel) L hL
    · rintro r hr' ⟨j, L, A, B, C, hL, hk, hm⟩
      cases hr'
      obtain rfl := hno j L hL
      have h1 : L.list.listStart = 5 := of_all (p := fun L : ListSt => L.list.listStart = 5) (by decide +kernel) L hL
      have h2 : L.list.listEnd = 6 := of_all (p := fun L : ListSt => L.list.listEnd = 6) (by decide +kernel) L hL
      have h3 : (exW 7).dom.kids 0 = [1, 3, 5, 10, 12, 11, 7, 9, 8, 6] := by decide +kernel
      rw [h1, h2, h3] at hk
      rw [h2] at hm
      rcases A with _ | ⟨a, _ | ⟨b, _ | ⟨c, A⟩⟩⟩
      · simp at hk
      · simp at hk
      · simp only [List.cons_append, List.nil_append, List.cons.injEq, true_and] at hk
        have : 3 ∈ [10, 12, 11, 7, 9, 8, 6] := by
          rw [hk.2.2]
          rcases hm with hm | hm
          · simp [hm]
          · simp [hm]
        simp at this
      · simp only [List.cons_append, List.cons.injEq] at hk
        have : 5 ∈ [10, 12, 11, 7, 9, 8, 6] := by rw [hk.2.2.2]; simp
        simp at this
  | 8, _ => exact ⟨(of_any (p := fun _ => True) (by decide +kernel)).imp fun _ h => h.1, trivial, trivial⟩
  | 9, _ => exact ⟨⟨trivial, trivial, trivial⟩, of_all (by decide +kernel)⟩
  | 10, _ => exact (of_any (p := fun _ => True) (by decide +kernel)).imp fun _ h => h.1
  | 11, _ => exact ⟨of_any (by decide +kernel), by decide +kernel⟩
  | 12, _ => exact ⟨trivial, of_all (by decide +kernel)⟩
  | 13, _ => exact run_lists (j := 6) hr (by simp [exEvents, exEnd])

theorem exDocument : Document exDom [(0, 1)] 2 := Tree.exDocument

example : Document exDom [(0, 1)] 2 ∧ (∀ c x, (c, x) ∈ [((0 : NodeId), (1 : NodeId))] → c < 2) ∧ (0 : NodeId) < 2 ∧ exApp.Narrow ∧
    Allowed .release (Whole.mount exApp 0 exDom [(0, 1)] 2) (fun _ => []) (exEvents ++ exEnd) :=
  ⟨exDocument, by simp, by decide, by simp [exApp, Shape.Narrow, Shapes.NarrowFrom], exAllowed⟩

/-- The items of the list along the run. -/
example : (exO 8 5, exO 10 5) = ([(20, ⟨10, 11⟩), (10, ⟨7, 8⟩)], [(20, ⟨10, 11⟩)]) := by
  decide +kernel

end Verif.Whole
