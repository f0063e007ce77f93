import Verif.Live.Events
/-!
# C70: inputs of a page and the events that tell about them

The form elements of a page as something to wait for: their values, which the user and the program change, and the
event streams of `Verif.Events`.
-/
namespace Verif.Live
open Verif

/-- A page: the event streams of the program, the values of the form elements (`value()`, `checked()`, …, as text), and
the listeners that the browser is still going to call for events that have already happened. -/
structure Page where
  ev : Events.World
  value : Nat → List Char
  calls : List (Events.Listener × Events.Ev)

/-- A page whose form elements are empty. -/
def Page.init : Page := ⟨Events.init, fun _ => [], []⟩

/-- What happens to a page. -/
inductive PageOp
  /-- the user changes the value of the element `t` to `v`, which fires the event `e` of type `y` at it -/
  | edit (t y : Nat) (v : List Char) (e : Events.Ev)
  /-- the browser goes on with the events that have happened: it calls the next listener -/
  | call
  /-- the program changes the value (`set_value`, `set_checked`, …), which fires nothing -/
  | set (t : Nat) (v : List Char)
  /-- the program reads the value -/
  | read (t : Nat)
  /-- anything else that happens to event streams, including events that do not change a value -/
  | ev (op : Events.Op)

/-- What can be observed: the value that was read, and what happened to the event streams. -/
structure PageOut where
  value : Option (List Char) := none
  ev : Option (Events.Op × Events.Obs) := none

/-- An operation on the event streams. -/
def Page.onEvents (s : Page) (op : Events.Op) : Option (Page × PageOut) :=
  (eventSource.step s.ev op).map fun r => ({ s with ev := r.1 }, { ev := some (op, r.2) })

/-- The DOM standard ("input event", "inner invoke"): when the user changes the value, the value is changed first; then
the listeners that the element has for this type are called one after the other, except those that have been removed in
the meantime. Listeners at the ancestors of the element and `stopImmediatePropagation` are left out. -/
def Page.step (s : Page) : PageOp → Option (Page × PageOut)
  | .edit t y v e =>
      some ({ s with
        value := fun u => if u = t then v else s.value u
        calls := s.calls ++ (s.ev.listeners.filter fun l => l.target = t ∧ l.type = y).map (·, e) }, {})
  | .call =>
      match s.calls with
      | [] => none
      | (l, e) :: calls =>
          if l ∈ s.ev.listeners then { s with calls }.onEvents (.deliver l e)
          else some ({ s with calls }, {})
  | .set t v => some ({ s with value := fun u => if u = t then v else s.value u }, {})
  | .read t => some (s, { value := some (s.value t) })
  | .ev op => s.onEvents op

/-- A page as something to wait for. Its futures are the event streams. -/
abbrev pageSource : Source where
  σ := Page
  Op := PageOp
  Out := PageOut
  step := Page.step
  wakes out := match out.ev with
    | some (_, o) => eventSource.wakes o
    | none => []
  Key := Nat
  dec := inferInstance
  polls _ out := match out.ev with
    | some (op, o) => eventSource.polls op o
    | none => none
  drops
    | .ev op => eventSource.drops op
    | _ => none

/-- What happened to the event streams of a page. -/
def evHist (h : List (PageOp × PageOut)) : List (Events.Op × Events.Obs) := h.filterMap (·.2.ev)

/-- What is known of the event streams of a page. -/
def streams (h : List (PageOp × PageOut)) : Events.History := Events.history ((evHist h).map (·.1))

/-- `x` was read from the element `t` and the stream `i`, which is for events of type `y` at `t`, has been polled since.
The value was not changed in between. All polls of the stream since then returned `Pending`, the program has not set the
value since, and whenever the user changed it this fired an event of type `y`: that is
`loop { use(t.value()); t.until_input().await }`. -/
def ReadThenListens (t y i : Nat) (h : List (PageOp × PageOut)) (x : List Char) : Prop :=
  ∃ pre out mid wk o post, h = pre ++ (.read t, out) :: (mid ++ (.ev (.poll i wk), o) :: post) ∧ out.value = some x ∧
    (streams h).made[i]? = some (t, y) ∧
    (∀ e ∈ mid, (∀ y v n, e.1 ≠ .edit t y v n) ∧ ∀ v, e.1 ≠ .set t v) ∧
    ∀ e ∈ (.ev (.poll i wk), o) :: post, (∀ y' v n, e.1 = .edit t y' v n → y' = y) ∧ (∀ v, e.1 ≠ .set t v) ∧
      ∀ wk' ob, e.2.ev = some (.poll i wk', ob) → ob.polled = some none

theorem page_events {s s' : Page} {op : PageOp} {out : PageOut} (h : s.step op = some (s', out)) :
    (out.ev = none ∧ s'.ev = s.ev ∧ ∀ o, op ≠ .ev o) ∨
    ∃ o ob, out.ev = some (o, ob) ∧ eventSource.step s.ev o = some (s'.ev, ob) ∧
      (op = .ev o ∨ op = .call ∧ ∃ l e, o = .deliver l e) := by
  cases op with
  | edit t y v e => cases h; exact .inl ⟨rfl, rfl, by simp⟩
  | set t v => cases h; exact .inl ⟨rfl, rfl, by simp⟩
  | read t => cases h; exact .inl ⟨rfl, rfl, by simp⟩
  | ev o =>
    simp only [Page.step, Page.onEvents, Option.map_eq_some_iff] at h
    obtain ⟨r, h1, h2⟩ := h
    cases h2
    exact .inr ⟨o, r.2, rfl, h1, .inl rfl⟩
  | call =>
    simp only [Page.step] at h
    split at h
    · cases h
    · next l e calls hc =>
      split at h
      · simp only [Page.onEvents, Option.map_eq_some_iff] at h
        obtain ⟨r, h1, h2⟩ := h
        cases h2
        exact .inr ⟨_, r.2, rfl, h1, .inr ⟨rfl, l, e, rfl⟩⟩
      · cases h; exact .inl ⟨rfl, rfl, by simp⟩

theorem page_hist {s0 s : pageSource.σ} {h : List (pageSource.Op × pageSource.Out)} (hh : Hist pageSource s0 h s) :
    Hist eventSource s0.ev (evHist h) s.ev := by
  induction hh with
  | nil => exact .nil _
  | @snoc h s s' o out _ hs ih =>
    rcases page_events hs with ⟨h1, h2, -⟩ | ⟨o', ob, h1, h2, -⟩
    · simp only [evHist, List.filterMap_append, List.filterMap_cons, h1, List.filterMap_nil, List.append_nil]
      rw [h2]; exact ih
    · simp only [evHist, List.filterMap_append, List.filterMap_cons, h1, List.filterMap_nil]
      exact .snoc ih h2

theorem hist_append {Z : Source} {s0 s : Z.σ} {a b : List (Z.Op × Z.Out)} (h : Hist Z s0 (a ++ b) s) :
    ∃ m, Hist Z s0 a m ∧ Hist Z m b s := by
  generalize hab : a ++ b = ab at h
  induction h generalizing b with
  | nil =>
    obtain ⟨rfl, rfl⟩ := List.append_eq_nil_iff.1 hab
    exact ⟨_, .nil _, .nil _⟩
  | @snoc h s s' o out hh hs ih =>
    rcases List.eq_nil_or_concat b with rfl | ⟨b', x, rfl⟩
    · rw [List.append_nil] at hab
      subst hab
      exact ⟨_, .snoc hh hs, .nil _⟩
    · rw [List.concat_eq_append, ← List.append_assoc] at hab
      obtain ⟨h1, h2⟩ := List.append_inj' hab rfl
      cases h2
      obtain ⟨m, h3, h4⟩ := ih h1
      exact ⟨m, h3, by rw [List.concat_eq_append]; exact .snoc h4 hs⟩

theorem hist_nil {Z : Source} {s s' : Z.σ} (h : Hist Z s [] s') : s' = s := by
  generalize hy : ([] : List (Z.Op × Z.Out)) = y at h
  cases h with
  | nil => rfl
  | snoc _ _ => simp at hy

theorem hist_cons {Z : Source} {s0 s : Z.σ} {o : Z.Op} {out : Z.Out} {b : List (Z.Op × Z.Out)}
    (h : Hist Z s0 ((o, out) :: b) s) : ∃ m, Z.step s0 o = some (m, out) ∧ Hist Z m b s := by
  obtain ⟨m, h1, h2⟩ := hist_append (a := [(o, out)]) h
  refine ⟨m, ?_, h2⟩
  rw [← List.nil_append [(o, out)]] at h1
  generalize hx : [] ++ [(o, out)] = x at h1
  cases h1 with
  | nil => cases hx
  | @snoc h' s1 _ o' out' h3 h4 =>
    obtain ⟨rfl, h5⟩ := List.append_inj' hx rfl
    cases h5
    rw [← hist_nil h3]
    exact h4

/-- What `Told` says of a page, it says of its event streams. -/
theorem told_page {s0 s : Page} {h : List (PageOp × PageOut)} {i : Nat} (ht : Told pageSource s0 h s i) :
    Told eventSource s0.ev (evHist h) s.ev i := by
  obtain ⟨n, pre, mid, o, out, rfl, hp, hh, hmid, hw⟩ := ht
  have hx : ∃ op ob, out.ev = some (op, ob) ∧ eventSource.polls op ob = some (i, n) := by
    simp only [pageSource] at hp
    split at hp
    · next op ob h1 => exact ⟨op, ob, h1, hp⟩
    · cases hp
  obtain ⟨op, ob, h1, h2⟩ := hx
  refine ⟨n, evHist pre, evHist mid, op, ob, ?_, h2, page_hist hh, ?_, ?_⟩
  · simp only [evHist, List.filterMap_append, List.filterMap_cons, h1]
  · intro e he
    obtain ⟨⟨a, b⟩, h3, h4⟩ := List.mem_filterMap.1 he
    obtain ⟨k1, k2⟩ := hmid _ h3
    have h4 : b.ev = some e := h4
    simp only [pageSource, h4] at k1 k2
    refine ⟨k1, fun h5 h6 => k2 h5 ?_⟩
    obtain ⟨p1, p2, rfl⟩ := List.append_of_mem h3
    rw [← List.cons_append, ← List.append_assoc] at hh
    obtain ⟨m, h7, h8⟩ := hist_append hh
    obtain ⟨m', h9, -⟩ := hist_cons h8
    rcases page_events h9 with ⟨h10, -⟩ | ⟨o', ob', h10, -, h11⟩
    · rw [h4] at h10; cases h10
    · rw [h4] at h10
      cases h10
      rcases h11 with rfl | ⟨-, l, e', rfl⟩
      · exact h6
      · simp [eventSource] at h6
  · intro e he
    obtain ⟨⟨a, b⟩, h3, h4⟩ := List.mem_filterMap.1 he
    have h4 : b.ev = some e := h4
    have := hw _ h3
    simp only [h4] at this
    exact this

end Verif.Live
