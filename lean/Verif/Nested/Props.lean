import Verif.Nested.Demand
import Verif.Comb.Props
/-!
# Property theorems for C48
-/
namespace Verif.Nested
open Verif.Comb
variable {V S O : Type}

theorem run_append {s : Sys V S O} (es es' : List (Event V S O)) :
    run s (es ++ es') = (run s es).bind (run · es') := by
  induction es generalizing s with
  | nil => rfl
  | cons e es ih =>
    simp only [List.cons_append, run]
    cases step s e with
    | none => rfl
    | some s => exact ih

theorem not_fin {s : Sys V S O} (h : Inv s) {q : Place} {c i : Nat} {o : Obj V S O} (hq : s.child q = some c)
    (ho : s.objs[c]? = some o) (hi : o.Has i) (hr : .returned (.sub c i) ∉ s.log) :
    i < o.size ∧ ¬ o.fin i ∧ ¬ o.gone i := by
  obtain ⟨h1, h2⟩ := Obj.has_iff.1 hi
  exact ⟨h1, fun hf => hr (((h.own hq ho (by simp)).fin i h1).1 hf), h2⟩

theorem rest_nil {s : Sys V S O} (h : Inv s) (hst : s.stack = []) {q : Place} {c : Nat} {o : Obj V S O}
    (hq : s.child q = some c) (ho : s.objs[c]? = some o) : o.rest = [] := by
  have h1 := h.own hq ho (by simp)
  apply Obj.rest_nil
  cases hp : o.busy with
  | none => rfl
  | some i =>
    have := h1.busy i hp
    rw [hst] at this; simp [places] at this

/-- No wake-up is lost on the way up: between polls, if any part of a task, however deep, has been woken
since its latest poll (or has never been polled), then so has the task itself. -/
theorem nested_wake_reaches_task (es : List (Event V S O)) (s : Sys V S O) (h : run init es = some s)
    (hr : Rest s) (t : Nat) (p : Place) (hp : PartOf s t p) (hn : NeedsPoll p s.log) :
    NeedsPoll (.task t) s.log := by
  have hI : Inv s := run_inv init_inv h
  induction hp with
  | task => exact hn
  | @sub q c i o hq hc ho hi hret ih =>
    apply ih
    have h1 := hI.own hc ho (by simp)
    obtain ⟨g1, g2, g3⟩ := not_fin hI hc ho hi hret
    have h2 := h1.need i g1 g2 g3 hn
    rw [rest_nil hI hr.1 hc ho] at h2
    have h3 : i ∈ o.awake := by simpa using h2
    have h4 : o.Urgent := (h1.ok.urgent h3).resolve_right (by rw [rest_nil hI hr.1 hc ho]; simp)
    rcases (hI.link q c o hc ho (by simp)).pend h4 with h4 | h4 | h4
    · exact h4
    · rw [hr.2] at h4; cases h4
    · exact absurd h4 (not_top_of_nil hr.1 _)

/-- No wake-up is lost on the way down: let the task be polled, in whatever happens between two moments
at which nothing is being polled. Every part of the task that needed to be polled at the first moment and
is still there at the second has been polled in between, except for an item that has been inserted in between, and
for the items (and what is inside of them) of a list whose `run` future has let others do something. -/
theorem nested_poll_reaches_part (es es' : List (Event V S O)) (s s' : Sys V S O) (h : run init es = some s)
    (hr : Rest s) (h' : run s es' = some s') (hr' : s'.stack = []) :
    ∃ new, s'.log = new ++ s.log ∧ ∀ t p, .polled (.task t) ∈ new → PartOf s' t p → NeedsPoll p s.log →
      .polled p ∈ new ∨
      (∃ c i, p = .sub c i ∧ .inserted c i ∈ new ∧ ∀ o : Obj V S O, s.objs[c]? = some o → ¬ o.Has i) ∨
      ∃ c, .yielded c ∈ new ∧ InList s' c p := by
  have hI : Inv s := run_inv init_inv h
  have hI' : Inv s' := run_inv hI h'
  have hK : Known s := run_known init_inv init_known h
  have hK' : Known s' := run_known hI hK h'
  obtain ⟨-, new, hJ⟩ := run_J hI (J.start hI hr.2) h'
  refine ⟨new, hJ.log, ?_⟩
  intro t p ht hp hn
  by_cases hm : .polled p ∈ new
  · exact .inl hm
  · right
    have key : Due s.log new p → Due s.log new (.task t) ∨ (∃ c i, p = .sub c i ∧ .inserted c i ∈ new) ∨
        ∃ c, .yielded c ∈ new ∧ InList s' c p := by
      clear hn hm
      induction hp with
      | task => exact .inl
      | @sub q c i o hq hc ho hi hret ih =>
        intro hd
        obtain ⟨g1, g2, g3⟩ := not_fin hI' hc ho hi hret
        have h2 := hJ.due q c o hc ho (by simp) i g1 g2 g3 hd
        rw [rest_nil hI' hr' hc ho] at h2
        rcases h2 with h2 | ⟨-, h2⟩ | h2 | h2
        · cases h2
        · have hdq := h2.resolve_right (not_top_of_nil hr' _)
          rcases ih hdq with h3 | ⟨c', i', rfl, h3⟩ | ⟨c', h3, h4⟩
          · exact .inl h3
          · -- an item that has never been polled does not await anything
            exfalso
            have h4 := hK'.par _ _ hc
            rw [hJ.log] at h4
            rcases List.mem_append.1 h4 with h5 | h5
            · exact hdq.2 h5
            · obtain ⟨o', h6, h7⟩ := hK.seen _ _ h5
              have := hJ.fresh _ _ h3 o' h6
              omega
          · exact .inr (.inr ⟨c', h3, .sub h4 hc⟩)
        · exact .inr (.inr ⟨c, h2, .item⟩)
        · exact .inr (.inl ⟨c, i, rfl, h2⟩)
    rcases key ⟨hn, hm⟩ with h1 | ⟨c, i, h1, h2⟩ | h1
    · exact absurd ht h1.2
    · refine .inl ⟨c, i, h1, h2, fun o ho hi => ?_⟩
      have := hJ.fresh c i h2 o ho
      have := (Obj.has_iff.1 hi).1
      omega
    · exact .inr h1

/-- Together: a part of a task that is woken between polls is polled when the task is polled next, for
which the task has been woken, unless it is gone by then; or else a list it is in has let others do something, and then
the task has been woken again. -/
theorem nested_wake_is_served (es es' : List (Event V S O)) (s s' : Sys V S O) (h : run init es = some s)
    (hr : Rest s) (t : Nat) (p : Place) (hp : PartOf s t p) (hn : NeedsPoll p s.log)
    (h' : run s (.pollTask t :: es') = some s') (hr' : s'.stack = []) (hp' : PartOf s' t p) :
    NeedsPoll (.task t) s.log ∧ ∃ new, s'.log = new ++ s.log ∧
      (.polled p ∈ new ∨
        ((∃ c, .yielded c ∈ new ∧ InList s' c p) ∧ (s'.waking = none → NeedsPoll (.task t) s'.log))) := by
  refine ⟨nested_wake_reaches_task es s h hr t p hp hn, ?_⟩
  obtain ⟨new, h1, h2⟩ := nested_poll_reaches_part es (.pollTask t :: es') s s' h hr h' hr'
  have h0 := h'
  simp only [run, step, if_pos (show s.stack = [] ∧ s.waking = none from hr)] at h'
  have hI : Inv s := run_inv init_inv h
  obtain ⟨-, new2, hJ⟩ := run_J (pollTask_inv hI t hr.1) (s' := s')
    (J.start (s := { s with stack := [⟨.task t, false⟩], log := .polled (.task t) :: s.log })
      (pollTask_inv hI t hr.1) hr.2) h'
  have h3 := hJ.log
  rw [h1, List.append_cons] at h3
  have ht : .polled (.task t) ∈ new := by
    rw [List.append_cancel_right h3]
    simp
  refine ⟨new, h1, ?_⟩
  by_cases hm : .polled p ∈ new
  · exact .inl hm
  right
  refine ⟨?_, fun hw => ?_⟩
  · rcases h2 t p ht hp' hn with h4 | ⟨c, i, rfl, h4, h5⟩ | h4
    · exact absurd h4 hm
    · exfalso
      cases hp with
      | @sub q _ _ o hq hc ho hi hret => exact h5 o ho hi
    · exact h4
  · have hrun : run init (es ++ .pollTask t :: es') = some s' := by rw [run_append, h]; exact h0
    refine nested_wake_reaches_task _ s' hrun ⟨hr', hw⟩ t p hp' ?_
    rw [h1]
    exact Due.needs ⟨hn, hm⟩

/-! ### A concrete case: a race inside a join -/

/-- A race whose output is a list. -/
def raceL : Behavior Nat Nat (List Nat) := ⟨true, fun v => .inr [v], fun _ => none⟩

/-- The task joins a block and a leaf; the block races two leaves. Everything is pending. The second leaf of
the race is woken. -/
def exStart : List (Event Nat Nat (List Nat)) :=
  [.pollTask 0, .create (joinCfg .vec true Nat) 2, .await, .create ⟨.array, false, raceL⟩ 2, .await, .ret none,
   .ret none, .ret none, .ret none, .ret none, .wake (.sub 1 1), .propagate, .propagate, .propagate]

/-- The task is polled: only the woken leaf is polled, and those above it. -/
def exPoll : List (Event Nat Nat (List Nat)) := [.pollTask 0, .await, .await, .ret none, .ret none, .ret none]

/-- How many blocks, and which of them have been removed. -/
def Obj.content : Obj V S O → Nat × List Nat
  | .comb o => (o.n, [])
  | .list l => (l.n, l.gone)

theorem Obj.has_content {o : Obj V S O} {n i : Nat} {g : List Nat} (h : o.content = (n, g)) (hi : i < n) (hg : i ∉ g) :
    o.Has i := by
  cases o with
  | comb o => cases h; exact hi
  | list l => cases h; exact ⟨hi, hg⟩

def view (s : Sys Nat Nat (List Nat)) :
    List Frame × Option Place × List Note × Option Nat × Option Nat × List (Nat × List Nat) :=
  (s.stack, s.waking, s.log, s.child (.task 0), s.child (.sub 0 0), s.objs.map Obj.content)

theorem exStart_view : (run init exStart).map view =
    some ([], none, [.woken (.task 0), .woken (.sub 0 0), .woken (.sub 1 1), .polled (.sub 0 1), .polled (.sub 1 1),
      .polled (.sub 1 0), .polled (.sub 0 0), .polled (.task 0)], some 0, some 1, [(2, []), (2, [])]) := by rfl

theorem exPoll_view : (run init (exStart ++ exPoll)).map view =
    some ([], none, [.polled (.sub 1 1), .polled (.sub 0 0), .polled (.task 0), .woken (.task 0), .woken (.sub 0 0),
      .woken (.sub 1 1), .polled (.sub 0 1), .polled (.sub 1 1),
      .polled (.sub 1 0), .polled (.sub 0 0), .polled (.task 0)], some 0, some 1, [(2, []), (2, [])]) := by rfl

theorem ex_part {s : Sys Nat Nat (List Nat)} (h1 : s.child (.task 0) = some 0) (h2 : s.child (.sub 0 0) = some 1)
    (h3 : s.objs.map Obj.content = [(2, []), (2, [])]) (h4 : ∀ p, .returned p ∉ s.log) : PartOf s 0 (.sub 1 1) := by
  obtain ⟨objs, child, stack, waking, log⟩ := s
  simp only at h1 h2 h3 h4
  simp only [List.map_eq_cons_iff, List.map_eq_nil_iff] at h3
  obtain ⟨o1, l, rfl, e1, o2, l', rfl, e2, rfl⟩ := h3
  exact .sub (.sub .task h1 (o := o1) rfl (o1.has_content e1 (by omega) (by simp)) (h4 _)) h2 (o := o2) rfl
    (o2.has_content e2 (by omega) (by simp)) (h4 _)

example : ∃ s s', run init exStart = some s ∧ Rest s ∧ PartOf s 0 (.sub 1 1) ∧ NeedsPoll (.sub 1 1) s.log ∧
    run s exPoll = some s' ∧ s'.stack = [] ∧ PartOf s' 0 (.sub 1 1) ∧ ¬ NeedsPoll (.sub 0 1) s.log := by
  obtain ⟨s, hs, hv⟩ := Option.map_eq_some_iff.1 exStart_view
  obtain ⟨s', hs', hv'⟩ := Option.map_eq_some_iff.1 exPoll_view
  rw [run_append, hs] at hs'
  simp only [view, Prod.mk.injEq] at hv hv'
  obtain ⟨a1, a2, a3, a4, a5, a6⟩ := hv
  obtain ⟨b1, b2, b3, b4, b5, b6⟩ := hv'
  refine ⟨s, s', hs, ⟨a1, a2⟩, ex_part a4 a5 a6 (by simp [a3]), by simp [a3, NeedsPoll], hs', b1,
    ex_part b4 b5 b6 (by simp [b3]), by simp [a3, NeedsPoll]⟩

/-! ### A concrete case: a race inside an item of a list -/

/-- The task renders a list of three items, whose `run` future runs two tasks at a time. The first item races two
leaves. The list lets others do something after the second item; it has woken the task. -/
def exList : List (Event Nat Nat (List Nat)) :=
  [.newList 2, .insert 0, .insert 0, .insert 0, .pollTask 0, .render 0, .await,
   .create ⟨.array, false, raceL⟩ 2, .await, .ret none, .ret none, .ret none, .ret none, .propagate, .ret none]

/-- The task is polled, and polls the third item; the second leaf of the race is woken. -/
def exListWoken : List (Event Nat Nat (List Nat)) :=
  [.pollTask 0, .await, .ret none, .ret none, .wake (.sub 1 1), .propagate, .propagate, .propagate]

/-- The task is polled: only the woken leaf is polled, and those above it. The list has again run two tasks. -/
def exListPoll : List (Event Nat Nat (List Nat)) :=
  [.pollTask 0, .await, .await, .ret none, .ret none, .propagate, .ret none]

theorem exList_view : (run init exList).map view =
    some ([], none, [.woken (.task 0), .yielded 0, .polled (.sub 0 1), .polled (.sub 1 1), .polled (.sub 1 0),
      .polled (.sub 0 0), .polled (.task 0), .inserted 0 2, .inserted 0 1, .inserted 0 0], some 0, some 1,
      [(3, []), (2, [])]) := by rfl

theorem exListWoken_view : (run init (exList ++ exListWoken)).map view =
    some ([], none, [.woken (.task 0), .woken (.sub 0 0), .woken (.sub 1 1), .polled (.sub 0 2), .polled (.task 0),
      .woken (.task 0), .yielded 0, .polled (.sub 0 1), .polled (.sub 1 1), .polled (.sub 1 0),
      .polled (.sub 0 0), .polled (.task 0), .inserted 0 2, .inserted 0 1, .inserted 0 0], some 0, some 1,
      [(3, []), (2, [])]) := by rfl

theorem exListPoll_view : (run init (exList ++ exListWoken ++ exListPoll)).map view =
    some ([], none, [.woken (.task 0), .yielded 0, .polled (.sub 1 1), .polled (.sub 0 0), .polled (.task 0), .woken (.task 0), .woken (.sub 0 0),
      .woken (.sub 1 1), .polled (.sub 0 2), .polled (.task 0),
      .woken (.task 0), .yielded 0, .polled (.sub 0 1), .polled (.sub 1 1), .polled (.sub 1 0),
      .polled (.sub 0 0), .polled (.task 0), .inserted 0 2, .inserted 0 1, .inserted 0 0], some 0, some 1,
      [(3, []), (2, [])]) := by rfl

theorem exList_part {s : Sys Nat Nat (List Nat)} (h1 : s.child (.task 0) = some 0) (h2 : s.child (.sub 0 0) = some 1)
    (h3 : s.objs.map Obj.content = [(3, []), (2, [])]) (h4 : ∀ p, .returned p ∉ s.log) :
    PartOf s 0 (.sub 1 1) ∧ PartOf s 0 (.sub 0 2) := by
  obtain ⟨objs, child, stack, waking, log⟩ := s
  simp only at h1 h2 h3 h4
  simp only [List.map_eq_cons_iff, List.map_eq_nil_iff] at h3
  obtain ⟨o1, l, rfl, e1, o2, l', rfl, e2, rfl⟩ := h3
  refine ⟨.sub (.sub .task h1 (o := o1) rfl (o1.has_content e1 (by omega) (by simp)) (h4 _)) h2 (o := o2) rfl
    (o2.has_content e2 (by omega) (by simp)) (h4 _), .sub .task h1 (o := o1) rfl (o1.has_content e1 (by omega) (by simp)) (h4 _)⟩

/-- After the first poll the third item has not been polled: the list has yielded, and the task is woken. -/
example : ∃ s, run init exList = some s ∧ Rest s ∧ PartOf s 0 (.sub 0 2) ∧ NeedsPoll (.sub 0 2) s.log ∧
    .yielded 0 ∈ s.log ∧ InList s 0 (.sub 0 2) ∧ InList s 0 (.sub 1 1) ∧ NeedsPoll (.task 0) s.log := by
  obtain ⟨s, hs, hv⟩ := Option.map_eq_some_iff.1 exList_view
  simp only [view, Prod.mk.injEq] at hv
  obtain ⟨a1, a2, a3, a4, a5, a6⟩ := hv
  exact ⟨s, hs, ⟨a1, a2⟩, (exList_part a4 a5 a6 (by simp [a3])).2, by simp [a3, NeedsPoll], by simp [a3], .item,
    .sub (.item (i := 0)) a5, by simp [a3, NeedsPoll]⟩

example : ∃ s s', run init (exList ++ exListWoken) = some s ∧ Rest s ∧ PartOf s 0 (.sub 1 1) ∧
    NeedsPoll (.sub 1 1) s.log ∧ run s exListPoll = some s' ∧ s'.stack = [] ∧ PartOf s' 0 (.sub 1 1) ∧
    ¬ NeedsPoll (.sub 0 1) s.log := by
  obtain ⟨s, hs, hv⟩ := Option.map_eq_some_iff.1 exListWoken_view
  obtain ⟨s', hs', hv'⟩ := Option.map_eq_some_iff.1 exListPoll_view
  rw [run_append, hs] at hs'
  simp only [view, Prod.mk.injEq] at hv hv'
  obtain ⟨a1, a2, a3, a4, a5, a6⟩ := hv
  obtain ⟨b1, b2, b3, b4, b5, b6⟩ := hv'
  refine ⟨s, s', hs, ⟨a1, a2⟩, (exList_part a4 a5 a6 (by simp [a3])).1, by simp [a3, NeedsPoll], hs', b1,
    (exList_part b4 b5 b6 (by simp [b3])).1, by simp [a3, NeedsPoll]⟩

end Verif.Nested
