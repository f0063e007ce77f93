import Verif.Live.Example
import Verif.Events.Props
/-!
# C52: apps that wait for events
-/
namespace Verif.Live
open Verif

section
variable {V S O : Type}

/-- Event streams (`Verif.Events`) as something to wait for. Waker number `n` is `n + 1` there, since 0 is the
dummy, with which nobody polls. -/
abbrev eventSource : Source where
  σ := Events.World
  Op := Events.Op
  Out := Events.Obs
  step s op := match op with
    | .poll _ 0 => none
    | op => Events.step s op
  wakes o := match o.woke with
    | some (n + 1) => [n]
    | _ => []
  Key := Nat
  dec := inferInstance
  polls op _ := match op with
    | .poll i (n + 1) => some (i, n)
    | _ => none
  drops
    | .drop i => some i
    | _ => none

theorem eventSource_step {s s' : Events.World} {op : Events.Op} {o : Events.Obs}
    (h : eventSource.step s op = some (s', o)) : Events.step s op = some (s', o) ∧ ∀ i, op ≠ .poll i 0 := by
  simp only [eventSource] at h
  split at h
  · cases h
  · next h1 => exact ⟨h, h1⟩

theorem event_hist {s s' : eventSource.σ} {h : List (eventSource.Op × eventSource.Out)}
    (hh : Hist eventSource s h s') :
    Events.run s (h.map (·.1)) = some (s', h.map (·.2)) ∧ ∀ e ∈ h, ∀ i, e.1 ≠ .poll i 0 := by
  induction hh with
  | nil => exact ⟨rfl, by simp⟩
  | snoc _ hs ih =>
    obtain ⟨h1, h2⟩ := eventSource_step hs
    refine ⟨?_, ?_⟩
    · rw [List.map_append, Events.run_append, ih.1]
      simp [Events.run, h1]
    · intro e he
      rcases List.mem_append.1 he with he | he
      · exact ih.2 e he
      · simp only [List.mem_singleton] at he
        subst he
        exact h2

/-- The last event delivered is unread, or was the last that was yielded. -/
theorem last_delivered {H : Events.History} (i : Nat) {ops : List Events.Op} :
    ((H.view i).unread.toList ++ Events.delivered i H ops).getLast? =
      ((ops.foldl Events.History.next H).view i).unread.or (Events.yielded i ops (Events.observed H ops)).getLast? := by
  induction ops generalizing H with
  | nil => cases h : (H.view i).unread <;> simp [Events.yielded, Events.delivered, h]
  | cons op ops ih =>
    simp only [List.foldl_cons]
    have ih := ih (H := H.next op)
    cases op with
    | poll j w =>
      simp only [Events.observed, Events.yielded, Events.delivered, List.nil_append]
      by_cases hj : j = i
      · subst hj
        have hv : ((H.next (.poll j w)).view j).unread = none := by
          simp [Events.History.next, Events.History.upd]
        rw [hv] at ih
        simp only [Option.toList_none, List.nil_append] at ih
        simp only [if_true, Events.History.obs, Option.join_some]
        rw [List.getLast?_append, ih, List.getLast?_append, Option.or_assoc]
      · have hj' : i ≠ j := fun e => hj e.symm
        have hv : (H.next (.poll j w)).view i = H.view i := by
          simp [Events.History.next, Events.History.upd, hj']
        simp only [hj, if_false, List.nil_append]
        rw [hv] at ih; exact ih
    | deliver l e =>
      simp only [Events.observed, Events.yielded, Events.delivered]
      rw [← ih]
      cases ho : H.order[l.callback]? with
      | none => simp [Events.History.next, ho]
      | some j =>
        by_cases hj : j = i
        · subst hj
          simp [Events.History.next, ho, Events.History.upd, List.getLast?_append, List.getLast?_cons]
        · have hj' : i ≠ j := fun e => hj e.symm
          simp [Events.History.next, ho, Events.History.upd, hj, hj']
    | new t y => simpa [Events.observed, Events.yielded, Events.delivered, Events.History.next] using ih
    | drop j =>
      have hv : ((H.next (.drop j)).view i).unread = (H.view i).unread := by
        simp only [Events.History.next, Events.History.upd]; split <;> rfl
      rw [hv] at ih
      simpa [Events.observed, Events.yielded, Events.delivered] using ih
    | setCapture j b =>
      have hv : ((H.next (.setCapture j b)).view i).unread = (H.view i).unread := by
        simp only [Events.History.next, Events.History.upd]; split
        · split <;> rfl
        · rfl
      rw [hv] at ih
      simpa [Events.observed, Events.yielded, Events.delivered] using ih
    | setPassive j b =>
      have hv : ((H.next (.setPassive j b)).view i).unread = (H.view i).unread := by
        simp only [Events.History.next, Events.History.upd]; split
        · split <;> rfl
        · rfl
      rw [hv] at ih
      simpa [Events.observed, Events.yielded, Events.delivered] using ih

/-- A stream that was polled with waker `n + 1`, is alive and has nothing unread. -/
def Quiet (H : Events.History) (i n : Nat) : Prop :=
  (H.view i).waker = some (n + 1) ∧ (H.view i).dropped = false ∧ (H.view i).unread = none

theorem quiet_run {i n : Nat} {mid : List (Events.Op × Events.Obs)} {H : Events.History}
    (ho : mid.map (·.2) = Events.observed H (mid.map (·.1))) (hq : Quiet H i n)
    (hp : ∀ e ∈ mid, ∀ w, e.1 ≠ .poll i w) (hd : ∀ e ∈ mid, e.1 ≠ .drop i)
    (hw : ∀ e ∈ mid, e.2.woke ≠ some (n + 1)) : Quiet ((mid.map (·.1)).foldl Events.History.next H) i n := by
  induction mid generalizing H with
  | nil => exact hq
  | cons x mid ih =>
    obtain ⟨op, o⟩ := x
    simp only [List.map_cons, Events.observed, List.cons.injEq] at ho
    obtain ⟨rfl, ho⟩ := ho
    refine ih ho ?_ (fun e he => hp e (.tail _ he)) (fun e he => hd e (.tail _ he)) (fun e he => hw e (.tail _ he))
    have hp := hp _ (.head _)
    have hd := hd _ (.head _)
    have hw := hw _ (.head _)
    obtain ⟨q1, q2, q3⟩ := hq
    cases op with
    | poll j w =>
      have hj : i ≠ j := fun e => hp w (by rw [e])
      simp [Quiet, Events.History.next, Events.History.upd, hj, q1, q2, q3]
    | drop j =>
      have hj : i ≠ j := fun e => hd (by rw [e])
      simp [Quiet, Events.History.next, Events.History.upd, hj, q1, q2, q3]
    | new t y => exact ⟨q1, q2, q3⟩
    | setCapture j b =>
      by_cases hj : i = j
      · subst hj; simp [Quiet, Events.History.next, Events.History.upd, q1, q2, q3]
      · simp [Quiet, Events.History.next, Events.History.upd, hj, q1, q2, q3]
    | setPassive j b =>
      by_cases hj : i = j
      · subst hj; simp [Quiet, Events.History.next, Events.History.upd, q1, q2, q3]
      · simp [Quiet, Events.History.next, Events.History.upd, hj, q1, q2, q3]
    | deliver l e =>
      cases hol : H.order[l.callback]? with
      | none => simp [Quiet, Events.History.next, hol, q1, q2, q3]
      | some j =>
        by_cases hj : i = j
        · subst hj
          simp [Events.History.obs, hol, q1, q2] at hw
        · simp [Quiet, Events.History.next, Events.History.upd, hol, hj, q1, q2, q3]

/-- A stream whose waker has not been woken since it was polled has nothing unread. -/
theorem told_quiet {s : Events.World} {hist : List (Events.Op × Events.Obs)} {i : Nat}
    (ht : Told eventSource Events.init hist s i) :
    ∃ n, Quiet ((hist.map (·.1)).foldl Events.History.next {}) i n := by
  obtain ⟨n, pre, mid, o, out, hh, hp, hhist, hmid, hwk⟩ := ht
  obtain ⟨hrun, hdum⟩ := event_hist hhist
  have ho : o = .poll i (n + 1) := by
    simp only [eventSource] at hp
    split at hp
    · cases hp; rfl
    · cases hp
  subst ho
  have hobs := (Events.inv_run Events.inv_init hrun).2
  refine ⟨n, ?_⟩
  rw [hh] at hrun ⊢
  have hrun' := hrun
  rw [List.map_append, List.map_cons, Events.run_append] at hrun
  obtain ⟨⟨W1, os1⟩, r1, r2⟩ := Option.bind_eq_some_iff.1 hrun
  obtain ⟨⟨W2, os2⟩, r2, -⟩ := Option.map_eq_some_iff.1 r2
  simp only [Events.run, Option.bind_eq_bind, Option.bind_eq_some_iff, Option.some.injEq, Prod.mk.injEq] at r2
  obtain ⟨⟨W3, o3⟩, r3, -⟩ := r2
  obtain ⟨i1, -⟩ := Events.inv_run Events.inv_init r1
  have hdrop : (((pre.map (·.1)).foldl Events.History.next {}).view i).dropped = false := by
    rw [Bool.eq_false_iff]
    intro hd
    have := (i1.gone i).2 hd
    simp [Events.step, this] at r3
  rw [List.map_append, List.map_cons, List.foldl_append, List.foldl_cons]
  refine quiet_run ?_ ?_ ?_ ?_ ?_
  · rw [hh, List.map_append, List.map_append, List.map_cons, List.map_cons, Events.observed_append] at hobs
    have hlen : (pre.map (·.2)).length = (Events.observed {} (pre.map (·.1))).length := by
      have : ∀ (H : Events.History) (ops : List Events.Op), (Events.observed H ops).length = ops.length := by
        intro H ops
        induction ops generalizing H with
        | nil => rfl
        | cons op ops ih => simp [Events.observed, ih]
      rw [this]; simp
    have := (List.append_inj hobs hlen).2
    simp only [Events.observed, List.cons.injEq] at this
    exact this.2
  · simp [Quiet, Events.History.next, Events.History.upd, hdrop]
  · intro e he w' hx
    cases w' with
    | zero => exact hdum e (by rw [hh]; simp [he]) i hx
    | succ m => exact (hmid e he).1 m (by simp only [eventSource, hx])
  · intro e he hx
    exact (hmid e he).2 (by simp only [eventSource, hx]) (by simp only [eventSource, hx])
  · intro e he hx
    exact hwk e he (by simp [eventSource, hx])

/-- **C52**, from what is known of the streams. -/
theorem told_event_yielded {s : Events.World} {hist : List (Events.Op × Events.Obs)} {i : Nat}
    (ht : Told eventSource Events.init hist s i) :
    (Events.yielded i (hist.map (·.1)) (hist.map (·.2))).getLast? =
      (Events.delivered i {} (hist.map (·.1))).getLast? := by
  obtain ⟨n, hq⟩ := told_quiet ht
  obtain ⟨-, -, -, -, -, -, -, hhist, -⟩ := ht
  have hobs := (Events.inv_run Events.inv_init (event_hist hhist).1).2
  have hlast := last_delivered (H := {}) i (ops := hist.map (·.1))
  rw [← hobs] at hlast
  simp only [Option.toList_none, List.nil_append] at hlast
  rw [hlast, hq.2.2]; rfl

/-- **C52.** Whenever the browser is idle, an awaited event stream has yielded the last event that the browser
delivered to it. -/
theorem idle_event_yielded {es : List (Event eventSource V S O)} {w : World eventSource V S O}
    (h : run (init Events.init) es = some w) (hm : ∃ t, .app (.mount t) ∈ es) (hidle : Idle w)
    {i : Nat} (hk : Awaited w i) :
    (Events.yielded i (w.hist.map (·.1)) (w.hist.map (·.2))).getLast? =
      (Events.delivered i {} (w.hist.map (·.1))).getLast? :=
  told_event_yielded (idle_not_woken h hm hidle hk)

/-! ### A concrete case -/

theorem exEvent_view : (run (init Events.init) (exEvents eventSource [.new 3 7, .poll 0 1]
    [.deliver ⟨3, 7, 0, false, false⟩ 100] [.poll 0 2])).map
      (fun (w : World eventSource Nat Nat (List Nat)) => (view w, Events.delivered 0 {} (w.hist.map (·.1)))) =
    some (exView (0 : Nat), [100]) := by rfl

/-- A stream deep inside a task; one event is delivered. -/
example : ∃ w, run (init Events.init) (exEvents eventSource [.new 3 7, .poll 0 1]
    [.deliver ⟨3, 7, 0, false, false⟩ 100] [.poll 0 2]) = some w ∧ Idle w ∧ Awaited w (0 : Nat) ∧
    Events.delivered 0 {} (w.hist.map (·.1)) = [100] := by
  obtain ⟨w, hw, hv⟩ := Option.map_eq_some_iff.1 exEvent_view
  simp only [Prod.mk.injEq] at hv
  obtain ⟨i1, i2⟩ := ex_idle hv.1
  exact ⟨w, hw, i1, i2, hv.2⟩

end
end Verif.Live
