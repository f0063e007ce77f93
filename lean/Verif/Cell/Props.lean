import Verif.Cell.Steps
/-!
# C22, C23, C24: ReactiveCell

A history is a list of operations with what was observed. A *change* is the end of a mutable borrow
(`dropGuard`).
-/
namespace Verif.Cell
variable {V : Type}

/-- States reachable from a new cell, with the history. -/
def Reach (v : V) (h : List (Op V × Out)) (s : Sys V) : Prop :=
  ∃ s0, init v = some s0 ∧ Run s0 h s

theorem run_wf {s s' : Sys V} {h : List (Op V × Out)} (hr : Run s h s') :
    ∀ slots, WF s slots → ∃ slots', WF s' slots' := by
  induction hr with
  | nil s => exact fun slots hw => ⟨slots, hw⟩
  | cons e _ ih =>
    intro slots hw
    obtain ⟨s1, o, slots1, e1, hw1, _, _⟩ := step_wf hw _ (allowed_of_step e)
    rw [e] at e1; cases e1
    exact ih slots1 hw1

theorem reach_wf {v : V} {h : List (Op V × Out)} {s : Sys V} (hr : Reach v h s) :
    ∃ slots, WF s slots := by
  obtain ⟨s0, e, hrun⟩ := hr
  obtain ⟨s1, e1, hw, _⟩ := init_wf v
  rw [e] at e1; cases e1
  exact run_wf hrun _ hw

/-- A listener that is not touched stays as it is, and so does its waker. -/
theorem run_same {s s' : Sys V} {h : List (Op V × Out)} (hr : Run s h s') :
    ∀ slots (i : Nat) (l : Listener) (w : Waker), WF s slots → s.listeners[i]? = some (some l) →
    (l.slot, w) ∈ slots → (∀ e ∈ h, e.1.touches i = false) →
    ∃ slots', WF s' slots' ∧ s'.listeners[i]? = some (some l) ∧ (l.slot, w) ∈ slots' ∧
      s.cell.version ≤ s'.cell.version ∧
      (s.cell.version < s'.cell.version ↔ h.any (fun e => e.1.isChange) = true) := by
  induction hr with
  | nil s => intro slots i l w hw hl hm _; exact ⟨slots, hw, hl, hm, Nat.le_refl _, by simp⟩
  | cons e _ ih =>
    rename_i s op o s1 h s2 _
    intro slots i l w hw hl hm ht
    obtain ⟨s1', o', slots1, e1, hw1, heff, _⟩ := step_wf hw _ (allowed_of_step e)
    rw [e] at e1; cases e1
    obtain ⟨hl1, hm1⟩ := heff.same i l (ht _ List.mem_cons_self) hl
    obtain ⟨slots', hw', hl', hm', hle, hlt⟩ := ih slots1 i l w hw1 hl1 (hm1 w hm)
      (fun e he => ht e (by simp [he]))
    have hv := heff.version
    refine ⟨slots', hw', hl', hm', by omega, ?_⟩
    simp only [List.any_cons, Bool.or_eq_true, ← hlt]
    cases hc : op.isChange with
    | true => simp only [hc, cond_true] at hv; simp; omega
    | false => simp only [hc, cond_false] at hv; simp; omega

/-- Nothing a program that respects borrows and lifetimes does makes the cell panic. -/
theorem no_panic {v : V} {h : List (Op V × Out)} {s : Sys V} (hr : Reach v h s) (op : Op V)
    (ha : allowed s op) : ∃ s' o, step s op = some (s', o) := by
  obtain ⟨slots, hw⟩ := reach_wf hr
  obtain ⟨s', o, _, e, _⟩ := step_wf hw op ha
  exact ⟨s', o, e⟩

/-- **C22, wake-up.** The waker of a listener's last poll is called by every change until the
listener is polled again or dropped. -/
theorem change_wakes {v : V} {pre mid : List (Op V × Out)} {s s1 s2 s3 : Sys V} {i : Nat}
    {w : Waker} {o o' : Out} (hr : Reach v pre s) (hp : step s (.poll i w) = some (s1, o))
    (hm : Run s1 mid s2) (hno : ∀ e ∈ mid, e.1.touches i = false)
    (hc : step s2 .dropGuard = some (s3, o')) : ∃ ws, o' = .woken ws ∧ w ∈ ws := by
  obtain ⟨slots, hw⟩ := reach_wf hr
  obtain ⟨s1', o1, slots1, e1, hw1, _, _, l, hl, hl1, _, hm1⟩ := step_wf hw _ (allowed_of_step hp)
  rw [hp] at e1; cases e1
  have hs : (pollResult s.cell.version l).1.slot = l.slot := pollResult_slot _ _
  obtain ⟨slots2, hw2, hl2, hm2, _, _⟩ := run_same hm slots1 i _ w hw1 hl1 (by rw [hs]; exact hm1) hno
  obtain ⟨s3', o3, slots3, e3, _, _, hd, _⟩ := step_wf hw2 _ (allowed_of_step hc)
  rw [hc] at e3; cases e3
  exact ⟨_, hd, List.mem_map.2 ⟨_, hm2, rfl⟩⟩

/-- **C22, readiness.** A listener that has been polled is ready at its next poll exactly if there
was a change in between (one or several). -/
theorem ready_iff_changed {v : V} {pre mid : List (Op V × Out)} {s s1 s2 s3 : Sys V} {i : Nat}
    {w w' : Waker} {o o' : Out} (hr : Reach v pre s) (hp : step s (.poll i w) = some (s1, o))
    (hm : Run s1 mid s2) (hno : ∀ e ∈ mid, e.1.touches i = false)
    (hp' : step s2 (.poll i w') = some (s3, o')) :
    o' = .polled (mid.any fun e => e.1.isChange) := by
  obtain ⟨slots, hw⟩ := reach_wf hr
  obtain ⟨s1', o1, slots1, e1, hw1, heff, _, l, hl, hl1, _, hm1⟩ := step_wf hw _ (allowed_of_step hp)
  rw [hp] at e1; cases e1
  have hs : (pollResult s.cell.version l).1.slot = l.slot := pollResult_slot _ _
  obtain ⟨slots2, hw2, hl2, hm2, hle, hlt⟩ := run_same hm slots1 i _ w hw1 hl1 (by rw [hs]; exact hm1) hno
  obtain ⟨s3', o3, slots3, e3, _, _, _, l', hl', _, ho, _⟩ := step_wf hw2 _ (allowed_of_step hp')
  rw [hp'] at e3; cases e3
  rw [hl2] at hl'; cases hl'
  subst ho
  -- the recorded version is the current one
  have hv := heff.version
  simp only [Op.isChange, cond_false, Nat.add_zero] at hv
  have h1 := hw.le i l hl
  have h2 := hw.ver
  have hrec : (pollResult s.cell.version l).1.lastVersion = s.cell.version := by
    simp only [pollResult]
    split
    · rfl
    · split
      · rfl
      · simp only; omega
  have : (pollResult s2.cell.version (pollResult s.cell.version l).1).2 =
      decide (s.cell.version < s2.cell.version) := by
    generalize (pollResult s.cell.version l).1 = m at *
    simp only [pollResult, hrec, if_neg (show ¬ s.cell.version = 0 by omega)]
    split <;> simp_all
  rw [this]
  congr 1
  rw [hv] at hlt
  cases hb : (mid.any fun e => e.1.isChange) with
  | true => rw [hb] at hlt; simpa using hlt.2 rfl
  | false => rw [hb] at hlt; simp at hlt ⊢; omega

/-- **C23 (partial: only listeners that were polled before the change).** -/
theorem polled_listener_covers_partial {v : V} {pre mid : List (Op V × Out)} {s s1 s2 s3 : Sys V}
    {i : Nat} {w w' : Waker} {o o' : Out} (hr : Reach v pre s)
    (hp : step s (.poll i w) = some (s1, o)) (hm : Run s1 mid s2)
    (hno : ∀ e ∈ mid, e.1.touches i = false) (hch : ∃ e ∈ mid, e.1.isChange = true)
    (hp' : step s2 (.poll i w') = some (s3, o')) : o' = .polled true := by
  rw [ready_iff_changed hr hp hm hno hp']
  congr 1
  rw [List.any_eq_true]; exact hch

/-- **C23, negation.** The first poll of a listener is pending, whatever changed since it was
created. -/
theorem fresh_listener_pending {v : V} {pre mid : List (Op V × Out)} {s s1 s2 s3 : Sys V} {w : Waker}
    {o o' : Out} (hr : Reach v pre s) (hl : step s .listen = some (s1, o)) (hm : Run s1 mid s2)
    (hno : ∀ e ∈ mid, e.1.touches s.listeners.length = false)
    (hp : step s2 (.poll s.listeners.length w) = some (s3, o')) : o' = .polled false := by
  obtain ⟨slots, hw⟩ := reach_wf hr
  obtain ⟨s1', o1, slots1, e1, hw1, _, _, l, hls, hl0⟩ := step_wf hw _ (allowed_of_step hl)
  rw [hl] at e1; cases e1
  have hl1 : s1.listeners[s.listeners.length]? = some (some l) := by rw [hls]; simp
  have hmem : l.slot ∈ slots1.map (·.1) := hw1.mem.1 (own_get hl1)
  obtain ⟨⟨x, w0⟩, hx, hxe⟩ := List.mem_map.1 hmem
  simp only at hxe; subst hxe
  obtain ⟨slots2, hw2, hl2, _⟩ := run_same hm slots1 _ l w0 hw1 hl1 hx hno
  obtain ⟨s3', o3, slots3, e3, _, _, _, l', hl', _, ho, _⟩ := step_wf hw2 _ (allowed_of_step hp)
  rw [hp] at e3; cases e3
  rw [hl2] at hl'; cases hl'
  subst ho
  simp [pollResult, hl0]

/-- Running operations, for the examples. -/
def exec (s : Sys V) : List (Op V) → Option (Sys V × List (Op V × Out))
  | [] => some (s, [])
  | op :: ops =>
    match step s op with
    | none => none
    | some (s1, o) =>
      match exec s1 ops with
      | none => none
      | some (s2, h) => some (s2, (op, o) :: h)

theorem run_of_exec : ∀ (ops : List (Op V)) (s s' : Sys V) (h : List (Op V × Out)),
    exec s ops = some (s', h) → Run s h s'
  | [], s, s', h, e => by cases e; exact .nil s
  | op :: ops, s, s', h, e => by
    simp only [exec] at e
    split at e
    · cases e
    · rename_i s1 o h1
      split at e
      · cases e
      · rename_i s2 h2 h3
        cases e
        exact .cons h1 (run_of_exec ops s1 s' h2 h3)

def execInit (v : V) (ops : List (Op V)) : Option (Sys V × List (Op V × Out)) :=
  match init v with
  | none => none
  | some s => exec s ops

theorem reach_of_exec {v : V} {ops : List (Op V)} {s' : Sys V} {h : List (Op V × Out)}
    (e : execInit v ops = some (s', h)) : Reach v h s' := by
  simp only [execInit] at e
  split at e
  · cases e
  · rename_i s hs
    exact ⟨s, hs, run_of_exec ops s s' h e⟩

theorem reach_seen_of_exec {v : V} {ops : List (Op V)} {h : List (Op V × Out)} {xs : List V}
    (e : (execInit v ops).map (fun r => (r.2, r.1.seen)) = some (h, xs)) :
    ∃ s, Reach v h s ∧ s.seen = xs := by
  simp only [Option.map_eq_some_iff, Prod.mk.injEq] at e
  obtain ⟨⟨s, h'⟩, e, rfl, rfl⟩ := e
  exact ⟨s, reach_of_exec e, rfl⟩

/-- **C23, witness**: create a listener, change the cell, poll the listener: it is pending, and it
was not woken (its slot only held the dummy waker). -/
theorem change_before_first_poll_is_lost : ∃ s, Reach 0 [(.listen, .unit), (.borrowMut, .unit),
    (.write 1, .unit), (.dropGuard, .woken [none]), (.poll 0 (some 7), .polled false)] s :=
  ⟨_, reach_of_exec (ops := [.listen, .borrowMut, .write 1, .dropGuard, .poll 0 (some 7)]) rfl⟩

/-- A run with two listeners, as in C22: both polled, two changes, then polls. -/
example : ∃ s, Reach 0 [(.listen, .unit), (.poll 0 (some 7), .polled false), (.listen, .unit),
    (.poll 1 (some 8), .polled false), (.borrowMut, .unit), (.dropGuard, .woken [some 7, some 8]),
    (.borrowMut, .unit), (.write 3, .unit), (.dropGuard, .woken [some 7, some 8]),
    (.poll 0 (some 9), .polled true), (.poll 0 (some 9), .polled false),
    (.dropListener 0, .unit), (.poll 1 (some 8), .polled true)] s :=
  ⟨_, reach_of_exec (ops := [.listen, .poll 0 (some 7), .listen, .poll 1 (some 8), .borrowMut,
    .dropGuard, .borrowMut, .write 3, .dropGuard, .poll 0 (some 9), .poll 0 (some 9),
    .dropListener 0, .poll 1 (some 8)]) rfl⟩

/-! ## C24 -/

/-- The value in the cell after a history. -/
def current (v : V) : List (Op V × Out) → V
  | [] => v
  | (.write x, _) :: h => current x h
  | _ :: h => current v h

theorem current_append (v : V) : ∀ (h h' : List (Op V × Out)),
    current v (h ++ h') = current (current v h) h'
  | [], h' => rfl
  | (op, o) :: h, h' => by
    cases op <;> simp only [List.cons_append, current] <;> exact current_append _ h h'

theorem data_step {s s' : Sys V} {slots : List (Nat × Waker)} {op : Op V} {o : Out} (hw : WF s slots)
    (e : step s op = some (s', o)) : s'.cell.data = current s.cell.data [(op, o)] := by
  obtain ⟨s1, o1, slots1, e1, _, _, hd⟩ := step_wf hw _ (allowed_of_step e)
  rw [e] at e1; cases e1
  cases op with
  | write v => rw [hd.2]; rfl
  | dropGuard => exact hd.2
  | forEachPoll w => obtain ⟨_, _, a, h⟩ := hd; rw [h]; rfl
  | borrowMut => rw [hd]; rfl
  | borrow => rw [hd]; rfl
  | dropRef => rw [hd]; rfl
  | listen => obtain ⟨⟨a, h⟩, _⟩ := hd; rw [h]; rfl
  | poll i w => obtain ⟨⟨a, h⟩, _⟩ := hd; rw [h]; rfl
  | dropListener i => obtain ⟨a, h⟩ := hd; rw [h]; rfl
  | forEachDrop => obtain ⟨a, h⟩ := hd; rw [h]; rfl

theorem data_run {s s' : Sys V} {h : List (Op V × Out)} (hr : Run s h s') :
    ∀ slots, WF s slots → s'.cell.data = current s.cell.data h := by
  induction hr with
  | nil s => intro _ _; rfl
  | cons e _ ih =>
    rename_i s op o s1 h s2 _
    intro slots hw
    obtain ⟨s1', o1, slots1, e1, hw1, _, _⟩ := step_wf hw _ (allowed_of_step e)
    rw [e] at e1; cases e1
    rw [ih slots1 hw1, data_step hw e]
    exact (current_append s.cell.data [(op, o)] h).symm

theorem reach_data {v : V} {h : List (Op V × Out)} {s : Sys V} (hr : Reach v h s) :
    s.cell.data = current v h := by
  obtain ⟨s0, e, hrun⟩ := hr
  obtain ⟨s1, e1, hw, hd, _⟩ := init_wf v
  rw [e] at e1; cases e1
  rw [data_run hrun _ hw, hd]

/-- **C24, first poll.** The closure is called once with the current value. -/
theorem forEach_first {v : V} {pre : List (Op V × Out)} {s s1 : Sys V} {w : Waker} {o : Out}
    (hr : Reach v pre s) (hno : ∀ e ∈ pre, e.1.touchesFE = false)
    (hp : step s (.forEachPoll w) = some (s1, o)) : s1.seen = [current v pre] := by
  obtain ⟨slots, hw⟩ := reach_wf hr
  obtain ⟨s1', o1, slots1, e1, hw1, _, _, hseen, _⟩ := step_wf hw _ (allowed_of_step hp)
  rw [hp] at e1; cases e1
  have hst : s.forEach = .start ∧ s.seen = [] := by
    obtain ⟨s0, e, hrun⟩ := hr
    obtain ⟨s2, e2, hw2, _, h3, _, h4, _⟩ := init_wf v
    rw [e] at e2; cases e2
    clear hw hp hw1 hseen
    have : ∀ (s s' : Sys V) (h : List (Op V × Out)), Run s h s' → ∀ slots, WF s slots →
        (∀ e ∈ h, e.1.touchesFE = false) → s'.forEach = s.forEach ∧ s'.seen = s.seen := by
      intro s s' h hrun
      induction hrun with
      | nil s => intro _ _ _; exact ⟨rfl, rfl⟩
      | cons e _ ih =>
        intro slots hw hno
        obtain ⟨_, _, slots1, e1, hw1, heff, _⟩ := step_wf hw _ (allowed_of_step e)
        rw [e] at e1; cases e1
        obtain ⟨g1, g2⟩ := heff.fe (hno _ List.mem_cons_self)
        obtain ⟨g3, g4⟩ := ih slots1 hw1 (fun e he => hno e (by simp [he]))
        exact ⟨g3.trans g1, g4.trans g2⟩
    obtain ⟨g1, g2⟩ := this _ _ _ hrun _ hw2 hno
    exact ⟨g1.trans h3, g2.trans h4⟩
  rw [hseen, hst.1, hst.2, reach_data hr]; rfl

theorem run_fe {s s' : Sys V} {h : List (Op V × Out)} (hr : Run s h s') :
    ∀ slots (l : Listener) (w : Waker), WF s slots → s.forEach = .awaiting l →
    (l.slot, w) ∈ slots → (∀ e ∈ h, e.1.touchesFE = false) →
    ∃ slots', WF s' slots' ∧ s'.forEach = .awaiting l ∧ s'.seen = s.seen ∧ (l.slot, w) ∈ slots' ∧
      s.cell.version ≤ s'.cell.version ∧
      (s.cell.version < s'.cell.version ↔ h.any (fun e => e.1.isChange) = true) := by
  induction hr with
  | nil s => intro slots l w hw hl hm _; exact ⟨slots, hw, hl, rfl, hm, Nat.le_refl _, by simp⟩
  | cons e _ ih =>
    rename_i s op o s1 h s2 _
    intro slots l w hw hl hm ht
    obtain ⟨s1', o', slots1, e1, hw1, heff, _⟩ := step_wf hw _ (allowed_of_step e)
    rw [e] at e1; cases e1
    obtain ⟨hf1, hf2⟩ := heff.fe (ht _ List.mem_cons_self)
    obtain ⟨slots', hw', hl', hsn, hm', hle, hlt⟩ := ih slots1 l w hw1 (hf1.trans hl)
      (heff.feSlot l (ht _ List.mem_cons_self) hl w hm) (fun e he => ht e (by simp [he]))
    have hv := heff.version
    refine ⟨slots', hw', hl', hsn.trans hf2, hm', by omega, ?_⟩
    simp only [List.any_cons, Bool.or_eq_true, ← hlt]
    cases hc : op.isChange with
    | true => simp only [hc, cond_true] at hv; simp; omega
    | false => simp only [hc, cond_false] at hv; simp; omega

/-- **C24, later polls.** Between two polls of `for_each`: if there was a change the closure is
called once more, with the current value; otherwise it is not called. -/
theorem forEach_next {v : V} {pre mid : List (Op V × Out)} {s s1 s2 s3 : Sys V} {w w' : Waker}
    {o o' : Out} (hr : Reach v pre s) (hp : step s (.forEachPoll w) = some (s1, o))
    (hm : Run s1 mid s2) (hno : ∀ e ∈ mid, e.1.touchesFE = false)
    (hp' : step s2 (.forEachPoll w') = some (s3, o')) :
    s3.seen = s1.seen ++
      (if mid.any (fun e => e.1.isChange) = true then [current v (pre ++ (.forEachPoll w, o) :: mid)] else []) := by
  obtain ⟨slots, hw⟩ := reach_wf hr
  obtain ⟨s1', o1, slots1, e1, hw1, heff, ⟨l, hl, hlv, hlm⟩, _, _⟩ := step_wf hw _ (allowed_of_step hp)
  rw [hp] at e1; cases e1
  obtain ⟨slots2, hw2, hl2, hsn, _, hle, hlt⟩ := run_fe hm slots1 l w hw1 hl hlm hno
  obtain ⟨s3', o3, slots3, e3, _, _, _, hseen, _⟩ := step_wf hw2 _ (allowed_of_step hp')
  rw [hp'] at e3; cases e3
  have hv := heff.version
  simp only [Op.isChange, cond_false, Nat.add_zero] at hv
  have hdata : s2.cell.data = current v (pre ++ (.forEachPoll w, o) :: mid) := by
    rw [data_run hm slots1 hw1, data_step hw hp, reach_data hr, current_append]; rfl
  rw [hseen, hl2, hsn, ← hdata]
  simp only [hlv]
  congr 1
  rw [hv] at hlt
  by_cases hb : s.cell.version < s2.cell.version
  · rw [if_pos hb, if_pos (hlt.1 hb)]
  · rw [if_neg hb, if_neg (fun c => hb (hlt.2 c))]

/-- **C24, wake-up.** Every change after a poll of `for_each` calls the waker of that poll. -/
theorem forEach_woken {v : V} {pre mid : List (Op V × Out)} {s s1 s2 s3 : Sys V} {w : Waker}
    {o o' : Out} (hr : Reach v pre s) (hp : step s (.forEachPoll w) = some (s1, o))
    (hm : Run s1 mid s2) (hno : ∀ e ∈ mid, e.1.touchesFE = false)
    (hc : step s2 .dropGuard = some (s3, o')) : ∃ ws, o' = .woken ws ∧ w ∈ ws := by
  obtain ⟨slots, hw⟩ := reach_wf hr
  obtain ⟨s1', o1, slots1, e1, hw1, _, ⟨l, hl, hlv, hlm⟩, _, _⟩ := step_wf hw _ (allowed_of_step hp)
  rw [hp] at e1; cases e1
  obtain ⟨slots2, hw2, hl2, hsn, hm2, hle, hlt⟩ := run_fe hm slots1 l w hw1 hl hlm hno
  obtain ⟨s3', o3, slots3, e3, _, _, hd, _⟩ := step_wf hw2 _ (allowed_of_step hc)
  rw [hc] at e3; cases e3
  exact ⟨_, hd, List.mem_map.2 ⟨_, hm2, rfl⟩⟩

/-- Unless a mutable borrow is open or has ended since, the closure has seen the value. -/
def UpToDate (s : Sys V) : Prop :=
  ∀ l, s.forEach = .awaiting l → l.lastVersion = s.cell.version → s.cell.writing = false →
    s.seen.getLast? = some s.cell.data

theorem upToDate_step {s s' : Sys V} {slots : List (Nat × Waker)} {op : Op V} {o : Out}
    (hw : WF s slots) (hu : UpToDate s) (e : step s op = some (s', o)) : UpToDate s' := by
  obtain ⟨s1, o1, slots1, e1, _, heff, hd⟩ := step_wf hw _ (allowed_of_step e)
  rw [e] at e1; cases e1
  have plain : op.touchesFE = false → Same s.cell s'.cell → UpToDate s' := by
    rintro ht ⟨a, h⟩ l hl
    obtain ⟨h1, h2⟩ := heff.fe ht
    rw [h, h2]; rw [h1] at hl; exact hu l hl
  cases op with
  | listen => exact plain rfl hd.1
  | poll i w => exact plain rfl hd.1
  | dropListener i => exact plain rfl hd
  | write v =>
    intro l _ _ hf
    rw [hd.2] at hf; simp only at hf; rw [hd.1] at hf; cases hf
  | borrowMut => intro l _ _ hf; rw [hd] at hf; cases hf
  | borrow =>
    obtain ⟨h1, h2⟩ := heff.fe rfl
    intro l hl; rw [hd, h2]; rw [h1] at hl; exact hu l hl
  | dropRef =>
    obtain ⟨h1, h2⟩ := heff.fe rfl
    intro l hl; rw [hd, h2]; rw [h1] at hl; exact hu l hl
  | dropGuard =>
    obtain ⟨h1, h2⟩ := heff.fe rfl
    intro l hl hv
    rw [h1] at hl
    have := hw.fe l hl
    have := heff.version
    simp only [Op.isChange, cond_true] at this
    omega
  | forEachDrop =>
    intro l hl
    simp only [step] at e
    split at e
    · cases e; cases hl
    · simp only [bind, Option.bind] at e
      split at e
      · cases e
      · cases e; cases hl
    · cases e
  | forEachPoll w =>
    obtain ⟨⟨l, hl, hlv, _⟩, hseen, a, hsame⟩ := hd
    obtain ⟨hf, hne⟩ := allowed_of_step e
    have hwr : s.cell.writing = false := by
      simp only [Inner.free, Bool.and_eq_true, Bool.not_eq_true'] at hf; exact hf.1
    intro m hm _ _
    rw [hseen, hsame]
    match hfe : s.forEach with
    | .dropped => exact (hne hfe).elim
    | .start => simp
    | .awaiting k =>
      by_cases hk : k.lastVersion < s.cell.version
      · simp [hk]
      · have := hw.fe k hfe
        simp only [if_neg hk, List.append_nil]
        exact hu k hfe (by omega) hwr

/-- **C24.** After every poll of `for_each` the last value given to the closure is the current value
of the cell. -/
theorem forEach_up_to_date {v : V} {pre : List (Op V × Out)} {s s1 : Sys V} {w : Waker} {o : Out}
    (hr : Reach v pre s) (hp : step s (.forEachPoll w) = some (s1, o)) :
    s1.seen.getLast? = some (current v pre) := by
  obtain ⟨slots, hw⟩ := reach_wf hr
  have hu : UpToDate s := by
    obtain ⟨s0, e, hrun⟩ := hr
    obtain ⟨s2, e2, hw2, hdat, h3, hrest⟩ := init_wf v
    rw [e] at e2; cases e2
    clear hdat hrest
    have h0 : UpToDate s0 := by intro l hl; rw [h3] at hl; cases hl
    clear hw hp e h3
    generalize ([] : List (Nat × Waker)) = sl at hw2
    induction hrun generalizing sl with
    | nil => exact h0
    | cons e _ ih =>
      obtain ⟨_, _, slots1, e1, hw1, _, _⟩ := step_wf hw2 _ (allowed_of_step e)
      rw [e] at e1; cases e1
      exact ih (upToDate_step hw2 h0 e) slots1 hw1
  obtain ⟨s1', o1, slots1, e1, hw1, heff, ⟨l, hl, hlv, _⟩, _, a, hsame⟩ := step_wf hw _ (allowed_of_step hp)
  rw [hp] at e1; cases e1
  obtain ⟨hf, _⟩ := allowed_of_step hp
  have hwr : s.cell.writing = false := by
    simp only [Inner.free, Bool.and_eq_true, Bool.not_eq_true'] at hf; exact hf.1
  have := upToDate_step hw hu hp l hl (by rw [hsame, hlv]) (by rw [hsame]; exact hwr)
  rw [this, hsame, ← reach_data hr]

/-- `for_each` over three values: the closure sees 0, then (two changes later) 2, and nothing new
without a change. -/
example : ∃ s, Reach 0 [(.forEachPoll (some 7), .unit), (.borrowMut, .unit), (.write 1, .unit),
    (.dropGuard, .woken [some 7]), (.borrowMut, .unit), (.write 2, .unit),
    (.dropGuard, .woken [some 7]), (.forEachPoll (some 8), .unit), (.forEachPoll (some 9), .unit)] s ∧
    s.seen = [0, 2] :=
  reach_seen_of_exec (ops := [.forEachPoll (some 7), .borrowMut, .write 1, .dropGuard, .borrowMut,
    .write 2, .dropGuard, .forEachPoll (some 8), .forEachPoll (some 9)]) (by rfl)

end Verif.Cell
