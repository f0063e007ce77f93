import Verif.Cell.Props
/-!
# C67: reading a ReactiveCell and then waiting until it changes
-/
namespace Verif.Cell

section
variable {V : Type}

/-- The value `x` was read from the cell; then, before anything was written to it, listener `i` was polled; and all
polls of the listener since then were pending. This is a round of
`loop { .. cell.borrow() ..; cell.until_change().await }` that has not ended. -/
def ReadThenWaits (v : V) (i : Nat) (h : List (Op V × Out)) (x : V) : Prop :=
  ∃ pre a w o c, h = pre ++ a ++ (.poll i w, o) :: c ∧ x = current v pre ∧ (∀ e ∈ a, ∀ y, e.1 ≠ .write y) ∧
    ∀ e ∈ c, ∀ w b, e = (.poll i w, .polled b) → b = false

/-- Unless a mutable borrow is open or has ended since the last poll of listener `i`, the value is `x`. -/
structure Holds (x : V) (i : Nat) (s : Sys V) : Prop where
  lt : i < s.listeners.length
  val : ∀ l, s.listeners[i]? = some (some l) → l.lastVersion ≠ 0 ∧
    (l.lastVersion = s.cell.version → s.cell.writing = false → s.cell.data = x)

theorem listeners_step {s s' : Sys V} {op : Op V} {o : Out} {i : Nat} (e : step s op = some (s', o))
    (hi : i < s.listeners.length) : i < s'.listeners.length ∧
      (op.touches i = false → s'.listeners[i]? = s.listeners[i]?) ∧
      (op = .dropListener i → s'.listeners[i]? = some none) := by
  cases op with
  | borrowMut | write | borrow | dropRef =>
    simp only [step] at e
    split at e
    all_goals cases e
    all_goals exact ⟨hi, fun _ => rfl, (by intro h; cases h)⟩
  | dropGuard =>
    simp only [step] at e
    split at e
    · simp only [Option.bind_eq_bind, Option.bind_eq_some_iff, Option.pure_def, Option.some.injEq, Prod.mk.injEq] at e
      obtain ⟨_, _, rfl, _⟩ := e
      exact ⟨hi, fun _ => rfl, (by intro h; cases h)⟩
    · cases e
  | listen =>
    simp only [step, Option.bind_eq_bind, Option.bind_eq_some_iff, Option.pure_def, Option.some.injEq, Prod.mk.injEq] at e
    obtain ⟨_, _, rfl, _⟩ := e
    refine ⟨by simp; omega, fun _ => ?_, (by intro h; cases h)⟩
    exact List.getElem?_append_left hi
  | poll j w =>
    simp only [step] at e
    split at e
    · simp only [Option.bind_eq_bind, Option.bind_eq_some_iff, Option.pure_def, Option.some.injEq, Prod.mk.injEq] at e
      obtain ⟨_, _, rfl, _⟩ := e
      refine ⟨by simpa using hi, fun ht => ?_, (by intro h; cases h)⟩
      simp only [Op.touches, beq_eq_false_iff_ne] at ht
      exact List.getElem?_set_ne ht
    · cases e
  | dropListener j =>
    simp only [step] at e
    split at e
    · simp only [Option.bind_eq_bind, Option.bind_eq_some_iff, Option.pure_def, Option.some.injEq, Prod.mk.injEq] at e
      obtain ⟨_, _, rfl, _⟩ := e
      refine ⟨by simpa using hi, fun ht => ?_, ?_⟩
      · simp only [Op.touches, beq_eq_false_iff_ne] at ht
        exact List.getElem?_set_ne ht
      · intro h; cases h
        simp [hi]
    · cases e
  | forEachPoll w =>
    simp only [step, Option.bind_eq_bind, Option.bind_eq_some_iff, Option.pure_def, Option.some.injEq, Prod.mk.injEq] at e
    obtain ⟨_, _, rfl, _⟩ := e
    exact ⟨hi, fun _ => rfl, (by intro h; cases h)⟩
  | forEachDrop =>
    simp only [step] at e
    split at e
    · cases e; exact ⟨hi, fun _ => rfl, (by intro h; cases h)⟩
    · simp only [Option.bind_eq_bind, Option.bind_eq_some_iff, Option.pure_def, Option.some.injEq, Prod.mk.injEq] at e
      obtain ⟨_, _, rfl, _⟩ := e
      exact ⟨hi, fun _ => rfl, (by intro h; cases h)⟩
    · cases e

/-- What an operation that is not a change does to the value. -/
theorem quiet_step {s s' : Sys V} {slots : List (Nat × Waker)} {op : Op V} {o : Out} (hw : WF s slots)
    (e : step s op = some (s', o)) (hc : op.isChange = false) (hf : s'.cell.writing = false) :
    s.cell.writing = false ∧ s'.cell.data = s.cell.data ∧ s'.cell.version = s.cell.version := by
  obtain ⟨s1, o1, slots1, e1, _, heff, hd⟩ := step_wf hw _ (allowed_of_step e)
  rw [e] at e1; cases e1
  cases op with
  | dropGuard => cases hc
  | write v => rw [hd.2] at hf; simp only [hd.1] at hf; cases hf
  | borrowMut => rw [hd] at hf; cases hf
  | borrow => rw [hd] at hf ⊢; exact ⟨hf, rfl, rfl⟩
  | dropRef => rw [hd] at hf ⊢; exact ⟨hf, rfl, rfl⟩
  | listen =>
    obtain ⟨⟨a, h⟩, _⟩ := hd
    rw [h] at hf ⊢; exact ⟨hf, rfl, rfl⟩
  | poll i w =>
    obtain ⟨⟨a, h⟩, _⟩ := hd
    rw [h] at hf ⊢; exact ⟨hf, rfl, rfl⟩
  | forEachPoll w =>
    obtain ⟨_, _, a, h⟩ := hd
    rw [h] at hf ⊢; exact ⟨hf, rfl, rfl⟩
  | dropListener i =>
    obtain ⟨a, h⟩ := hd
    rw [h] at hf ⊢; exact ⟨hf, rfl, rfl⟩
  | forEachDrop =>
    obtain ⟨a, h⟩ := hd
    rw [h] at hf ⊢; exact ⟨hf, rfl, rfl⟩

theorem Holds.step {x : V} {i : Nat} {s s' : Sys V} {slots : List (Nat × Waker)} {op : Op V} {o : Out}
    (hw : WF s slots) (hh : Holds x i s) (e : step s op = some (s', o))
    (hp : ∀ w b, (op, o) = (.poll i w, .polled b) → b = false) : Holds x i s' := by
  obtain ⟨h1, h2, h3⟩ := listeners_step e hh.lt
  obtain ⟨s1, o1, slots1, e1, _, heff, hd⟩ := step_wf hw _ (allowed_of_step e)
  rw [e] at e1; cases e1
  refine ⟨h1, ?_⟩
  intro l hl
  cases ht : op.touches i with
  | false =>
    rw [h2 ht] at hl
    obtain ⟨k1, k2⟩ := hh.val l hl
    refine ⟨k1, ?_⟩
    intro hv hf
    cases hc : op.isChange with
    | true =>
      have := heff.version
      have := hw.le i l hl
      simp only [hc, cond_true] at *
      omega
    | false =>
      obtain ⟨q1, q2, q3⟩ := quiet_step hw e hc hf
      rw [q2]
      exact k2 (by omega) q1
  | true =>
    cases op with
    | poll j w =>
      simp only [Op.touches, beq_iff_eq] at ht
      subst ht
      obtain ⟨-, l0, hl0, hl1, ho, -⟩ := hd
      subst ho
      have hb := hp w _ rfl
      obtain ⟨k1, k2⟩ := hh.val l0 hl0
      rw [hl1] at hl; cases hl
      have hle := hw.le j l0 hl0
      have hsame : (pollResult s.cell.version l0).1 = l0 := by
        simp only [pollResult, if_neg k1] at hb ⊢
        split at hb
        · cases hb
        · next hlt => rw [if_neg hlt]
      rw [hsame]
      refine ⟨k1, ?_⟩
      intro hv hf
      obtain ⟨q1, q2, q3⟩ := quiet_step hw e rfl hf
      rw [q2]
      exact k2 (by omega) q1
    | dropListener j =>
      simp only [Op.touches, beq_iff_eq] at ht
      subst ht
      rw [h3 rfl] at hl; cases hl
    | _ => cases ht

theorem Holds.run {x : V} {i : Nat} {s s' : Sys V} {h : List (Op V × Out)} (hr : Run s h s') :
    ∀ slots, WF s slots → Holds x i s → (∀ e ∈ h, ∀ w b, e = (.poll i w, .polled b) → b = false) →
      Holds x i s' := by
  induction hr with
  | nil => intro _ _ hh _; exact hh
  | cons e _ ih =>
    intro slots hw hh hp
    obtain ⟨_, _, slots1, e1, hw1, _, _⟩ := step_wf hw _ (allowed_of_step e)
    rw [e] at e1; cases e1
    exact ih slots1 hw1 (hh.step hw e (hp _ (.head _))) fun e' he' => hp e' (.tail _ he')

theorem current_quiet {v : V} : ∀ {a : List (Op V × Out)}, (∀ e ∈ a, ∀ y, e.1 ≠ .write y) → current v a = v
  | [], _ => rfl
  | (op, o) :: a, h => by
    have ih : current v a = v := current_quiet fun e he => h e (.tail _ he)
    cases op with
    | write y => exact (h _ (.head _) y rfl).elim
    | _ => exact ih

/-- While a loop that has read the value waits, the value is the same unless a mutable borrow is open or has
ended since the last poll of its listener. -/
theorem read_then_waits {v x : V} {i : Nat} {h : List (Op V × Out)} {s : Sys V} (hr : Reach v h s)
    (hw : ReadThenWaits v i h x) : Holds x i s := by
  obtain ⟨pre, a, w, o, c, rfl, rfl, ha, hc⟩ := hw
  obtain ⟨s0, h0, hrun⟩ := hr
  have split : ∀ {h h' : List (Op V × Out)} {s s2 : Sys V}, Run s (h ++ h') s2 → ∃ s1, Run s h s1 ∧ Run s1 h' s2 := by
    intro h
    induction h with
    | nil => intro h' s s2 hr; exact ⟨s, .nil s, hr⟩
    | cons y h ih =>
      intro h' s s2 hr
      cases hr with
      | cons e hr =>
        obtain ⟨s1, h1, h2⟩ := ih hr
        exact ⟨s1, .cons e h1, h2⟩
  obtain ⟨s1, r1, r2⟩ := split hrun
  cases r2 with
  | cons e r2 =>
  rename_i s2
  have hreach : Reach v (pre ++ a) s1 := ⟨s0, h0, r1⟩
  obtain ⟨slots, hwf⟩ := reach_wf hreach
  obtain ⟨_, _, slots1, e1, hw1, heff, hsame, l, hl, hl1, ho, _⟩ := step_wf hwf _ (allowed_of_step e)
  rw [e] at e1; cases e1
  refine Holds.run r2 slots1 hw1 ⟨(List.getElem?_eq_some_iff.1 hl1).1, ?_⟩ hc
  intro l' hl'
  rw [hl1] at hl'; cases hl'
  refine ⟨?_, ?_⟩
  · have hv := hwf.ver
    simp only [pollResult]
    split
    · simp only; omega
    · split
      · simp only; omega
      · assumption
  · intro _ _
    rw [data_step hwf e, reach_data hreach, current_append, current_quiet ha]
    rfl

/-- The value is the same as when it was read, if the listener has not missed a change since its last poll. -/
theorem Holds.now {x : V} {i : Nat} {s s1 s2 : Sys V} {pre mid : List (Op V × Out)} {w : Waker} {o : Out} {v : V}
    (hreach : Reach v pre s1) (e : Cell.step s1 (.poll i w) = some (s2, o)) (hr : Run s2 mid s)
    (hno : ∀ e ∈ mid, e.1.touches i = false) (hch : ∀ e ∈ mid, e.1.isChange = false) (hh : Holds x i s)
    (hf : s.cell.writing = false) : s.cell.data = x := by
  obtain ⟨slots, hwf⟩ := reach_wf hreach
  obtain ⟨_, _, slots1, e1, hw1, heff, hsame, l, hl, hl1, ho, hm⟩ := step_wf hwf _ (allowed_of_step e)
  rw [e] at e1; cases e1
  rw [← pollResult_slot s1.cell.version l] at hm
  obtain ⟨slots2, hw2, hl2, -, hle, hlt⟩ := run_same hr slots1 i _ w hw1 hl1 hm hno
  have hv := heff.version
  simp only [Op.isChange, cond_false, Nat.add_zero] at hv
  have hnlt : ¬ s2.cell.version < s.cell.version := by
    rw [hlt, List.any_eq_true]
    rintro ⟨e, he, hc⟩
    rw [hch e he] at hc; cases hc
  refine (hh.val _ hl2).2 ?_ hf
  have h1 := hwf.le i l hl
  have hrec : (pollResult s1.cell.version l).1.lastVersion = s1.cell.version := by
    simp only [pollResult]
    split
    · rfl
    · split
      · rfl
      · simp only; omega
  omega

end
end Verif.Cell
