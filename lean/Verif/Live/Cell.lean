import Verif.Live.Example
import Verif.Cell.Props
/-!
# C51: apps that follow a ReactiveCell
-/
namespace Verif.Live
open Verif

section
variable {D V S O : Type}

/-- A `ReactiveCell` (`Verif.Cell`) as something to wait for: its futures are the listeners (`until_change`,
by number) and one `for_each` (`none`). Nobody polls them with the dummy waker. -/
abbrev cellSource (D : Type) : Source where
  σ := Cell.Sys D
  Op := Cell.Op D
  Out := Cell.Out
  step s op := match op with
    | .poll _ none => none
    | .forEachPoll none => none
    | op => Cell.step s op
  wakes
    | .woken ws => ws.filterMap id
    | _ => []
  Key := Option Nat
  dec := inferInstance
  polls op _ := match op with
    | .poll i (some n) => some (some i, n)
    | .forEachPoll (some n) => some (none, n)
    | _ => none
  drops
    | .dropListener i => some (some i)
    | .forEachDrop => some none
    | _ => none

theorem cellSource_step {s s' : Cell.Sys D} {op : Cell.Op D} {o : Cell.Out}
    (h : (cellSource D).step s op = some (s', o)) : Cell.step s op = some (s', o) ∧
      (∀ i, op ≠ .poll i none) ∧ op ≠ .forEachPoll none := by
  simp only [cellSource] at h
  split at h
  · cases h
  · cases h
  · next h1 h2 => exact ⟨h, h1, h2⟩

theorem cell_run_append {s s1 s2 : Cell.Sys D} {h h' : List (Cell.Op D × Cell.Out)} (h1 : Cell.Run s h s1)
    (h2 : Cell.Run s1 h' s2) : Cell.Run s (h ++ h') s2 := by
  induction h1 with
  | nil => exact h2
  | cons e _ ih => exact .cons e (ih h2)

theorem cell_run_split {h h' : List (Cell.Op D × Cell.Out)} {s s2 : Cell.Sys D} (hr : Cell.Run s (h ++ h') s2) :
    ∃ s1, Cell.Run s h s1 ∧ Cell.Run s1 h' s2 := by
  induction h generalizing s with
  | nil => exact ⟨s, .nil s, hr⟩
  | cons x h ih =>
    cases hr with
    | cons e hr =>
      obtain ⟨s1, h1, h2⟩ := ih hr
      exact ⟨s1, .cons e h1, h2⟩

theorem cell_hist {s s' : (cellSource D).σ} {h : List ((cellSource D).Op × (cellSource D).Out)}
    (hh : Hist (cellSource D) s h s') :
    Cell.Run s h s' ∧ ∀ e ∈ h, (∀ i, e.1 ≠ .poll i none) ∧ e.1 ≠ .forEachPoll none := by
  induction hh with
  | nil => exact ⟨.nil _, by simp⟩
  | snoc _ hs ih =>
    obtain ⟨h1, h2⟩ := cellSource_step hs
    refine ⟨cell_run_append ih.1 (.cons h1 (.nil _)), ?_⟩
    intro e he
    rcases List.mem_append.1 he with he | he
    · exact ih.2 e he
    · simp only [List.mem_singleton] at he
      subst he
      exact h2

theorem reach_upToDate {v : D} {h : List (Cell.Op D × Cell.Out)} {s : Cell.Sys D} (hr : Cell.Reach v h s) :
    Cell.UpToDate s := by
  obtain ⟨s0, e, hrun⟩ := hr
  obtain ⟨s2, e2, hw2, hdat, h3, hrest⟩ := Cell.init_wf v
  rw [e] at e2; cases e2
  clear hdat hrest
  have h0 : Cell.UpToDate s0 := by intro l hl; rw [h3] at hl; cases hl
  clear e h3
  generalize ([] : List (Nat × Cell.Waker)) = sl at hw2
  induction hrun generalizing sl with
  | nil => exact h0
  | cons e _ ih =>
    obtain ⟨_, _, slots1, e1, hw1, _, _⟩ := Cell.step_wf hw2 _ (Cell.allowed_of_step e)
    rw [e] at e1; cases e1
    exact ih (Cell.upToDate_step hw2 h0 e) slots1 hw1

/-- **C51, `for_each`**, from what is known of the cell. -/
theorem told_cell_forEach {v : D} {s0 s : Cell.Sys D} (h0 : Cell.init v = some s0)
    {hist : List (Cell.Op D × Cell.Out)} (ht : Told (cellSource D) s0 hist s none) (hwr : s.cell.writing = false) :
    s.seen.getLast? = some (Cell.current v hist) := by
  obtain ⟨n, pre, mid, o, out, hh, hp, hhist, hmid, hwk⟩ := ht
  obtain ⟨hrun, hdum⟩ := cell_hist hhist
  have ho : o = .forEachPoll (some n) := by
    simp only [cellSource] at hp
    split at hp
    · cases hp
    · cases hp; rfl
    · cases hp
  subst ho
  rw [hh] at hrun
  obtain ⟨s1, r1, r2⟩ := cell_run_split hrun
  cases r2 with
  | cons e r2 =>
  rename_i s2
  have hreach : Cell.Reach v pre s1 := ⟨s0, h0, r1⟩
  have hno : ∀ e ∈ mid, e.1.touchesFE = false := by
    intro e he
    obtain ⟨h1, h2⟩ := hmid e he
    have h3 := (hdum e (by rw [hh]; simp [he])).2
    obtain ⟨op, out⟩ := e
    cases op with
    | forEachPoll w =>
      cases w with
      | none => exact (h3 rfl).elim
      | some m => exact (h1 m rfl).elim
    | forEachDrop => exact (h2 rfl rfl).elim
    | _ => rfl
  have hch : ∀ e ∈ mid, e.1.isChange = false := by
    intro e he
    obtain ⟨a, b, rfl⟩ := List.append_of_mem he
    obtain ⟨s3, r3, r4⟩ := cell_run_split r2
    cases r4 with
    | cons e4 r4 =>
    rename_i op o' s4
    cases op with
    | dropGuard =>
      obtain ⟨ws, rfl, hw⟩ := Cell.forEach_woken hreach e r3 (fun x hx => hno x (by simp [hx])) e4
      exact (hwk _ he (List.mem_filterMap.2 ⟨_, hw, rfl⟩)).elim
    | _ => rfl
  obtain ⟨slots, hwf⟩ := Cell.reach_wf hreach
  obtain ⟨_, _, slots1, e1, hw1, heff, ⟨l, hl, hlv, hlm⟩, _⟩ := Cell.step_wf hwf _ (Cell.allowed_of_step e)
  rw [e] at e1; cases e1
  obtain ⟨slots2, hw2, hl2, hsn, _, hle, hlt⟩ := Cell.run_fe r2 slots1 l _ hw1 hl hlm hno
  have hv := heff.version
  simp only [Cell.Op.isChange, cond_false, Nat.add_zero] at hv
  have hnlt : ¬ s2.cell.version < s.cell.version := by
    rw [hlt, List.any_eq_true]
    rintro ⟨e, he, hc⟩
    rw [hch e he] at hc; cases hc
  have hR : Cell.Reach v hist s := ⟨s0, h0, by rw [hh]; exact hrun⟩
  rw [reach_upToDate hR l hl2 (by omega) hwr, Cell.reach_data hR]

/-- **C51, `for_each`.** Whenever the browser is idle and no mutable borrow of the cell is open, the value that
the closure of an awaited `for_each` was called with last is the value of the cell. -/
theorem idle_cell_forEach {v : D} {s0 : Cell.Sys D} (h0 : Cell.init v = some s0)
    {es : List (Event (cellSource D) V S O)} {w : World (cellSource D) V S O}
    (h : run (init s0) es = some w) (hm : ∃ t, .app (.mount t) ∈ es) (hidle : Idle w)
    (hk : Awaited w none) (hwr : w.src.cell.writing = false) :
    w.src.seen.getLast? = some (Cell.current v w.hist) :=
  told_cell_forEach h0 (idle_not_woken h hm hidle hk) hwr

/-- The poll since which an awaited listener has not been woken, and what happened since. -/
theorem told_listener {v : D} {s0 s : Cell.Sys D} (h0 : Cell.init v = some s0)
    {hist : List (Cell.Op D × Cell.Out)} {i : Nat} (ht : Told (cellSource D) s0 hist s (some i)) :
    ∃ n pre mid out s1 s2, hist = pre ++ (.poll i (some n), out) :: mid ∧ Cell.Reach v pre s1 ∧
      Cell.step s1 (.poll i (some n)) = some (s2, out) ∧ Cell.Run s2 mid s ∧
      (∀ e ∈ mid, e.1.touches i = false) ∧ ∀ e ∈ mid, e.1.isChange = false := by
  obtain ⟨n, pre, mid, o1, out, hh, hpo, hhist, hmid, hwk⟩ := ht
  obtain ⟨hrun, hdum⟩ := cell_hist hhist
  have ho : o1 = .poll i (some n) := by
    simp only [cellSource] at hpo
    split at hpo
    · cases hpo; rfl
    · cases hpo
    · cases hpo
  subst ho
  rw [hh] at hrun
  obtain ⟨s1, r1, r2⟩ := cell_run_split hrun
  cases r2 with
  | cons e r2 =>
  rename_i s2
  have hreach : Cell.Reach v pre s1 := ⟨s0, h0, r1⟩
  have hno : ∀ e ∈ mid, e.1.touches i = false := by
    intro e he
    obtain ⟨h1, h2⟩ := hmid e he
    have h3 := (hdum e (by rw [hh]; simp [he])).1
    obtain ⟨op, out⟩ := e
    cases op with
    | poll j w =>
      by_cases hj : j = i
      · subst hj
        cases w with
        | none => exact (h3 j rfl).elim
        | some m => exact (h1 m rfl).elim
      · simp [Cell.Op.touches, hj]
    | dropListener j =>
      by_cases hj : j = i
      · subst hj; exact (h2 rfl rfl).elim
      · simp [Cell.Op.touches, hj]
    | _ => rfl
  have hch : ∀ e ∈ mid, e.1.isChange = false := by
    intro e he
    obtain ⟨a, b, rfl⟩ := List.append_of_mem he
    obtain ⟨s3, r3, r4⟩ := cell_run_split r2
    cases r4 with
    | cons e4 r4 =>
    rename_i op o' s4
    cases op with
    | dropGuard =>
      obtain ⟨ws, rfl, hw⟩ := Cell.change_wakes hreach e r3 (fun x hx => hno x (by simp [hx])) e4
      exact (hwk _ he (List.mem_filterMap.2 ⟨_, hw, rfl⟩)).elim
    | _ => rfl
  exact ⟨n, pre, mid, out, s1, s2, hh, hreach, e, r2, hno, hch⟩

/-- **C51, `until_change`**, from what is known of the cell. -/
theorem told_cell_listener {v : D} {s0 s : Cell.Sys D} (h0 : Cell.init v = some s0)
    {hist : List (Cell.Op D × Cell.Out)} {i : Nat} (ht : Told (cellSource D) s0 hist s (some i))
    {wk : Cell.Waker} {s' : Cell.Sys D} {o : Cell.Out} (hp : Cell.step s (.poll i wk) = some (s', o)) :
    o = .polled false := by
  obtain ⟨n, pre, mid, out, s1, s2, -, hreach, e, r2, hno, hch⟩ := told_listener h0 ht
  rw [Cell.ready_iff_changed hreach e r2 hno hp]
  congr 1
  rw [List.any_eq_false]
  intro e he
  rw [hch e he]; simp

/-- **C51, `until_change`.** Whenever the browser is idle, an awaited listener has been told of all changes: it
would not be ready if it were polled once more. -/
theorem idle_cell_listener {v : D} {s0 : Cell.Sys D} (h0 : Cell.init v = some s0)
    {es : List (Event (cellSource D) V S O)} {w : World (cellSource D) V S O}
    (h : run (init s0) es = some w) (hm : ∃ t, .app (.mount t) ∈ es) (hidle : Idle w)
    {i : Nat} (hk : Awaited w (some i)) {wk : Cell.Waker} {s' : Cell.Sys D} {o : Cell.Out}
    (hp : Cell.step w.src (.poll i wk) = some (s', o)) : o = .polled false :=
  told_cell_listener h0 (idle_not_woken h hm hidle hk) hp

/-! ### Concrete cases -/

theorem exCell_view : (Cell.init 3).bind (fun s0 => (run (init s0) (exEvents (cellSource Nat)
    [.forEachPoll (some 0)] [.borrowMut, .write 5, .dropGuard] [.forEachPoll (some 1)])).map
      fun (w : World (cellSource Nat) Nat Nat (List Nat)) => (view w, w.src.seen, w.src.cell.writing)) = some (exView none, [3, 5], false) := by rfl

/-- A `for_each` deep inside a task. The value is changed from 3 to 5. -/
example : ∃ s0 w, Cell.init 3 = some s0 ∧ run (init s0) (exEvents (cellSource Nat)
    [.forEachPoll (some 0)] [.borrowMut, .write 5, .dropGuard] [.forEachPoll (some 1)]) = some w ∧
    Idle w ∧ Awaited w none ∧ w.src.cell.writing = false ∧ w.src.seen = [3, 5] ∧ Cell.current 3 w.hist = 5 := by
  obtain ⟨s0, h0, h⟩ := Option.bind_eq_some_iff.1 exCell_view
  obtain ⟨w, hw, hv⟩ := Option.map_eq_some_iff.1 h
  simp only [Prod.mk.injEq] at hv
  obtain ⟨h1, h2, h3⟩ := hv
  obtain ⟨i1, i2⟩ := ex_idle h1
  refine ⟨s0, w, h0, hw, i1, i2, h3, h2, ?_⟩
  have := idle_cell_forEach h0 hw ⟨0, by simp [exEvents]⟩ i1 i2 h3
  rw [h2] at this
  exact (Option.some.inj this).symm

theorem exListener_view : (Cell.init 3).bind (fun s0 => (run (init s0) (exEvents (cellSource Nat)
    [.listen, .poll 0 (some 0)] [.borrowMut, .write 5, .dropGuard] [.poll 0 (some 1)])).map
      fun (w : World (cellSource Nat) Nat Nat (List Nat)) => (view w, w.hist.map (·.2), (Cell.step w.src (.poll 0 none)).map (·.2))) =
    some (exView (some 0), [.unit, .polled false, .unit, .unit, .woken [some 0], .polled true],
      some (.polled false)) := by rfl

/-- A listener deep inside a task: it was ready, after the change. -/
example : ∃ s0 w, Cell.init 3 = some s0 ∧ run (init s0) (exEvents (cellSource Nat)
    [.listen, .poll 0 (some 0)] [.borrowMut, .write 5, .dropGuard] [.poll 0 (some 1)]) = some w ∧
    Idle w ∧ Awaited w (some 0) ∧ ∃ s' o, Cell.step w.src (.poll 0 none) = some (s', o) := by
  obtain ⟨s0, h0, h⟩ := Option.bind_eq_some_iff.1 exListener_view
  obtain ⟨w, hw, hv⟩ := Option.map_eq_some_iff.1 h
  simp only [Prod.mk.injEq] at hv
  obtain ⟨h1, -, h3⟩ := hv
  obtain ⟨i1, i2⟩ := ex_idle h1
  obtain ⟨⟨s', o⟩, h4, -⟩ := Option.map_eq_some_iff.1 h3
  exact ⟨s0, w, h0, hw, i1, i2, s', o, h4⟩

end
end Verif.Live
