import Verif.Drop.Blocker
/-!
# Property theorems for C06
-/
namespace Verif.Drop

theorem run_blocked (d : Drops) (o : Addr) (h : o ∉ d.addrs) :
    d.run (some o) = (d.expected false, some o) := by
  induction d with
  | nil => rfl
  | drop a inner rest ih1 ih2 =>
    simp only [Drops.addrs, List.cons_append, List.mem_cons, List.mem_append, not_or] at h
    simp [Drops.run, blockUntilDrop, ih1 h.2.1, release, if_neg h.1, ih2 h.2.2, Drops.expected]

/-- C06, for address assignments in which an object and its parts have different addresses:
exactly the outermost drops are told to detach, and detachment is enabled again at the end.
Partial: the full claim quantifies over all address assignments; see
`drops_unbalanced_same_address` for why it fails. -/
theorem drops_balanced_partial (d : Drops) (h : d.Distinct) :
    d.run none = (d.expected true, none) := by
  induction d with
  | nil => rfl
  | drop a inner rest ih1 ih2 =>
    obtain ⟨h1, -, h3⟩ := h
    simp [Drops.run, blockUntilDrop, run_blocked inner a h1, release, ih2 h3, Drops.expected]

example : (Drops.drop 1 (.drop 2 .nil (.drop 3 (.drop 2 .nil .nil) .nil)) (.drop 1 .nil .nil)).Distinct ∧
    (Drops.drop 1 (.drop 2 .nil (.drop 3 (.drop 2 .nil .nil) .nil)) (.drop 1 .nil .nil)).run none =
      ([true, false, false, false, true], none) := by
  simp [Drops.Distinct, Drops.addrs, Drops.run, blockUntilDrop, release]

theorem run_flag (d : Drops) (f : Flag) : (d.run f).2 = none ∨ (d.run f).2 = f := by
  induction d generalizing f with
  | nil => simp [Drops.run]
  | drop a inner rest ih1 ih2 =>
    simp only [Drops.run]
    have hs : release a (inner.run (blockUntilDrop a f).2).2 = none ∨
        release a (inner.run (blockUntilDrop a f).2).2 = f := by
      rcases ih1 (blockUntilDrop a f).2 with h | h
      · rw [h]; simp [release]
      · rw [h]
        cases f with
        | none => simp [blockUntilDrop, release]
        | some o => simp only [blockUntilDrop, release]; split <;> simp
    rcases hs with hs | hs
    · rw [hs]
      rcases ih2 none with h | h <;> simp [h]
    · rw [hs]
      exact ih2 f

/-- C06, for every address assignment: after a sequence of drops that starts with detachment
enabled, detachment is enabled again, and the first object dropped was told to detach. -/
theorem drops_end_unblocked (d : Drops) : (d.run none).2 = none := by
  rcases run_flag d none with h | h <;> exact h

/-- C06, for every address assignment: an outermost object is told to detach. -/
theorem drops_outermost_detach (a : Addr) (inner rest : Drops) :
    ∃ l, (Drops.drop a inner rest).run none = (true :: l ++ (rest.run none).1, none) := by
  have h : release a (inner.run (some a)).2 = none := by
    rcases run_flag inner (some a) with h | h <;> simp [h, release]
  refine ⟨(inner.run (some a)).1, ?_⟩
  have := drops_end_unblocked rest
  simp only [Drops.run, blockUntilDrop, h]
  simp [this]

/-- C06 refuted for arbitrary addresses. A blocker is a zero-sized field, so that of an object
and that of its first part may have the same address. Then dropping that part ends the blocking
although its owner is still being dropped, and the next part is told to detach. -/
theorem drops_unbalanced_same_address :
    ∃ d : Drops, (d.run none).1 ≠ d.expected true :=
  ⟨.drop 1 (.drop 1 .nil (.drop 2 .nil .nil)) .nil, by decide⟩

end Verif.Drop
