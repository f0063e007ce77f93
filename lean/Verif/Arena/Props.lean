import Verif.Arena.Refine
/-!
# C21: the waker arena is a set of ordered lists

`Run dummy a s`: `a` is the arena after some history of calls on existing handles and `s` is what a
user wrote down about it (`Spec.lean`).
-/
namespace Verif.Arena
variable {W : Type} [DecidableEq W]

/-- A history for the examples: two lists, three slots in the first (so the vector grows), a
removal in the middle, updates, and a slot in the second list that takes the freed place. -/
def sampleOps : List (Op String) :=
  [.addSublist, .add 1, .addSublist, .add 1, .add 1, .update 2 "x", .update 4 "y", .update 5 "z",
   .remove 4, .add 3, .update 4 "u"]

def exec (a : Arena String) (s : Book String) : List (Op String) → Option (Arena String × Book String)
  | [] => some (a, s)
  | op :: ops =>
    match step "" a op with
    | none => none
    | some (a', r) => exec a' (s.note "" op r) ops

/-- No call on existing handles panics, and its result is the expected one: handles returned are not
in use, neither as a list nor as a slot; `remove_sublist_if_empty` tells whether the list is empty. -/
theorem arena_call_ok {dummy : W} {a : Arena W} {s : Book W} (h : Run dummy a s) (op : Op W)
    (ha : s.allows op) : ∃ a' r, step dummy a op = some (a', r) ∧ s.expects op r := by
  obtain ⟨free, hi⟩ := run_inv h
  obtain ⟨a', r, _, e, hx, _⟩ := step_ok hi op ha
  exact ⟨a', r, e, hx⟩

/-- Iterating a list yields exactly the wakers last put into its slots, in order of insertion. -/
theorem arena_iter {dummy : W} {a : Arena W} {s : Book W} (h : Run dummy a s) (list : Nat)
    (slots : List (Nat × W)) (hm : (list, slots) ∈ s) : iter a list = some (slots.map (·.2)) := by
  obtain ⟨free, hi⟩ := run_inv h
  exact iter_ok hi hm

/-- All handles in use are different. -/
theorem arena_handles_distinct {dummy : W} {a : Arena W} {s : Book W} (h : Run dummy a s) :
    (s.lists ++ s.slots).Nodup := by
  obtain ⟨free, hi⟩ := run_inv h
  have hd := hi.nodup
  apply nodup_of_count
  intro i
  have hc := List.nodup_iff_count.1 hd i
  have : ∀ s : Book W, (s.lists ++ s.slots).count i = (allNodes s).count i := by
    intro s
    induction s with
    | nil => rfl
    | cons e t ih =>
      simp only [Book.lists, Book.slots, List.map_cons, List.flatMap_cons, List.count_append,
        List.count_cons] at ih ⊢
      rw [allNodes_cons, List.count_append, ← ih]
      simp only [nodes, List.count_cons]
      omega
  rw [this]; exact hc

theorem run_of_exec : ∀ (ops : List (Op String)) (a : Arena String) (s : Book String),
    Run "" a s → ∀ a' s', exec a s ops = some (a', s') →
    (∀ pre op post, ops = pre ++ op :: post → ∀ a1 s1, exec a s pre = some (a1, s1) → s1.allows op) →
    Run "" a' s'
  | [], a, s, h, a', s', e, _ => by cases e; exact h
  | op :: ops, a, s, h, a', s', e, ha => by
    simp only [exec] at e
    split at e
    · cases e
    · rename_i a1 r hs
      refine run_of_exec ops a1 _ (.cons h (ha [] op ops rfl a s rfl) hs) a' s' e ?_
      intro pre op' post hp a2 s2 he
      refine ha (op :: pre) op' post (by rw [hp]; rfl) a2 s2 ?_
      simp only [exec, hs]; exact he

instance (s : Book String) (op : Op String) : Decidable (s.allows op) := by
  cases op <;> simp only [Book.allows] <;> infer_instance

/-- All calls of a sequence are on existing handles. -/
def allowedAll (a : Arena String) (s : Book String) : List (Op String) → Bool
  | [] => true
  | op :: ops => decide (s.allows op) &&
    match step "" a op with
    | none => false
    | some (a', r) => allowedAll a' (s.note "" op r) ops

theorem allowedAll_spec : ∀ (ops : List (Op String)) (a : Arena String) (s : Book String),
    allowedAll a s ops = true →
    ∀ pre op post, ops = pre ++ op :: post → ∀ a1 s1, exec a s pre = some (a1, s1) → s1.allows op
  | ops, a, s, h, [], op, post, e, a1, s1, he => by
    subst e
    cases he
    simp only [List.nil_append, allowedAll, Bool.and_eq_true, decide_eq_true_eq] at h
    exact h.1
  | ops, a, s, h, p :: pre, op, post, e, a1, s1, he => by
    subst e
    simp only [List.cons_append, allowedAll, Bool.and_eq_true] at h
    simp only [exec] at he
    split at he
    · cases he
    · rename_i a' r hs
      rw [hs] at h
      exact allowedAll_spec _ a' _ h.2 pre op post rfl a1 s1 he

/-- The sample history: list 1 lost its middle slot, list 3 has one slot at the freed place. -/
theorem sample_run : ∃ a, Run "" a [(1, [(2, "x"), (5, "z")]), (3, [(4, "u")])] := by
  obtain ⟨a, e⟩ : ∃ a, exec (new "") [] sampleOps =
      some (a, [(1, [(2, "x"), (5, "z")]), (3, [(4, "u")])]) := ⟨_, by rfl⟩
  exact ⟨a, run_of_exec sampleOps _ _ .nil a _ e (allowedAll_spec _ _ _ (by decide))⟩

example : ∃ a, Run "" a [(1, [(2, "x"), (5, "z")]), (3, [(4, "u")])] ∧
    iter a 1 = some ["x", "z"] ∧ iter a 3 = some ["u"] ∧
    (∃ a' r, step "" a (.removeIfEmpty 3) = some (a', r) ∧ r = .bool false) := by
  obtain ⟨a, h⟩ := sample_run
  refine ⟨a, h, arena_iter h 1 [(2, "x"), (5, "z")] (by simp), arena_iter h 3 [(4, "u")] (by simp), ?_⟩
  obtain ⟨a', r, e, b, hr, hb⟩ := arena_call_ok h (.removeIfEmpty 3) (by decide)
  refine ⟨a', r, e, ?_⟩
  cases b with
  | false => exact hr
  | true => have := hb.1 rfl; simp at this

end Verif.Arena
