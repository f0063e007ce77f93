import Verif.Dom.PositionLemmas
/-!
# Property theorems for C03 and C44
-/
namespace Verif.Dom

/-- C03. The comparison used as map key order is "comes before in source order" on the
root-first reading of the position. -/
theorem cmp_lt_iff_sourceBefore (p q : Pos) :
    Pos.cmp p q = .lt ↔ SourceBefore p.reverse q.reverse := by
  rw [cmp_eq_lex, lexCmp_lt_iff]

/-- C03. `Equal` only for equal positions. -/
theorem cmp_eq_iff (p q : Pos) : Pos.cmp p q = .eq ↔ p = q := by
  rw [cmp_eq_lex, lexCmp_eq_iff, List.reverse_inj]

/-- C03. Antisymmetry and totality: comparing the other way round gives the opposite answer. -/
theorem cmp_swap (p q : Pos) : (Pos.cmp p q).swap = Pos.cmp q p := by
  rw [cmp_eq_lex, cmp_eq_lex, lexCmp_swap]

/-- C03. Transitivity. -/
theorem cmp_trans (p q r : Pos) (h1 : Pos.cmp p q = .lt) (h2 : Pos.cmp q r = .lt) :
    Pos.cmp p r = .lt := by
  rw [cmp_eq_lex] at *
  exact lexCmp_trans h1 h2

example : Pos.cmp [9, 0] [1] = .lt ∧ Pos.cmp [1] [0, 1] = .lt := by decide

/-- C03. For every index below the largest `u32`, the half-open range from `p` to
`next_sibling p` consists exactly of `p` and the positions below `p` (those whose root-first
path extends that of `p`).  Partial: the largest index is excluded, see
`nextSibling_overflow`. -/
theorem range_is_subtree_partial (b : Build) (x : Nat) (xs : Pos) (hx : x + 1 < 2 ^ 32) :
    ∃ n, Pos.nextSibling b (x :: xs) = some n ∧
      ∀ q : Pos, (Pos.cmp (x :: xs) q ≠ .gt ∧ Pos.cmp q n = .lt) ↔
        ∃ s, q.reverse = (x :: xs).reverse ++ s := by
  refine ⟨_, nextSibling_reverse hx, fun q => ?_⟩
  rw [cmp_eq_lex, cmp_eq_lex]
  simp only [List.reverse_cons]
  rw [lex_interval]
  simp

example : (3 : Nat) + 1 < 2 ^ 32 ∧ Pos.cmp [3, 1] [7, 3, 1] ≠ .gt ∧
    Pos.cmp [7, 3, 1] [4, 1] = .lt := by decide

/-- C03/C44, refuted at the largest index: in a debug build `next_sibling` panics, in a release
build the upper end of the range lies before its lower end (`BTreeMap::range` panics on such a
range, and the position itself is not in it). -/
theorem nextSibling_overflow :
    Pos.nextSibling .debug [2 ^ 32 - 1] = none ∧
    ∃ n, Pos.nextSibling .release [2 ^ 32 - 1] = some n ∧ Pos.cmp n [2 ^ 32 - 1] = .lt := by
  refine ⟨by decide, [0], by decide, by decide⟩

/-- C44, refuted for every position whose innermost index is the largest `u32`. -/
theorem nextSibling_overflow_all (xs : Pos) :
    Pos.nextSibling .debug ((2 ^ 32 - 1) :: xs) = none ∧
    ∃ n, Pos.nextSibling .release ((2 ^ 32 - 1) :: xs) = some n ∧
      ¬ (Pos.cmp ((2 ^ 32 - 1) :: xs) n = .lt) := by
  refine ⟨by simp [Pos.nextSibling], 0 :: xs, by simp [Pos.nextSibling], ?_⟩
  rw [cmp_eq_lex]
  simp only [List.reverse_cons]
  rw [lexCmp_common]
  decide

end Verif.Dom
