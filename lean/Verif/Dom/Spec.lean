/-!
# Source order of a component tree

Independent vocabulary for C01–C03: a *path* is read from the root down; it lists the index
of the branch taken at every combinator.
-/
namespace Verif.Dom

/-- `a` comes before `b` when reading the component tree depth first, left to right, parents
before children: `b` lies strictly below `a`, or at the first combinator where they part `a`
takes a branch further left. -/
def SourceBefore (a b : List Nat) : Prop :=
  (∃ s, s ≠ [] ∧ b = a ++ s) ∨
  (∃ c i j s t, a = c ++ i :: s ∧ b = c ++ j :: t ∧ i < j)

end Verif.Dom
