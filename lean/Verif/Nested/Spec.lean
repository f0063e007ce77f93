import Verif.Nested.Model
/-!
# Vocabulary for nested combinators (C48)
-/
namespace Verif.Nested
variable {V S O : Type}

/-- The block has been woken since its latest poll began, or has never been polled. The log has its newest
entry first. -/
def NeedsPoll (p : Place) : List Note → Prop
  | [] => True
  | .polled q :: l => q ≠ p ∧ NeedsPoll p l
  | .woken q :: l => q = p ∨ NeedsPoll p l
  | .returned _ :: l => NeedsPoll p l
  | .yielded _ :: l => NeedsPoll p l
  | .inserted _ _ :: l => NeedsPoll p l

/-- `i` is a subfuture of the combinator, or an item of the list (inserted and not removed). -/
def Obj.Has : Obj V S O → Nat → Prop
  | .comb o, i => i < o.n
  | .list l, i => i < l.n ∧ i ∉ l.gone

/-- The block is part of task `t`: the task's own block, or a block of a combinator or list that such a block
is awaiting, as long as it has not returned `Ready`. -/
inductive PartOf (s : Sys V S O) (t : Nat) : Place → Prop
  | task : PartOf s t (.task t)
  | sub {q c i o} : PartOf s t q → s.child q = some c → s.objs[c]? = some o → o.Has i →
      .returned (.sub c i) ∉ s.log → PartOf s t (.sub c i)

/-- The block is an item of list `c`, or somewhere inside of one. -/
inductive InList (s : Sys V S O) (c : Nat) : Place → Prop
  | item {i} : InList s c (.sub c i)
  | sub {q c' i} : InList s c q → s.child q = some c' → InList s c (.sub c' i)

/-- Nothing is being polled and no waker is just acting. -/
def Rest (s : Sys V S O) : Prop := s.stack = [] ∧ s.waking = none

end Verif.Nested
