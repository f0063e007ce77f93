/-!
# The DOM, as far as the framework uses it

Contract of the DOM `Node` interface (WHATWG DOM §4.2.3 "mutation algorithms"), not code of
the repository.
-/
namespace Verif.Dom

abbrev NodeId := Nat

/-- The child list of every node.  Simplification: ancestor checks (a node inserted into its
own descendant) are not modelled. -/
structure Dom where
  kids : NodeId → List NodeId

/-- A node has at most one parent: inserting it takes it out of every other child list. -/
def Dom.detach (d : Dom) (n : NodeId) : Dom := ⟨fun c => (d.kids c).filter (· != n)⟩

/-- Insert `n` directly before the first occurrence of `r` (at the end if there is none). -/
def insertBeforeIn (n r : NodeId) : List NodeId → List NodeId
  | [] => [n]
  | x :: xs => if x = r then n :: x :: xs else x :: insertBeforeIn n r xs

/-- `container.insertBefore(n, ref)`.  `none` = exception (`NotFoundError`: the reference is
not a child of the container).  Inserting a node before itself leaves it where it is (the
standard replaces the reference by the node's next sibling). -/
def Dom.insertBefore (d : Dom) (container n : NodeId) (ref : Option NodeId) : Option Dom :=
  match ref with
  | none =>
    let d := d.detach n
    some ⟨fun c => if c = container then d.kids c ++ [n] else d.kids c⟩
  | some r =>
    if r ∈ d.kids container then
      if r = n then some d
      else
        let d := d.detach n
        some ⟨fun c => if c = container then insertBeforeIn n r (d.kids c) else d.kids c⟩
    else none

/-- `container.removeChild(n)`.  `none` = exception (`NotFoundError`). -/
def Dom.removeChild (d : Dom) (container n : NodeId) : Option Dom :=
  if n ∈ d.kids container then
    some ⟨fun c => if c = container then (d.kids c).filter (· != n) else d.kids c⟩
  else none

end Verif.Dom
