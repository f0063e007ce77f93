import Verif.Drop.Blocker
import Verif.Dom.HistorySpec
/-!
# Dropping component futures

Model of the `Drop` implementations of `ContainerNodeFuture`, `SiblingNodeFuture`,
`DynamicList` and the combinators. Rust runs the body of `Drop` first and then drops the
fields in order of declaration; in each of these structs the blocker is the last field.

Simplifications: outputs stored in a combinator (`items`) are plain data; the `async` function
`DynamicList::render` (which moves the list's nodes into its fragment when dropped) is not part
of this file.
-/
namespace Verif.Drop
open Verif.Dom

/-- `AddSelfMode`, `node_container.rs:28-32`. -/
inductive AddSelf | shouldNotAdd | shouldAdd | added
deriving DecidableEq, Repr

/-- What a future value owns, as far as dropping it matters. -/
inductive Fut
  /-- plain data, or a future that owns no component (e.g. only a reference to one) -/
  | done
  /-- two values dropped one after the other: variables of an `async` block, array elements -/
  | both (x y : Fut)
  /-- an `async` block (or any future that owns at most one component and runs it where it runs
  itself) that is awaiting `current`; `done` if it has no component at the moment -/
  | block (current : Fut)
  /-- the `index`-th subfuture of a combinator -/
  | slot (index : Nat) (f : Fut)
  /-- `ContainerNodeFuture`, `node_container.rs:18-25` -/
  | node (id : NodeId) (group : GroupId) (mode : AddSelf) (blocker : Addr) (child : Fut)
  /-- `SiblingNodeFuture`, `node_sibling.rs:20-26` -/
  | item (group : GroupId) (reference : NodeId) (blocker : Addr) (child : Fut)
  /-- `CombinatorArray`/`CombinatorVec`/`CombineN`, `combinators/common/array.rs:58-80` -/
  | comb (blocker : Addr) (futures : Fut)
  /-- `DynamicList` with its items, `lists/dynamic_list.rs:53-59` -/
  | list (blocker : Addr) (items : Fut)
deriving DecidableEq, Repr

structure DState where
  st : State
  flag : Flag

/-- `DOM_CONTEXT.with(|ctx| ctx.remove_child(ChildPosition::default()))`; a scoped thread local
panics (`none`) when it is not set. -/
def removeAmbient (b : Build) (amb : Option Ctx) (s : State) : Option State :=
  match amb with
  | none => none
  | some ctx => ctx.removeChild b s []

/-- `if !blocker.block_until_drop() { <remove> }`. -/
def blockOr (a : Addr) (remove : State → Option State) (d : DState) : Option DState :=
  match blockUntilDrop a d.flag with
  | (true, flag) => some ⟨d.st, flag⟩
  | (false, flag) => do
    let st ← remove d.st
    return ⟨st, flag⟩

/-- Drop of the blocker field. -/
def endBlock (a : Addr) (d : DState) : DState := ⟨d.st, release a d.flag⟩

/-- Drop a value while `DOM_CONTEXT` is `amb` (no drop implementation changes `DOM_CONTEXT`).
`none` = panic. -/
def Fut.drop (b : Build) (amb : Option Ctx) : Fut → DState → Option DState
  | .done, d => some d
  | .both x y, d => do
    let d ← x.drop b amb d
    y.drop b amb d
  | .block f, d => f.drop b amb d
  | .slot _ f, d => f.drop b amb d
  -- `node_container.rs:78-97`
  | .node id g mode a child, d => do
    let d ← match mode with
      | .added => blockOr a (removeAmbient b amb) d
      | _ => do
        let st ← (Ctx.container g id).removeChild b d.st []
        some ⟨st, d.flag⟩
    let d ← child.drop b amb d
    return endBlock a d
  -- `node_sibling.rs:54-68`
  | .item g r a child, d => do
    let d ← blockOr a (fun s => match amb with
      | none => none
      | some ctx => (Ctx.sibling ctx g r).removeChild b s []) d
    let d ← child.drop b amb d
    return endBlock a d
  -- `combinators/common/array.rs:219-232`, `vec.rs:171-184`, `tuple.rs:230-244`
  | .comb a futures, d => do
    let d ← blockOr a (removeAmbient b amb) d
    let d ← futures.drop b amb d
    return endBlock a d
  -- `lists/dynamic_list.rs:344-348`
  | .list a items, d => do
    let d ← blockOr a some d
    let d ← items.drop b amb d
    return endBlock a d

end Verif.Drop
