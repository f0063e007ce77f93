import Verif.Lists.DynamicSystem
/-!
# DiffedList

Model of `async_ui_web/src/lists/diffed_list.rs`, on top of `DynamicList`. `none` is a panic.
-/
namespace Verif.Lists
open Verif.Dom

/-- `DiffedList` and `Inner`, diffed_list.rs 41-55, with the document. -/
structure Diffed where
  sys : Sys
  prev : List Key

/-- The loop of `update`, diffed_list.rs 93-105: the calls it makes, and what is left of
`prev_keys_set`. Arguments: `prev_keys_set`, the rest of `prev_keys_iter`, the rest of `new_keys`.
`mk k` are the comments that `insert` creates for `k`. The set is a list of which only the members
matter. -/
def diffLoop (mk : Key → NodeId × NodeId) : List Key → List Key → List Key → List Op × List Key
  | set, _, [] => ([], set)
  | set, it, k :: ks =>
    if k ∈ set then
      let set := set.filter (· != k)
      if it.head? = some k then diffLoop mk set it.tail ks
      else
        let r := diffLoop mk set it ks
        (.moveBefore k it.head? :: r.1, r.2)
    else
      let r := diffLoop mk set it ks
      (.insert k it.head? (mk k).1 (mk k).2 :: r.1, r.2)

/-- `update`, diffed_list.rs 85-110. `drain` is the order in which `HashSet::drain` yields what is
left (106-108). -/
def Diffed.update (drain : List Key → List Key) (D : Diffed) (keys : List Key) (mk : Key → NodeId × NodeId) :
    Option Diffed := do
  let r := diffLoop mk D.prev D.prev keys
  let (sys, _) ← run D.sys (r.1 ++ (drain r.2).map .remove)
  return ⟨sys, keys⟩

/-- What happens to a `DiffedList`: it is updated, or something else happens in the program (the list
is rendered, an item changes its content, …). -/
inductive DiffOp
  | update (keys : List Key) (mk : Key → NodeId × NodeId)
  | env (op : Op)

def Diffed.step (drain : List Key → List Key) (D : Diffed) : DiffOp → Option Diffed
  | .update keys nodes => D.update drain keys nodes
  | .env op => (Verif.Lists.step D.sys op).map fun r => { D with sys := r.1 }

def Diffed.run (drain : List Key → List Key) (D : Diffed) : List DiffOp → Option Diffed
  | [] => some D
  | op :: ops => do
    let D ← D.step drain op
    D.run drain ops

end Verif.Lists
