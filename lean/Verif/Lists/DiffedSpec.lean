import Verif.Lists.Diffed
import Verif.Lists.Calls
/-!
# What a DiffedList should show (C35)
-/
namespace Verif.Lists
open Verif.Dom

/-- The items of the given keys: the old item if there is one, otherwise a new one without content. -/
def itemsFor (mk : Key → NodeId × NodeId) (keys : List Key) (l : List Item) : List Item :=
  keys.map fun k => (find k l).getD ⟨k, (mk k).1, (mk k).2, []⟩

/-- The comments created for the given keys are new. -/
def FreshFor (d : Dom) (mk : Key → NodeId × NodeId) (keys : List Key) : Prop :=
  (keys.flatMap fun k => [(mk k).1, (mk k).2]).Nodup ∧
  ∀ n ∈ keys.flatMap fun k => [(mk k).1, (mk k).2], Fresh d n

def diffSpec (l : List Item) : DiffOp → List Item
  | .update keys mk => itemsFor mk keys l
  | .env op => specStep l op

/-- The keys are distinct; the rest of the program behaves as in C33. -/
def DiffAllowed (D : Diffed) (l : List Item) : DiffOp → Prop
  | .update keys mk => keys.Nodup ∧ FreshFor D.sys.dom mk keys
  | .env op => op.isCall = false ∧ Allowed D.sys l op

def DiffAllowedRun (drain : List Key → List Key) (D : Diffed) (l : List Item) : List DiffOp → Prop
  | [] => True
  | op :: ops => DiffAllowed D l op ∧
      ∀ D', D.step drain op = some D' → DiffAllowedRun drain D' (diffSpec l op) ops

/-- The content that the items were given. -/
def diffGiven : List DiffOp → List NodeId
  | [] => []
  | .env (.content _ ns) :: ops => ns ++ diffGiven ops
  | _ :: ops => diffGiven ops

/-- Walk along the old keys and drop each one that comes up in its turn among the given keys. -/
def leftover (prev keys : List Key) : List Key :=
  keys.foldl (fun it k => if it.head? = some k then it.tail else it) prev

/-- The old key that the walk waits for has come up before its turn. -/
def Stuck (prev keys : List Key) : Prop := ∃ p, (leftover prev keys).head? = some p ∧ p ∈ keys

/-- The walk gets stuck at the end of the new keys, if at all. -/
def Smooth (prev keys : List Key) : Prop :=
  ∀ A B, keys = A ++ B → B ≠ [] → ¬ Stuck prev A

/-- Every update of the history is smooth. -/
def SmoothRun : List Key → List DiffOp → Prop
  | _, [] => True
  | prev, .update keys _ :: ops => Smooth prev keys ∧ SmoothRun keys ops
  | prev, .env _ :: ops => SmoothRun prev ops

end Verif.Lists
