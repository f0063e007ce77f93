import Verif.Lists.Modeled
import Verif.Lists.Keys
/-!
# What a ListModel contains and what a ModeledList should show (C36, C42)
-/
namespace Verif.Lists
open Verif.Dom

/-! ## a plain vector -/

/-- Is the edit in range? -/
def inRange (v : List Key) : Edit → Prop
  | .insert i _ => i ≤ v.length
  | .remove i => i < v.length
  | .swap a b => a < v.length ∧ b < v.length
  | .moveItem i j => i < v.length ∧ j < v.length
  | _ => True

/-- The edit of a plain vector. -/
def vecEdit (v : List Key) : Edit → List Key
  | .insert i k => v.insertIdx i k
  | .remove i => v.eraseIdx i
  | .pop => v.dropLast
  | .push k => v ++ [k]
  | .swap a b =>
    match v[a]?, v[b]? with
    | some x, some y => (v.set a y).set b x
    | _, _ => v
  | .moveItem i j =>
    match v[i]? with
    | some x => (v.eraseIdx i).insertIdx j x
    | none => v
  | .modifyVec w => w

/-- The edit does something. -/
def effective (v : List Key) : Edit → Prop
  | .pop => v ≠ []
  | _ => True

/-- The edit is in range and keeps the keys distinct. -/
def EditOk (v : List Key) : Edit → Prop
  | .insert i k => i ≤ v.length ∧ k ∉ v
  | .push k => k ∉ v
  | .modifyVec w => w.Nodup
  | e => inRange v e

def EditsOk (v : List Key) : List Edit → Prop
  | [] => True
  | e :: es => EditOk v e ∧ EditsOk (vecEdit v e) es

/-- What a logged change says. -/
def applyChange (ks : List Key) : Change → List Key
  | .insert k b => kPlace k b ks
  | .remove k => ks.filter (· != k)
  | .swap a b => ks.map fun z => if z = a then b else if z = b then a else z
  | .move k b => kPlace k b (ks.filter (· != k))

/-- The largest number of keys that the vector had. -/
def peak (v : List Key) : List Edit → Nat
  | [] => v.length
  | e :: es => max v.length (peak (vecEdit v e) es)

/-! ## the list -/

structure MSpec where
  /-- the contents of the models -/
  vecs : List (List Key)
  /-- the model of the last update -/
  shown : Option Nat
  /-- the keys that should be displayed -/
  keys : List Key
  /-- two neighbours of that model have been swapped since (the left one named first) -/
  dirty : Bool
  /-- the keys removed one by one from that model since -/
  gone : List Key

/-- The keys removed by this edit. -/
def removed (v : List Key) : Edit → List Key
  | .remove i => v[i]?.toList
  | .pop => v.getLast?.toList
  | _ => []

/-- Does this edit leave or make the log unusable? -/
def dirtied (d : Bool) : Edit → Bool
  | .swap a b => d || b == a + 1
  | .modifyVec _ => false
  | _ => d

def mSpec (T : MSpec) : MOp → MSpec
  | .create vec => { T with vecs := T.vecs ++ [vec] }
  | .clone i =>
    match T.vecs[i]? with
    | some v => { T with vecs := T.vecs ++ [v] }
    | none => T
  | .edit i e =>
    match T.vecs[i]? with
    | some v => { T with
        vecs := T.vecs.set i (vecEdit v e)
        dirty := if T.shown = some i then dirtied T.dirty e else T.dirty
        gone := if T.shown = some i then removed v e ++ T.gone else T.gone }
    | none => T
  | .update i _ =>
    match T.vecs[i]? with
    | some v => { T with shown := some i, keys := v, dirty := false, gone := [] }
    | none => T
  | .env _ => T

/-- The items that are shown, after the calls that the operation makes. -/
def mItems (S : MSys) (l : List Item) : MOp → List Item
  | .update i mk =>
    match S.models[i]? with
    | some m => (S.view.calls i m mk).foldl specStep l
    | none => l
  | .env op => specStep l op
  | _ => l

/-- Models exist, edits are in range and keep the keys distinct, the comments created by an update are
new, the rest of the program behaves as in C33. The list is not updated from a model in which two
neighbours have been swapped since the last update from that model. -/
def MAllowed (S : MSys) (T : MSpec) (l : List Item) : MOp → Prop
  | .create vec => vec.Nodup
  | .clone i => i < T.vecs.length
  | .edit i e => ∃ v, T.vecs[i]? = some v ∧ EditOk v e
  | .update i mk => ∃ m, S.models[i]? = some m ∧
      ((S.view.calls i m mk).flatMap madeBy).Nodup ∧
      (∀ n ∈ (S.view.calls i m mk).flatMap madeBy, Fresh S.view.sys.dom n) ∧
      (T.shown = some i → T.dirty = false)
  | .env op => op.isCall = false ∧ Allowed S.view.sys l op

def MAllowedRun (S : MSys) (T : MSpec) (l : List Item) : List MOp → Prop
  | [] => True
  | op :: ops => MAllowed S T l op ∧
      ∀ S', S.step op = some S' → MAllowedRun S' (mSpec T op) (mItems S l op) ops

/-- The content that the items were given. -/
def mGiven : List MOp → List NodeId
  | [] => []
  | .env (.content _ ns) :: ops => ns ++ mGiven ops
  | _ :: ops => mGiven ops

def MSpec.start : MSpec := ⟨[], none, [], false, []⟩

end Verif.Lists
