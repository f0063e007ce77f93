import Verif.Lists.DynamicSystem
/-!
# ListModel and ModeledList

Model of `async_ui_web/src/lists/modeled_list.rs`. `none` is a panic. Versions are natural numbers
(the overflow of `u64` is ignored).
-/
namespace Verif.Lists
open Verif.Dom

/-- `Change`, modeled_list.rs 61-67. -/
inductive Change
  | insert (key : Key) (before : Option Key)
  | remove (key : Key)
  | swap (a b : Key)
  | move (key : Key) (before : Option Key)
deriving DecidableEq

/-- `ListModel` and `ListModelLog`, modeled_list.rs 23-45. The identity of the `Rc` in `unique` is
the index of the model in the list of all models, see `MSys`. -/
structure Model where
  vec : List Key
  changes : List Change
  version : Nat
deriving DecidableEq

/-- `From<Vec<K>>`, modeled_list.rs 162-169, with the default log, 52-60. -/
def Model.fromVec (vec : List Key) : Model := ⟨vec, [], 1⟩

/-- `Clone`, modeled_list.rs 23 and 46-50: the contents are copied, the log is a new one. -/
def Model.clone (m : Model) : Model := Model.fromVec m.vec

/-- `add_change`, modeled_list.rs 78-86. -/
def Model.addChange (m : Model) (c : Change) : Model :=
  let changes := m.changes ++ [c]
  { m with
    changes := if changes.length > m.vec.length / 2 then changes.tail else changes
    version := m.version + 1 }

/-- `insert`, modeled_list.rs 88-94. -/
def Model.insert (m : Model) (index : Nat) (key : Key) : Option Model :=
  let m := m.addChange (.insert key m.vec[index]?)
  if index ≤ m.vec.length then some { m with vec := m.vec.take index ++ key :: m.vec.drop index } else none

/-- `remove`, modeled_list.rs 96-102. -/
def Model.remove (m : Model) (index : Nat) : Option Model :=
  match m.vec[index]? with
  | some removed => some ({ m with vec := m.vec.eraseIdx index }.addChange (.remove removed))
  | none => none

/-- `pop`, modeled_list.rs 104-110. -/
def Model.pop (m : Model) : Model :=
  match m.vec.getLast? with
  | some key => { m with vec := m.vec.dropLast }.addChange (.remove key)
  | none => m

/-- `push`, modeled_list.rs 112-118. -/
def Model.push (m : Model) (key : Key) : Model :=
  let m := m.addChange (.insert key none)
  { m with vec := m.vec ++ [key] }

/-- `swap`, modeled_list.rs 120-126. -/
def Model.swap (m : Model) (a b : Nat) : Option Model :=
  match m.vec[a]?, m.vec[b]? with
  | some x, some y =>
    let m := m.addChange (.swap x y)
    some { m with vec := (m.vec.set a y).set b x }
  | _, _ => none

/-- `rotate_left(1)` of a slice -/
def rotateLeft (l : List Key) : List Key := l.drop 1 ++ l.take 1

/-- `rotate_right(1)` of a slice -/
def rotateRight (l : List Key) : List Key := l.drop (l.length - 1) ++ l.take (l.length - 1)

/-- `move_item`, modeled_list.rs 129-142. -/
def Model.moveItem (m : Model) (i j : Nat) : Option Model :=
  let low := min i j
  let high := max i j
  if high < m.vec.length then
    let slice := (m.vec.drop low).take (high + 1 - low)
    let slice := if i < j then rotateLeft slice else if i > j then rotateRight slice else slice
    let vec := m.vec.take low ++ slice ++ m.vec.drop (high + 1)
    match vec[j]? with
    | some x => some ({ m with vec := vec }.addChange (.move x vec[j + 1]?))
    | none => none
  else none

/-- `modify_vec`, modeled_list.rs 148-152, and what the caller then makes of the vector. -/
def Model.modifyVec (m : Model) (vec : List Key) : Model := ⟨vec, [], m.version + 1⟩

/-- The edits of a model. -/
inductive Edit
  | insert (index : Nat) (key : Key)
  | remove (index : Nat)
  | pop
  | push (key : Key)
  | swap (a b : Nat)
  | moveItem (i j : Nat)
  | modifyVec (vec : List Key)
deriving DecidableEq

def Model.edit (m : Model) : Edit → Option Model
  | .insert i k => m.insert i k
  | .remove i => m.remove i
  | .pop => some m.pop
  | .push k => some (m.push k)
  | .swap a b => m.swap a b
  | .moveItem i j => m.moveItem i j
  | .modifyVec v => some (m.modifyVec v)

def Model.edits (m : Model) : List Edit → Option Model
  | [] => some m
  | e :: es => do
    let m ← m.edit e
    m.edits es

/-! ## ModeledList -/

/-- `ModeledList`, modeled_list.rs 213-218, and the document. -/
structure Modeled where
  sys : Sys
  version : Nat
  unique : Option Nat

/-- `log_start_ver`, modeled_list.rs 271. -/
def Model.logStart (m : Model) : Nat := m.version - m.changes.length

/-- The call for one change, modeled_list.rs 280-297. -/
def Change.call (nodes : NodeId × NodeId) : Change → Op
  | .insert k b => .insert k b nodes.1 nodes.2
  | .remove k => .remove k
  | .swap a b => .swap a b
  | .move k b => .moveBefore k b

/-- The calls for the changes, modeled_list.rs 275-297. `mk` gives the comments to be created. -/
def logCalls (mk : Nat → NodeId × NodeId) : Nat → List Change → List Op
  | _, [] => []
  | i, c :: cs => c.call (mk i) :: logCalls mk (i + 1) cs

/-- The insertions of the new keys, modeled_list.rs 314-318. -/
def newCalls (mk : Nat → NodeId × NodeId) : Nat → List Key → List Op
  | _, [] => []
  | i, k :: ks => .insert k none (mk i).1 (mk i).2 :: newCalls mk (i + 1) ks

/-- The moves of the retained keys, modeled_list.rs 320-325. The keys come in reverse order. -/
def moveCalls (retained : List Key) : Option Key → List Key → List Op
  | _, [] => []
  | last, k :: ks =>
    (if k ∈ retained then [.moveBefore k last] else []) ++ moveCalls retained (some k) ks

/-- Rebuilding the list, modeled_list.rs 300-325. The keys of a `DynamicList` are distinct, so that
taking them out of `new_keys` one by one (306) amounts to asking whether they are in the model. -/
def rebuildCalls (mk : Nat → NodeId × NodeId) (vec old : List Key) : List Op :=
  let retained := old.filter (· ∈ vec)
  [.retain (· ∈ vec)] ++ newCalls mk 0 (vec.filter (· ∉ retained)) ++ moveCalls retained none vec.reverse

/-- Can `update` use the log? modeled_list.rs 256-273. -/
def Modeled.useLog (M : Modeled) (i : Nat) (m : Model) : Bool :=
  M.unique == some i && M.version ≥ m.logStart

/-- The calls made by `update`. -/
def Modeled.calls (M : Modeled) (i : Nat) (m : Model) (mk : Nat → NodeId × NodeId) : List Op :=
  if M.useLog i m then logCalls mk 0 (m.changes.drop (M.version - m.logStart))
  else rebuildCalls mk m.vec (M.sys.list.items.map Prod.fst)

/-- The two assertions, modeled_list.rs 282 and 289. -/
def assertions : List Op → List (Option Bool) → Bool
  | .insert _ _ _ _ :: ops, a :: as => a == some false && assertions ops as
  | .remove _ :: ops, a :: as => a == some true && assertions ops as
  | _ :: ops, _ :: as => assertions ops as
  | _, _ => true

/-- `update`, modeled_list.rs 255-328. `i` is the identity of the model. -/
def Modeled.update (M : Modeled) (i : Nat) (m : Model) (mk : Nat → NodeId × NodeId) : Option Modeled := do
  let (sys, as) ← run M.sys (M.calls i m mk)
  if M.useLog i m && !assertions (M.calls i m mk) as then none
  else return ⟨sys, m.version, some i⟩

/-- All models of the program, and one `ModeledList`. The `Rc` in `unique` stays allocated as long as
the model or the list has it, so that two models never have the same one. -/
structure MSys where
  models : List Model
  view : Modeled

inductive MOp
  /-- a new model -/
  | create (vec : List Key)
  /-- a copy of the model `i` -/
  | clone (i : Nat)
  | edit (i : Nat) (e : Edit)
  | update (i : Nat) (mk : Nat → NodeId × NodeId)
  /-- anything else that happens in the program -/
  | env (op : Op)

def MSys.step (S : MSys) : MOp → Option MSys
  | .create vec => some { S with models := S.models ++ [Model.fromVec vec] }
  | .clone i => do
    let m ← S.models[i]?
    return { S with models := S.models ++ [m.clone] }
  | .edit i e => do
    let m ← S.models[i]?
    let m ← m.edit e
    return { S with models := S.models.set i m }
  | .update i nodes => do
    let m ← S.models[i]?
    let view ← S.view.update i m nodes
    return { S with view := view }
  | .env op => do
    let (sys, _) ← Verif.Lists.step S.view.sys op
    return { S with view := { S.view with sys := sys } }

def MSys.run (S : MSys) : List MOp → Option MSys
  | [] => some S
  | op :: ops => do
    let S ← S.step op
    S.run ops

end Verif.Lists
