import Verif.Lists.DynamicSystem
/-!
# The list of persons

Model of `examples/web-simple-examples/src/crud.rs`: a `<select multiple>` whose options are the items of a
`DynamicList` (`Verif.Lists`), a text field for a filter, two for the parts of a name, and buttons that create,
update and delete a person.

An event is handled completely before the next one comes (the executor runs at the end of every callback,
C09-C11 and C49): the task of a new item displays its element, that of a removed item ends.

Simplifications: texts are lists of characters, ids are natural numbers where the code has `i32`, and the value of
an option is its id, since `parse` gives back what `to_string` was given. The empty value of a `<select>` without a
selected option is `none`. A disabled button does not fire.
-/
namespace Verif.Crud
open Verif.Dom (NodeId Dom)
open Verif

abbrev Text := List Char

/-- The attributes of an `<option>`, crud.rs 106-108, 120, 138-139. -/
structure Look where
  value : Nat
  text : Text
  hidden : Bool
  disabled : Bool
  selected : Bool
deriving DecidableEq

/-- What `person_elements` maps an id to, with the id, crud.rs 110. -/
abbrev Entry := Nat × NodeId × Text

/-- The variables of `crud`, crud.rs 12-21: the document with the list, the `<select>`, which nodes are options and
their attributes, which element the task of an item displays, `person_elements`, whether the buttons are disabled,
`id_counter`. -/
structure App where
  sys : Lists.Sys
  select : NodeId
  look : NodeId → Option Look
  displays : Nat → NodeId
  people : List Entry
  updateOff : Bool
  deleteOff : Bool
  counter : Nat

/-- The nodes that are created for a person: the option, and the two comments of the list item. -/
structure Nodes where
  elem : NodeId
  start : NodeId
  stop : NodeId

/-! ## the `<select>` (HTML standard 4.10.7, not code of the repository) -/

/-- The list of options, in tree order. -/
def options (A : App) : List (NodeId × Look) :=
  (A.sys.dom.kids A.select).filterMap fun n => (A.look n).map fun l => (n, l)

/-- `HTMLSelectElement.value`: that of the first selected option. -/
def value (A : App) : Option Nat := ((options A).find? fun o => o.2.selected).map fun o => o.2.value

/-- Whether each option is selected. -/
def setSelected (A : App) (sel : NodeId → Nat → Bool) : App :=
  { A with look := fun n =>
      if n ∈ A.sys.dom.kids A.select then (A.look n).map fun l => { l with selected := sel n l.value } else A.look n }

/-- `HTMLSelectElement.value = v`: only the first option with that value is selected then. -/
def setValue (A : App) (v : Option Nat) : App :=
  let o := ((options A).find? fun o => some o.2.value == v).map Prod.fst
  setSelected A fun n _ => o == some n

/-! ## the program -/

def setLook (look : NodeId → Option Look) (n : NodeId) (f : Look → Look) : NodeId → Option Look :=
  fun m => if m = n then (look m).map f else look m

/-- `format!("{}, {}", surname, name)`, crud.rs 100-104 and 113-117. -/
def fullName (surname name : Text) : Text := surname ++ [',', ' '] ++ name

/-- What the user does. `choose`: the options that are selected afterwards. `filter`: the text typed, and the order in
which `person_elements` (a `HashMap`) is iterated. -/
inductive Event
  | create (surname name : Text) (ns : Nodes)
  | update (surname name : Text)
  | delete
  | choose (sel : Nat → Bool)
  | filter (pre : Text) (shuffle : List Entry → List Entry)

/-- The task of an item ends when the item has been removed: its element goes. `a` is the answer of `remove`. -/
def itemEnds (s : Lists.Sys) (n : NodeId) (a : Option Bool) : Option Lists.Sys :=
  if a = some true then (Lists.step s (.vanish s.list.container n)).map Prod.fst else some s

/-- One round of the loop, crud.rs 97-143; `none`: a panic. -/
def step (A : App) : Event → Option App
  -- 99-111
  | .create surname name ns => do
    let name := fullName surname name
    let id := A.counter + 1
    let (s, _) ← Lists.run A.sys [.insert id none ns.start ns.stop, .content id [ns.elem]]
    return { A with
      sys := s
      look := fun n => if n = ns.elem then some ⟨id, name, false, false, false⟩ else A.look n
      displays := fun k => if k = id then ns.elem else A.displays k
      people := A.people ++ [(id, ns.elem, name)]
      counter := id }
  -- 112-122
  | .update surname name =>
    if A.updateOff then some A
    else do
      let name := fullName surname name
      let seek ← value A
      let e ← A.people.find? fun e => e.1 == seek
      return { A with
        look := setLook A.look e.2.1 fun l => { l with text := name }
        people := A.people.map fun e => if e.1 = seek then (e.1, e.2.1, name) else e }
  -- 123-127
  | .delete =>
    if A.deleteOff then some A
    else do
      let seek ← value A
      let (s, a) ← Lists.step A.sys (.remove seek)
      let s ← itemEnds s (A.displays seek) a
      return { A with sys := s, people := A.people.filter fun e => e.1 != seek }
  -- 128-133
  | .choose sel =>
    let A := setSelected A fun _ id => sel id
    let v := value A
    some { setValue A v with updateOff := v.isNone, deleteOff := v.isNone }
  -- 134-141
  | .filter pre shuffle =>
    some { A with look := (shuffle A.people).foldl (fun look e =>
      let shouldHide := !(pre.isPrefixOf e.2.2)
      setLook look e.2.1 fun l => { l with disabled := shouldHide, hidden := shouldHide }) A.look }

def run (A : App) : List Event → Option App
  | [] => some A
  | e :: es => do
    let A ← step A e
    run A es

/-- crud.rs 12-21, 43-48 and 82-92: the new list, rendered in the `<select>`, and two disabled buttons. -/
def start (d : Dom) (frag ls le select : NodeId) : Option App := do
  let (d, L) ← Lists.new d frag ls le
  let (s, _) ← Lists.step ⟨d, L⟩ (.render select none)
  return ⟨s, select, fun _ => none, fun _ => 0, [], true, true, 0⟩

end Verif.Crud
