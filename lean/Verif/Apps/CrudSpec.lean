import Verif.Apps.Crud
/-!
# What a list of persons should show

A plain list of persons, one of which may be chosen. There are no elements, markers or maps here.
-/
namespace Verif.Crud
open Verif.Dom (NodeId)

structure Person where
  id : Nat
  name : Text
  hidden : Bool
deriving DecidableEq

structure Book where
  /-- in the order in which they were created -/
  persons : List Person
  /-- how many were ever created -/
  made : Nat
  chosen : Option Nat
  /-- the buttons for updating and deleting are enabled -/
  armed : Bool
  /-- the text in the field for the filter -/
  typed : Text
deriving DecidableEq

def Book.start : Book := ⟨[], 0, none, false, []⟩

/-- `none`: a panic. -/
def Book.next (B : Book) : Event → Option Book
  | .create surname name _ =>
    some { B with persons := B.persons ++ [⟨B.made + 1, fullName surname name, false⟩], made := B.made + 1 }
  | .update surname name =>
    if B.armed then
      B.chosen.map fun c => { B with persons := B.persons.map fun p =>
        if p.id = c then { p with name := fullName surname name } else p }
    else some B
  | .delete =>
    if B.armed then B.chosen.map fun c => { B with persons := B.persons.filter fun p => p.id ≠ c, chosen := none }
    else some B
  | .choose sel =>
    let c := (B.persons.find? fun p => sel p.id).map Person.id
    some { B with chosen := c, armed := c.isSome }
  | .filter pre _ =>
    some { B with typed := pre, persons := B.persons.map fun p => { p with hidden := !(pre.isPrefixOf p.name) } }

def Book.after (B : Book) : List Event → Option Book
  | [] => some B
  | e :: es => (B.next e).bind fun B => B.after es

/-- What a person's option looks like. A hidden option is also disabled. -/
def Book.row (B : Book) (p : Person) : Look := ⟨p.id, p.name, p.hidden, p.hidden, B.chosen == some p.id⟩

/-- The screen: the options of the `<select>`, in the order of the document, and the buttons. -/
def Draws (A : App) (B : Book) : Prop :=
  (options A).map Prod.snd = B.persons.map B.row ∧ A.updateOff = !B.armed ∧ A.deleteOff = !B.armed

/-- Every option is hidden exactly as the text in the field for the filter says. -/
def Book.Filtered (B : Book) : Prop := ∀ p ∈ B.persons, p.hidden = !(B.typed.isPrefixOf p.name)

/-- Three different nodes that are nowhere in the document, and not options yet. -/
def Nodes.new (ns : Nodes) (A : App) : Prop :=
  (∀ n ∈ [ns.elem, ns.start, ns.stop], Lists.Fresh A.sys.dom n ∧ A.look n = none) ∧
    ns.elem ≠ ns.start ∧ ns.elem ≠ ns.stop ∧ ns.start ≠ ns.stop

/-- What is asked of an event: created nodes are new, and an iteration over a map visits what is in it once. -/
def Allowed (A : App) : Event → Prop
  | .create _ _ ns => ns.new A
  | .filter _ shuffle => ∀ l, (shuffle l).Perm l
  | _ => True

def AllowedRun (A : App) : List Event → Prop
  | [] => True
  | e :: es => Allowed A e ∧ ∀ A', step A e = some A' → AllowedRun A' es

end Verif.Crud
