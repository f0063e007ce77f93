import Verif.Lists.DynamicSystem
/-!
# The circle drawer

Model of `examples/web-simple-examples/src/circles.rs`: a click draws a circle, a right click adjusts its size
with a slider, and there are buttons for undo and redo. The circles are the items of a `DynamicList`
(`Verif.Lists`).

An event is handled completely before the next one comes (the executor runs at the end of every callback,
C09-C11 and C49): the tasks of new items display their elements, those of removed items end.

Simplifications: arithmetic is exact where the code has `f64` and `i32`; scales are in hundredths, which are the
steps of the slider. The texts and styles that never change are left out. A disabled button does not fire.
-/
namespace Verif.Circles
open Verif.Dom (NodeId)
open Verif

/-- hundredths -/
abbrev Scale := Nat

def one : Scale := 100

/-- `Circle`, circles.rs 13-18. -/
structure Circle where
  x : Int
  y : Int
  scale : Scale
  elem : NodeId
deriving DecidableEq

/-- `Operation`, circles.rs 21-25. -/
inductive Operation
  | create (x y : Int) (id : Nat)
  | remove (id : Nat)
  | changeScale (which : Nat) (from_ to_ : Scale)
deriving DecidableEq

/-- `OperationsBar`, circles.rs 189-194; the buttons are the flags whether they are disabled. -/
structure Bar where
  ops : List Operation
  cursor : Nat
  undoOff : Bool
  redoOff : Bool
deriving DecidableEq

/-- `OperationsBar::new`, circles.rs 196-207. -/
def Bar.new : Bar := ⟨[], 0, true, true⟩

/-- The first branch of `until_do`, circles.rs 222-232. `none`: a panic. -/
def Bar.undo (b : Bar) : Option (Bar × Operation) :=
  if b.cursor = 0 then none
  else
    let last := b.cursor - 1
    let b' : Bar := { b with cursor := last, redoOff := false, undoOff := last == 0 }
    match b.ops[last]? with
    | some (.changeScale which f t) => some (b', .changeScale which t f)
    | some (.create _ _ id) => some (b', .remove id)
    | some (.remove _) => none
    | none => none

/-- The second branch of `until_do`, circles.rs 233-240. -/
def Bar.redo (b : Bar) : Option (Bar × Operation) :=
  match b.ops[b.cursor]? with
  | some op => some ({ b with cursor := b.cursor + 1, undoOff := false, redoOff := b.cursor + 1 == b.ops.length }, op)
  | none => none

/-- `add_operation`, circles.rs 243-251. -/
def Bar.add (b : Bar) (op : Operation) : Bar :=
  ⟨b.ops.take b.cursor ++ [op], b.cursor + 1, false, true⟩

/-- What the style and the class of a circle's element say, circles.rs 81, 85-87, 113, 119, 168-170. -/
structure Look where
  x : Int
  y : Int
  scale : Scale
  selected : Bool
deriving DecidableEq

/-- The variables of `circles`, circles.rs 28-34, the document with the list, the looks of the elements, and
which element the task of an item displays. -/
structure App where
  sys : Lists.Sys
  look : NodeId → Look
  displays : Nat → NodeId
  circles : List Circle
  selected : Option Nat
  bar : Bar
  nextId : Nat

/-- The nodes that are created for a circle: its element, and the two comments of the list item. -/
structure Nodes where
  elem : NodeId
  start : NodeId
  stop : NodeId

def setLook (look : NodeId → Look) (n : NodeId) (f : Look → Look) : NodeId → Look :=
  fun m => if m = n then f (look m) else look m

/-- `match op_to_do`, circles.rs 77-96. The new item's task displays the element; the removed item's task
ends and its element goes. -/
def doOp (A : App) (op : Operation) (ns : Nodes) : Option App :=
  match op with
  | .changeScale which _ t =>
    match A.circles[which]? with
    | some c => some { A with
        circles := A.circles.set which { c with scale := t }
        look := setLook A.look c.elem fun l => { l with scale := t } }
    | none => none
  | .create x y id => do
    let (s, _) ← Lists.run A.sys [.insert id none ns.start ns.stop, .content id [ns.elem]]
    return { A with
      sys := s
      look := setLook A.look ns.elem fun _ => ⟨x, y, one, false⟩
      displays := fun k => if k = id then ns.elem else A.displays k
      circles := A.circles ++ [⟨x, y, one, ns.elem⟩] }
  | .remove id =>
    if A.circles = [] then none
    else do
      let (s, _) ← Lists.run A.sys [.remove id, .vanish A.sys.list.container (A.displays id)]
      return { A with sys := s, circles := A.circles.dropLast }

/-- The square of the distance. -/
def dist (x y mx my : Int) : Int := (x - mx) * (x - mx) + (y - my) * (y - my)

/-- The nearest circle around the point, circles.rs 100-108: `filter_map` and `min_by`, which keeps the first of
equals. `25.0 * scale` is the radius. -/
def hitFrom (mx my : Int) : Nat → Option (Nat × Int) → List (Int × Int × Scale) → Option (Nat × Int)
  | _, best, [] => best
  | i, best, (x, y, s) :: cs =>
    let d := dist x y mx my
    let best :=
      if 16 * d < (s * s : Nat) then
        match best with
        | some (j, d') => if d < d' then some (i, d) else some (j, d')
        | none => some (i, d)
      else best
    hitFrom mx my (i + 1) best cs

def hit (cs : List (Int × Int × Scale)) (mx my : Int) : Option Nat := (hitFrom mx my 0 none cs).map Prod.fst

def Circle.plain (c : Circle) : Int × Int × Scale := (c.x, c.y, c.scale)

/-- The class of one circle's element; nothing if there is no such circle, circles.rs 111-120. -/
def mark (A : App) (on : Bool) (i : Option Nat) : NodeId → Look :=
  match i.bind fun i => A.circles[i]? with
  | some c => setLook A.look c.elem fun l => { l with selected := on }
  | none => A.look

/-- The circle under the mouse is highlighted, circles.rs 98-122: the class is taken from the old one if that is
another one. -/
def track (A : App) (mx my : Int) : App :=
  let new := hit (A.circles.map Circle.plain) mx my
  let A := if new = A.selected then A else { A with look := mark A false A.selected }
  { A with look := mark A true new, selected := new }

/-- What the user does. `menu`: a right click, the values that the slider then takes one after the other, and a
click elsewhere. -/
inductive Event
  | move (mx my : Int)
  | click (mx my : Int) (ns : Nodes)
  | menu (values : List Scale)
  | undo
  | redo (ns : Nodes)
  /-- what the rest of the program does with the document, in particular rendering the list -/
  | env (op : Lists.Op)

/-- Not a call on the list. -/
def isEnv : Lists.Op → Bool
  | .render _ _ | .unrender | .place _ _ _ | .vanish _ _ => true
  | _ => false

/-- One round of the loop, circles.rs 44-123; `none`: a panic. -/
def step (A : App) : Event → Option App
  -- 48-50
  | .move mx my => some (track A mx my)
  -- 64-71
  | .click mx my ns => do
    let op := Operation.create mx my A.nextId
    let A ← doOp { A with nextId := A.nextId + 1, bar := A.bar.add op } op ns
    return track A mx my
  -- 51-63 and `context_menu`, 134-187: the slider changes the element at once (165-172)
  | .menu values =>
    match A.selected with
    | none => some A
    | some i =>
      match A.circles[i]? with
      | none => none
      | some c =>
        let A := { A with look := values.foldl (fun look v => setLook look c.elem fun l => { l with scale := v }) A.look }
        match values.getLast? with
        | none => some A
        | some z =>
          let op := Operation.changeScale i c.scale z
          doOp { A with bar := A.bar.add op } op ⟨0, 0, 0⟩
  -- 72-74
  | .undo =>
    if A.bar.undoOff then some A
    else do
      let (b, op) ← A.bar.undo
      doOp { A with bar := b } op ⟨0, 0, 0⟩
  | .redo ns =>
    if A.bar.redoOff then some A
    else do
      let (b, op) ← A.bar.redo
      doOp { A with bar := b } op ns
  | .env op =>
    if isEnv op then do
      let (s, _) ← Lists.step A.sys op
      return { A with sys := s }
    else some A

def run (A : App) : List Event → Option App
  | [] => some A
  | e :: es => do
    let A ← step A e
    run A es

/-- circles.rs 28-34, with the new list. -/
def init (s : Lists.Sys) : App := ⟨s, fun _ => ⟨0, 0, 0, false⟩, fun _ => 0, [], none, .new, 0⟩

end Verif.Circles
