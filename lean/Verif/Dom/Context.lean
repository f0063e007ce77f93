import Verif.Dom.Position
import Verif.Dom.Tree
/-!
# Rendering contexts

Model of `async_ui_web_core/src/context.rs`.
-/
namespace Verif.Dom

abbrev GroupId := Nat

/-- `NodeGroup = RefCell<BTreeMap<ChildPosition, Node>>`, `context.rs:29`, as the association
list in key order. -/
abbrev Group := List (Pos × NodeId)

/-- `DomContext`, `context.rs:7-23`.  The borrowed groups and nodes are identifiers into
`State`.  (`Null` exists only in the crate's own tests.) -/
inductive Ctx
  | container (group : GroupId) (node : NodeId)
  | sibling (parent : Ctx) (group : GroupId) (reference : NodeId)
  | child (parent : Ctx) (index : Nat)
deriving DecidableEq, Repr

/-- All groups and the document. -/
structure State where
  groups : GroupId → Group
  dom : Dom

def State.setGroup (s : State) (g : GroupId) (m : Group) : State :=
  { s with groups := fun h => if h = g then m else s.groups h }

/-- `group.range(position..).next()`, `context.rs:49` and `61-63`: the node of the first entry
whose key is not before `p`. -/
def Group.firstFrom (m : Group) (p : Pos) : Option NodeId :=
  (m.find? fun e => Pos.cmp e.1 p != .lt).map (·.2)

/-- `BTreeMap::insert`, `context.rs:53` and `70`: the new map and the value replaced. -/
def Group.insert (m : Group) (p : Pos) (n : NodeId) : Group × Option NodeId :=
  match m with
  | [] => ([(p, n)], none)
  | (q, k) :: rest =>
    match Pos.cmp p q with
    | .lt => ((p, n) :: (q, k) :: rest, none)
    | .eq => ((p, n) :: rest, some k)
    | .gt =>
      let (rest', old) := Group.insert rest p n
      ((q, k) :: rest', old)

/-- `panic_if_duplicate_node`, `context.rs:121-138`: panics in debug builds only. -/
def panicIfDuplicate (b : Build) (old : Option NodeId) : Option Unit :=
  match b, old with
  | .debug, some _ => none
  | _, _ => some ()

/-- `DomContext::get_containing_node`, `context.rs:34-43`. -/
def Ctx.containingNode : Ctx → NodeId
  | .container _ node => node
  | .sibling parent _ _ => parent.containingNode
  | .child parent _ => parent.containingNode

/-- The common body of the `Container` and `Sibling` arms of `add_child`: find the node of the
next position (or the fallback), insert before it, record the node. -/
def addHere (b : Build) (s : State) (g : GroupId) (container : NodeId)
    (fallback : Option NodeId) (p : Pos) (n : NodeId) : Option State := do
  let ref := ((s.groups g).firstFrom p).or fallback
  let dom ← s.dom.insertBefore container n ref
  let (m, old) := (s.groups g).insert p n
  panicIfDuplicate b old
  return { s with dom := dom }.setGroup g m

/-- `DomContext::add_child`, `context.rs:45-79`.  `none` = panic. -/
def Ctx.addChild (b : Build) (s : State) : Ctx → Pos → NodeId → Option State
  | .container g node, p, n => addHere b s g node none p n
  | .sibling parent g reference, p, n =>
    addHere b s g parent.containingNode (some reference) p n
  | .child parent index, p, n => parent.addChild b s (p.wrap index) n

/-- `tree.values().for_each(|child| container.remove_child(child).unwrap_throw())`,
`context.rs:107-109`. -/
def removeAll (d : Dom) (container : NodeId) : List NodeId → Option Dom
  | [] => some d
  | n :: ns => do
    let d ← d.removeChild container n
    removeAll d container ns

/-- `tree.range(position..next).next_back()`, `context.rs:114`. -/
def Group.lastIn (m : Group) (p next : Pos) : Option (Pos × NodeId) :=
  (m.filter fun e => Pos.cmp p e.1 != .gt && Pos.cmp e.1 next == .lt).getLast?

/-- The `while let` loop of `remove_children_here`, `context.rs:114-117`.  `fuel` bounds the
number of iterations; running out of fuel would be `none` and is proved not to happen when
the fuel is the size of the map plus one. -/
def removeLoop (container : NodeId) (p next : Pos) : Nat → Group → Dom → Option (Group × Dom)
  | 0, _, _ => none
  | fuel + 1, m, d =>
    match m.lastIn p next with
    | none => some (m, d)
    | some (key, child) => do
      let d ← d.removeChild container child
      removeLoop container p next fuel (m.filter fun e => e.1 != key) d

/-- `remove_children_here`, `context.rs:101-119`.  `BTreeMap::range` panics when the start is
after the end (only possible after wrap-around of `next_sibling`). -/
def removeChildrenHere (b : Build) (m : Group) (p : Pos) (container : NodeId) (d : Dom) :
    Option (Group × Dom) :=
  if p.isRoot then do
    let d ← removeAll d container (m.map (·.2))
    return ([], d)
  else do
    let next ← p.nextSibling b
    if Pos.cmp p next = .gt then none
    else removeLoop container p next (m.length + 1) m d

def removeHere (b : Build) (s : State) (g : GroupId) (container : NodeId) (p : Pos) :
    Option State := do
  let (m, d) ← removeChildrenHere b (s.groups g) p container s.dom
  return { s with dom := d }.setGroup g m

/-- `DomContext::remove_child`, `context.rs:81-98`.  `none` = panic. -/
def Ctx.removeChild (b : Build) (s : State) : Ctx → Pos → Option State
  | .container g node, p => removeHere b s g node p
  | .sibling parent g _, p => removeHere b s g parent.containingNode p
  | .child parent index, p => parent.removeChild b s (p.wrap index)

end Verif.Dom
