import Verif.Lists.DynamicSystem
/-!
# Lists in lists: what is on the page

The children of a node, grouped: plain nodes, items of a list (between the item's two markers) and
whole lists (between the list's two markers). Items and lists contain more of the same. The calls of
`DynamicList`, as changes of such a description. Nothing here refers to the model of the code.
-/
namespace Verif.Lists
open Verif.Dom

/-- A sequence of nodes, items and lists. Each constructor is the first thing in the sequence and the
rest of it. -/
inductive Forest
  | nil
  | node (n : NodeId) (rest : Forest)
  /-- the item with key `k`, between the comments `x` and `y` -/
  | item (k : Key) (x y : NodeId) (inner rest : Forest)
  /-- the list called `i`, between the comments `x` and `y` -/
  | list (i : Nat) (x y : NodeId) (inner rest : Forest)
deriving DecidableEq

namespace Forest

/-- The nodes, in the order of the document. -/
def flat : Forest → List NodeId
  | nil => []
  | node n r => n :: r.flat
  | item _ x y m r => x :: (m.flat ++ y :: r.flat)
  | list _ x y m r => x :: (m.flat ++ y :: r.flat)

def append : Forest → Forest → Forest
  | nil, q => q
  | node n r, q => node n (r.append q)
  | item k x y m r, q => item k x y m (r.append q)
  | list i x y m r, q => list i x y m (r.append q)

instance : Append Forest := ⟨append⟩

/-- The items of the sequence itself, with their markers. -/
def entries : Forest → List (Key × Stored)
  | nil => []
  | node _ r => r.entries
  | item k x y _ r => (k, ⟨x, y⟩) :: r.entries
  | list _ _ _ _ r => r.entries

/-- The keys of the items of the sequence itself. -/
abbrev keys (f : Forest) : List Key := f.entries.map (·.1)

/-! ## the calls, on what is between the markers of one list -/

/-- Put `p` before the item `b`, or at the end. -/
def put (p : Forest) (b : Option Key) : Forest → Forest
  | nil => p
  | node n r => node n (put p b r)
  | item k x y m r => if b = some k then p ++ item k x y m r else item k x y m (put p b r)
  | list i x y m r => list i x y m (put p b r)

/-- Take away the markers of the items that are not to be kept. Their content stays (until the task of
the item ends). -/
def unwrap (keep : Key → Bool) : Forest → Forest
  | nil => nil
  | node n r => node n (r.unwrap keep)
  | item k x y m r => if keep k then item k x y m (r.unwrap keep) else m ++ r.unwrap keep
  | list i x y m r => list i x y m (r.unwrap keep)

/-- The item `k`, alone. -/
def pick (k : Key) : Forest → Forest
  | nil => nil
  | node _ r => r.pick k
  | item k' x y m r => if k' = k then item k' x y m nil else r.pick k
  | list _ _ _ _ r => r.pick k

/-- Put `p k` in the place of the item `k`, if there is a `p k`. -/
def replace (p : Key → Option Forest) : Forest → Forest
  | nil => nil
  | node n r => node n (r.replace p)
  | item k x y m r =>
    match p k with
    | some q => q ++ r.replace p
    | none => item k x y m (r.replace p)
  | list i x y m r => list i x y m (r.replace p)

/-- A new item `k`, before `b` or at the end, instead of the old item `k`. The content of the old one
stays where it is. -/
def insert (k : Key) (b : Option Key) (x y : NodeId) (f : Forest) : Forest :=
  if b = some k then f.replace fun k' => if k' = k then some (item k x y nil nil ++ (f.pick k).unwrap fun _ => false) else none
  else put (item k x y nil nil) b (f.unwrap (· != k))

/-- The item `k` moved before `b`, or to the end. -/
def move (k : Key) (b : Option Key) (f : Forest) : Forest :=
  put (f.pick k) b (f.replace fun k' => if k' = k then some nil else none)

/-- The items `a` and `b` in each other's place. -/
def swap (a b : Key) (f : Forest) : Forest :=
  f.replace fun k => if k = a then some (f.pick b) else if k = b then some (f.pick a) else none

/-- The item `b` comes directly after the item `a`. -/
def adjacent (a b : Key) (f : Forest) : Prop :=
  ∃ p xa ya ma xb yb mb q, f = p ++ item a xa ya ma (item b xb yb mb q)

/-! ## anywhere -/

/-- Change what is between the markers of the list `i`. -/
def atList (i : Nat) (g : Forest → Forest) : Forest → Forest
  | nil => nil
  | node n r => node n (r.atList i g)
  | item k x y m r => item k x y (m.atList i g) (r.atList i g)
  | list j x y m r => list j x y (if j = i then g m else m.atList i g) (r.atList i g)

/-- Put `p` directly before the node `r`, wherever that is. -/
def before (p : Forest) (r : NodeId) : Forest → Forest
  | nil => nil
  | node n q => if n = r then p ++ node n q else node n (before p r q)
  | item k x y m q =>
    if x = r then p ++ item k x y m q
    else if y = r then item k x y (m ++ p) q
    else item k x y (before p r m) (before p r q)
  | list i x y m q =>
    if x = r then p ++ list i x y m q
    else if y = r then list i x y (m ++ p) q
    else list i x y (before p r m) (before p r q)

/-- Put `p` before a node, or at the end. -/
def place (p : Forest) (r : Option NodeId) (f : Forest) : Forest :=
  match r with
  | some r => before p r f
  | none => f ++ p

/-- Without the plain node `n`. -/
def cutNode (n : NodeId) : Forest → Forest
  | nil => nil
  | node n' r => if n' = n then r.cutNode n else node n' (r.cutNode n)
  | item k x y m r => item k x y (m.cutNode n) (r.cutNode n)
  | list i x y m r => list i x y (m.cutNode n) (r.cutNode n)

/-- Without the list `i`. -/
def cutList (i : Nat) : Forest → Forest
  | nil => nil
  | node n r => node n (r.cutList i)
  | item k x y m r => item k x y (m.cutList i) (r.cutList i)
  | list j x y m r => if j = i then r.cutList i else list j x y (m.cutList i) (r.cutList i)

/-- The list `i`, alone. -/
def pickList (i : Nat) : Forest → Forest
  | nil => nil
  | node _ r => r.pickList i
  | item _ _ _ m r => m.pickList i ++ r.pickList i
  | list j x y m r => if j = i then list j x y m nil else m.pickList i ++ r.pickList i

/-- The list `i` is here: its markers and what is between them. -/
def Has (i : Nat) (x y : NodeId) : Forest → Forest → Prop
  | nil, _ => False
  | node _ r, inner => r.Has i x y inner
  | item _ _ _ m r, inner => m.Has i x y inner ∨ r.Has i x y inner
  | list j x' y' m r, inner =>
    (j = i ∧ x' = x ∧ y' = y ∧ m = inner) ∨ m.Has i x y inner ∨ r.Has i x y inner

/-- The node is here as a marker of an item or of a list. -/
def Marker (n : NodeId) : Forest → Prop
  | nil => False
  | node _ r => r.Marker n
  | item _ x y m r => n = x ∨ n = y ∨ m.Marker n ∨ r.Marker n
  | list _ x y m r => n = x ∨ n = y ∨ m.Marker n ∨ r.Marker n

end Forest
end Verif.Lists
