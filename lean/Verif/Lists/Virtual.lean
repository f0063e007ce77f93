import Verif.Lists.DynamicSystem
/-!
# VirtualizedList

Model of `async_ui_web/src/lists/virtualized_list.rs`, on top of `DynamicList`. `none` is a panic.
-/
namespace Verif.Lists
open Verif.Dom

/-- `VirtualizedList` and `State`, virtualized_list.rs 46-60, with the document: `range` and
`num_items`. The spacers, the scroll listener and the observer only decide when `update_visible` runs
and what it measures. -/
structure Virtual where
  sys : Sys
  start : Nat
  stop : Nat
  num : Nat

/-- What `update_visible` gets out of its measurements, virtualized_list.rs 181-201. The theorems hold
for all values, whatever the arithmetic of `f64` makes of the sizes. -/
structure Measured where
  /-- `rect_f.1 + tres_size < rect_root.0`, line 188 -/
  farFront : Bool
  /-- `rect_b.0 - tres_size > rect_root.1`, line 189 -/
  farBack : Bool
  /-- `new_start`, line 200 -/
  newStart : Nat
  /-- `new_end` before it is cut to the number of items, line 201 -/
  newEnd : Nat
deriving DecidableEq

/-- `a..b` -/
def upTo (a b : Nat) : List Key := List.range' a (b - a)

/-- Insertions before the same key, virtualized_list.rs 221-227. `mk` gives the comments to be
created. -/
def insCalls (mk : Nat → NodeId × NodeId) (before : Option Key) : Nat → List Key → List Op
  | _, [] => []
  | i, k :: ks => .insert k before (mk i).1 (mk i).2 :: insCalls mk before (i + 1) ks

/-- The removals, virtualized_list.rs 214-218. -/
def virtualRemoved (a b s e : Nat) : List Key := upTo a (min b s) ++ upTo (max a e) b

/-- `remaining`, virtualized_list.rs 219-220. -/
def virtualRemaining (a s e : Nat) : Option Key := if a ≥ s ∧ a < e then some a else none

/-- The calls of `update_visible`, virtualized_list.rs 214-227. -/
def virtualCalls (mk : Nat → NodeId × NodeId) (a b s e : Nat) : List Op :=
  let front := upTo s (min e a)
  (virtualRemoved a b s e).map .remove ++
    insCalls mk (virtualRemaining a s e) 0 front ++
    insCalls mk none front.length (upTo (max s b) e)

/-- The early return, virtualized_list.rs 187-191. -/
def Virtual.quiet (V : Virtual) (g : Measured) : Bool :=
  (g.farFront || V.start == 0) && (g.farBack || V.stop == V.num)

/-- `update_visible`, virtualized_list.rs 171-229. The subtraction in line 204 does not overflow,
since `new_end` is at most the number of items. -/
def Virtual.updateVisible (V : Virtual) (g : Measured) (mk : Nat → NodeId × NodeId) : Option Virtual :=
  if V.quiet g then some V
  else do
    let (sys, _) ← run V.sys (virtualCalls mk V.start V.stop g.newStart (min g.newEnd V.num))
    return { V with sys := sys, start := g.newStart, stop := min g.newEnd V.num }

/-- What happens to the list. -/
inductive VOp
  /-- `update_visible` runs because of the scroll listener, the observer or `render` -/
  | visible (g : Measured) (nodes : Nat → NodeId × NodeId)
  /-- `set_num_items`, virtualized_list.rs 129-132 -/
  | setNum (n : Nat) (g : Measured) (nodes : Nat → NodeId × NodeId)
  /-- anything else that happens in the program -/
  | env (op : Op)

def Virtual.step (V : Virtual) : VOp → Option Virtual
  | .visible g nodes => V.updateVisible g nodes
  | .setNum n g nodes => { V with num := n }.updateVisible g nodes
  | .env op => (Verif.Lists.step V.sys op).map fun r => { V with sys := r.1 }

def Virtual.run (V : Virtual) : List VOp → Option Virtual
  | [] => some V
  | op :: ops => do
    let V ← V.step op
    V.run ops

/-- The three rectangles that are measured, in pixels: the near and the far edge of the front spacer,
of the back spacer and of the root. -/
structure Rects where
  f0 : Int
  f1 : Int
  b0 : Int
  b1 : Int
  r0 : Int
  r1 : Int

/-- `avg_size`, virtualized_list.rs 194-199, as a fraction. -/
def Rects.avg (R : Rects) (visible : Nat) : Int × Int :=
  if visible > 0 then (R.b0 - R.f1, visible) else (R.r1 - R.r0, 4)

/-- The measurements with exact arithmetic, virtualized_list.rs 181-201, for items whose size is not
0. -/
def Rects.measure (R : Rects) (visible : Nat) : Measured :=
  let size := R.r1 - R.r0
  let a := R.avg visible
  { farFront := decide (4 * R.f1 + 5 * size < 4 * R.r0)
    farBack := decide (4 * R.b0 - 5 * size > 4 * R.r1)
    newStart := ((R.r0 - 2 * size - R.f0) * a.2 / a.1).toNat
    newEnd := (-(-((R.r1 + 2 * size - R.f0) * a.2) / a.1)).toNat }

/-- Where the root is, and where the list begins (the near edge of the front spacer), in any unit in
which all lengths are whole numbers. -/
structure Port where
  top : Int
  r0 : Int
  r1 : Int
deriving DecidableEq

/-- The size of the root. -/
def Port.size (v : Port) : Int := v.r1 - v.r0

/-- The list on the screen: the window, the size of every item ("only fixed-height items are
supported", virtualized_list.rs 39), and the sizes of the two spacers. The browser puts front spacer,
items and back spacer directly after one another. -/
structure Layout where
  start : Nat
  stop : Nat
  num : Nat
  item : Int
  front : Int
  back : Int
deriving DecidableEq

/-- The number of items rendered. -/
def Layout.visible (L : Layout) : Nat := L.stop - L.start

/-- What `get_bounding_client_rect` reports, virtualized_list.rs 181-183. -/
def Layout.rects (L : Layout) (v : Port) : Rects :=
  { f0 := v.top
    f1 := v.top + L.front
    b0 := v.top + L.front + L.item * L.visible
    b1 := v.top + L.front + L.item * L.visible + L.back
    r0 := v.r0
    r1 := v.r1 }

/-- The early return, virtualized_list.rs 187-191. -/
def Layout.quiet (L : Layout) (v : Port) : Bool :=
  let g := (L.rects v).measure L.visible
  (g.farFront || L.start == 0) && (g.farBack || L.stop == L.num)

/-- `update_visible`, virtualized_list.rs 171-229, as far as sizes are concerned: the window and, lines
203-212, the spacers. The division is exact for a window that is not empty, and for an empty one if
the size of the root is a multiple of 4. -/
def Layout.update (L : Layout) (v : Port) : Layout :=
  if L.quiet v then L
  else
    let a := (L.rects v).avg L.visible
    let g := (L.rects v).measure L.visible
    let stop := min g.newEnd L.num
    { L with
      start := g.newStart
      stop := stop
      front := a.1 * g.newStart / a.2
      back := a.1 * (L.num - stop : Nat) / a.2 }

/-- Updates because of scrolling and the like, and `set_num_items` (virtualized_list.rs 129-132). -/
inductive LEvent
  | update (v : Port)
  | setNum (n : Nat) (v : Port)
deriving DecidableEq

def Layout.step (L : Layout) : LEvent → Layout
  | .update v => L.update v
  | .setNum n v => { L with num := n }.update v

end Verif.Lists
