/-!
# Child positions

Model of `async_ui_web_core/src/position.rs`.
-/
namespace Verif.Dom

/-- `ChildPosition(SmallVec<[u32; 4]>)`, `position.rs:84`.  Storage order: the *least*
significant segment (innermost combinator index) comes first, the most significant last.
Simplification: segments are unbounded naturals; the `u32` bound appears only in
`nextSibling`, the one place where the code does arithmetic on a segment. -/
abbrev Pos := List Nat

/-- `compare_slice_reversed`, `position.rs:65-74`, after both slices have been reversed:
the `zip` loop returns the first difference; when one slice is exhausted the lengths decide.
(`l1`, `l2` are the original lengths, as in the code.) -/
def compareZip (l1 l2 : Nat) : List Nat → List Nat → Ordering
  | e1 :: s1, e2 :: s2 =>
    match compare e1 e2 with
    | .eq => compareZip l1 l2 s1 s2
    | o => o
  | _, _ => compare l1 l2

/-- `impl Ord for ChildPosition`, `position.rs:91-95` (through `compare_slice_reversed`,
`position.rs:65-74`). -/
def Pos.cmp (s1 s2 : Pos) : Ordering :=
  compareZip s1.length s2.length s1.reverse s2.reverse

/-- Whether the crate was compiled with overflow checks / `debug_assertions`. -/
inductive Build
  | debug
  | release
deriving DecidableEq, Repr

/-- `ChildPosition::wrap`, `position.rs:100-102`: push a more significant segment. -/
def Pos.wrap (p : Pos) (index : Nat) : Pos := p ++ [index]

/-- `ChildPosition::next_sibling`, `position.rs:109-113`: `content[0] += 1`.
`none` = panic: index out of bounds when empty, arithmetic overflow in a debug build.  In a
release build the `u32` addition wraps around. -/
def Pos.nextSibling (b : Build) : Pos → Option Pos
  | [] => none
  | x :: xs =>
    if x + 1 < 2 ^ 32 then some ((x + 1) :: xs)
    else match b with
      | .debug => none
      | .release => some (0 :: xs)

/-- `ChildPosition::is_root`, `position.rs:115-117`. -/
def Pos.isRoot (p : Pos) : Bool := p.isEmpty

end Verif.Dom
