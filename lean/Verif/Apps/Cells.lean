/-!
# The spreadsheet

Model of `examples/web-simple-examples/src/cells.rs`: every cell has a task that computes its formula, shows the
value, stores it in a `ReactiveCell`, and waits until the user has changed the formula or one of the cells in it
has changed.

One round of the loop of one task is one step: it has no `.await` but the last one, and the futures it creates
there are pending when they are polled first (C22, C40). Which of the tasks that can go on is polled next is left open;
that all of them are polled is C48 and C49. `until_change` remembers the version of the cell when it is polled first
(C22); all subfutures of the new `race` are polled at once (C12).

The numbers are arbitrary: `Numbers` gives the addition, NaN, the parser and the formatter of `f64`. Checks for
overflow are on.
-/
namespace Verif.Cells

/-- What is used of `f64`. -/
structure Numbers (V : Type) where
  zero : V
  add : V → V → V
  nan : V
  /-- `str::parse`, cells.rs 168 -/
  parse : List Char → Option V
  /-- the text of a value, cells.rs 102-106 -/
  text : V → List Char

/-- `NUM_COLUMNS`, `NUM_ROWS`, cells.rs 13-14. -/
def numColumns : Nat := 26
def numRows : Nat := 100

/-- the length of `values`, cells.rs 24 -/
def numCells : Nat := numColumns * numRows

/-- `CellIndex`, cells.rs 29. -/
structure CellIndex where
  col : Nat
  row : Nat
deriving DecidableEq

/-- `Index<CellIndex>`, cells.rs 46-52. -/
def CellIndex.at (i : CellIndex) : Nat := i.col * numRows + i.row

/-- `usize::from_str` of the standard library, with 32 bits. -/
def parseUsize (cs : List Char) : Option Nat :=
  let ds := if cs.head? = some '+' then cs.tail else cs
  if ds.isEmpty || !ds.all Char.isDigit then none
  else
    let n := Nat.ofDigitChars 10 ds 0
    if n < 2 ^ 32 then some n else none

/-- `CellIndex::from_str`, cells.rs 34-43. -/
def parseIndex : List Char → Option CellIndex
  | [] => none
  | c :: cs =>
    if c.isUpper then (parseUsize cs).map fun row => ⟨c.toNat - 'A'.toNat, row⟩
    else none

/-- `Formula`, cells.rs 121-125. -/
inductive Formula (V : Type)
  | literal (v : V)
  | sum (from_ to_ : CellIndex)
  | unknown
deriving DecidableEq

/-- `str::split_once(':')` -/
def splitColon : List Char → Option (List Char × List Char)
  | [] => none
  | c :: cs => if c = ':' then some ([], cs) else (splitColon cs).map fun r => (c :: r.1, r.2)

/-- `Formula::from`, cells.rs 159-173. -/
def parse {V : Type} (N : Numbers V) (input : List Char) : Formula V :=
  if ['=', 'S', 'U', 'M', '('].isPrefixOf input && input.getLast? == some ')' then
    match splitColon ((input.drop 5).dropLast) with
    | some (l, r) =>
      match parseIndex l, parseIndex r with
      | some l, some r => .sum l r
      | _, _ => .unknown
    | none => .unknown
  else
    match N.parse input with
    | some v => .literal v
    | none => .unknown

/-- `for col in fcol..=tcol { for row in frow..=trow {`, cells.rs 132-133, 147-148. -/
def cellsOf (f t : CellIndex) : List CellIndex :=
  (List.range' f.col (t.col + 1 - f.col)).flatMap fun col => (List.range' f.row (t.row + 1 - f.row)).map fun row => ⟨col, row⟩

/-- `out += *state.values[..].borrow()`, cells.rs 149; `none`: out of bounds. -/
def addUp {V : Type} (N : Numbers V) (value : Nat → V) : V → List CellIndex → Option V
  | out, [] => some out
  | out, i :: is => if i.at < numCells then addUp N value (N.add out (value i.at)) is else none

/-- `compute`, cells.rs 142-157. -/
def compute {V : Type} (N : Numbers V) (value : Nat → V) : Formula V → Option V
  | .sum f t => addUp N value N.zero (cellsOf f t)
  | .literal v => some v
  | .unknown => some N.nan

/-- The cells a formula waits for, cells.rs 132-136. -/
def deps {V : Type} : Formula V → List Nat
  | .sum f t => (cellsOf f t).map CellIndex.at
  | _ => []

/-- `Vec::with_capacity(..)`, cells.rs 131: the subtractions do not overflow. -/
def capacityOk {V : Type} : Formula V → Bool
  | .sum f t => f.col ≤ t.col && f.row ≤ t.row
  | _ => true

/-- The sheet: per cell what its task holds and what its `ReactiveCell` holds. -/
structure Sheet (V : Type) where
  /-- the local variable, cells.rs 94 -/
  formula : Nat → Formula V
  value : Nat → V
  version : Nat → Nat
  /-- the text of `computed` -/
  shown : Nat → List Char
  /-- the versions that the futures of `until_dep_change` remember -/
  seen : Nat → Nat → Nat
  /-- the task has been polled -/
  started : Nat → Bool
  /-- the text of the input if it has changed since the task was last polled -/
  typed : Nat → Option (List Char)

def set {α : Type} (f : Nat → α) (c : Nat) (x : α) : Nat → α := fun d => if d = c then x else f d

/-- `State::new`, cells.rs 22-26, and the tasks before they are polled; versions start at 1. -/
def init {V : Type} (N : Numbers V) : Sheet V :=
  ⟨fun _ => .unknown, fun _ => N.nan, fun _ => 1, fun _ => [], fun _ _ => 0, fun _ => false, fun _ => none⟩

/-- The task can go on: it is new, its input has changed, or a cell it waits for has. -/
def Ready {V : Type} (s : Sheet V) (c : Nat) : Prop :=
  s.started c = false ∨ s.typed c ≠ none ∨ ∃ d ∈ deps (s.formula c), s.seen c d < s.version d

instance {V : Type} (s : Sheet V) (c : Nat) : Decidable (Ready s c) := by
  unfold Ready; infer_instance

/-- The formula in the next round, cells.rs 109-112. -/
def target {V : Type} (N : Numbers V) (s : Sheet V) (c : Nat) : Formula V :=
  match s.typed c with
  | some text => parse N text
  | none => s.formula c

/-- One round of the loop of the task of the cell `c`, cells.rs 100-115; `none`: a panic. -/
def round {V : Type} (N : Numbers V) (s : Sheet V) (c : Nat) : Option (Sheet V) :=
  let f := target N s c
  match compute N s.value f with
  | none => none
  | some v =>
    if capacityOk f then
      let version := set s.version c (s.version c + 1)
      some {
        formula := set s.formula c f
        value := set s.value c v
        version := version
        shown := set s.shown c (N.text v)
        seen := set s.seen c version
        started := set s.started c true
        typed := set s.typed c none }
    else none

inductive Event
  /-- the user changes the text of a cell -/
  | edit (c : Nat) (text : List Char)
  /-- the task of a cell is polled -/
  | poll (c : Nat)

/-- A task that is polled although it cannot go on stays where it is. There is no input before the first poll. -/
def step {V : Type} (N : Numbers V) (s : Sheet V) : Event → Option (Sheet V)
  | .edit c text => if s.started c then some { s with typed := set s.typed c (some text) } else some s
  | .poll c => if Ready s c then round N s c else some s

def run {V : Type} (N : Numbers V) (s : Sheet V) : List Event → Option (Sheet V)
  | [] => some s
  | e :: es => (step N s e).bind fun s => run N s es

/-- The event is about a cell of the sheet. -/
def Event.onSheet : Event → Prop
  | .edit c _ => c < numCells
  | .poll c => c < numCells

/-- What a user can bring about. -/
def Reachable {V : Type} (N : Numbers V) (s : Sheet V) : Prop :=
  ∃ es : List Event, (∀ e ∈ es, e.onSheet) ∧ run N (init N) es = some s

/-- Nothing is left to do. -/
def Idle {V : Type} (s : Sheet V) : Prop := ∀ c, c < numCells → ¬ Ready s c

end Verif.Cells
