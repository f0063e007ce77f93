/-!
# Dropdown

`Dropdown` (`async_ui_web/src/components/dropdown.rs`) and the part of the HTML standard it relies
on: a `<select>` without `multiple` and with display size 1, whose children are `<option>`s without
`value` attribute, none of them disabled.

Simplifications: option keys are natural numbers (the code asks for `Eq + Hash + Clone`), texts are
lists of characters.  Not modelled: use of the inner `Select` behind the dropdown's back (it can be
reached through `Deref`), and the form reset algorithm of the browser.
-/

namespace Verif.Dropdown

/-- An option key. -/
abbrev Key := Nat

abbrev Text := List Char

/-- An `<option>` element: its identity, its text, and its *selectedness*. -/
structure Elem where
  id : Nat
  text : Text
  sel : Bool
deriving DecidableEq, Repr

/-! ## The `<select>` element (HTML standard, 4.10.7 and 4.10.10) -/

/-- The selectedness setting algorithm: if no option is selected the first one is; if several are,
only the last one stays selected. -/
def settle (kids : List Elem) : List Elem :=
  match kids.filter (·.sel) with
  | [] =>
    match kids with
    | [] => []
    | e :: es => { e with sel := true } :: es
  | s :: ss => kids.map fun e => { e with sel := e.id == ((s :: ss).getLast (by simp)).id }

/-- Puts an element before the one with the given identity. -/
def insertIn (e : Elem) (r : Nat) : List Elem → List Elem
  | [] => []
  | x :: xs => if x.id = r then e :: x :: xs else x :: insertIn e r xs

/-- Removing a child, with the option element's removing steps. -/
def takeOut (kids : List Elem) (id : Nat) : List Elem :=
  if id ∈ kids.map (·.id) then settle (kids.filter (·.id != id)) else kids

/-- `select.insertBefore`: a child is moved, another element, which must be new here, is added.
`none`: it throws because the reference is not a child.  (Inserting an element before itself does
not happen in the code and is left as doing nothing.) -/
def place (kids : List Elem) (id : Nat) (ref : Option Nat) : Option (List Elem) :=
  let e := (kids.find? (·.id == id)).getD ⟨id, [], false⟩
  match ref with
  | none => some (settle (takeOut kids id ++ [e]))
  | some r =>
    if r ∈ kids.map (·.id) then
      if r = id then some kids else some (settle (insertIn e r (takeOut kids id)))
    else none

/-- `select.removeChild`. -/
def removeChild (kids : List Elem) (id : Nat) : Option (List Elem) :=
  if id ∈ kids.map (·.id) then some (takeOut kids id) else none

/-- `option.selected = true`: the others become unselected. -/
def select (kids : List Elem) (id : Nat) : List Elem := kids.map fun e => { e with sel := e.id == id }

/-- ASCII whitespace. -/
def isSpace (c : Char) : Bool := c == ' ' || c == '\t' || c == '\n' || c == '\r' || c == '\x0c'

/-- The value of an option without `value` attribute is its text without surrounding whitespace;
is it empty? -/
def blank (t : Text) : Bool := t.all isSpace

/-- `select.value = ""`: the first option with empty value is selected, all others are not. -/
def clear (kids : List Elem) : List Elem :=
  match kids.find? (fun e => blank e.text) with
  | some b => select kids b.id
  | none => kids.map fun e => { e with sel := false }

/-- `select.selectedIndex`, with `none` for -1. -/
def selectedIndex (kids : List Elem) : Option Nat := kids.findIdx? (·.sel)

/-- `option.textContent = text`. -/
def setText (kids : List Elem) (id : Nat) (t : Text) : List Elem :=
  kids.map fun e => if e.id = id then { e with text := t } else e

/-! ## The dropdown -/

/-- `Dropdown` and `Inner` (dropdown.rs 53-75).  `next` is the identity of the next new element. -/
structure State where
  kids : List Elem
  selected : Option Key
  prev : List Key
  map : Key → Option Nat
  next : Nat

/-- `Dropdown::new` (dropdown.rs 81-90). -/
def new : State := ⟨[], none, [], fun _ => none, 0⟩

/-- `value` (dropdown.rs 184-191). -/
def value (D : State) : Option Key :=
  ((selectedIndex D.kids).bind fun i => D.prev[i]?).or D.selected

/-- `set_value` (dropdown.rs 104-115). -/
def setValue (D : State) (k : Option Key) : State :=
  match k.bind D.map with
  | some id => { D with kids := select D.kids id, selected := k }
  | none => { D with kids := clear D.kids }

/-- The members of a list, each once: `collect::<HashSet<_>>()`. -/
def dedup : List Key → List Key
  | [] => []
  | x :: xs => x :: (dedup xs).filter (· != x)

/-- The element to insert before (dropdown.rs 148-150). `none` is a failed `unwrap`. -/
def refFor (map : Key → Option Nat) : Option Key → Option (Option Nat)
  | some p => (map p).map some
  | none => some none

/-- One round of the loop (dropdown.rs 136-157): what is left of `prev_opts_set` and of
`prev_opts_iter`. `none` is a failed `unwrap`. -/
def putOne (D : State) (set it : List Key) (k : Key) (t : Text) : Option (State × List Key × List Key) := do
  -- 137-143
  let old := decide (k ∈ set)
  let set := set.filter (· != k)
  let skip := old && it.head? == some k
  let D := if old then D else
    { D with map := fun j => if j = k then some D.next else D.map j, next := D.next + 1 }
  let it := if skip then it.tail else it
  let id ← D.map k
  -- 144-153
  let kids ← if skip then some D.kids else do
    place D.kids id (← refFor D.map it.head?)
  -- 154
  some ({ D with kids := setText kids id t }, set, it)

/-- The loop. -/
def putAll (D : State) (set it : List Key) : List (Key × Text) → Option (State × List Key)
  | [] => some (D, set)
  | (k, t) :: opts => do
    let (D, set, it) ← putOne D set it k t
    putAll D set it opts

/-- Removes the options that are left (dropdown.rs 159-163). -/
def removeAll (D : State) : List Key → Option State
  | [] => some D
  | k :: ks => do
    let id ← D.map k
    let kids ← removeChild D.kids id
    removeAll { D with kids := kids, map := fun j => if j = k then none else D.map j } ks

/-- `update_options` (dropdown.rs 122-170).  `drain` is the order in which `HashSet::drain` yields
what is left. -/
def update (drain : List Key → List Key) (D : State) (opts : List (Key × Text)) : Option State := do
  let D := { D with selected := value D }
  let (D, rest) ← putAll D (dedup D.prev) D.prev opts
  let D ← removeAll D (drain rest)
  let D := { D with prev := opts.map Prod.fst }
  match D.selected.bind D.map with
  | some id => some { D with kids := select D.kids id }
  | none => some { D with kids := clear D.kids }

/-- What happens to a dropdown: calls, and the user picking the `i`-th option shown. -/
inductive Op where
  | setValue (k : Option Key)
  | update (opts : List (Key × Text))
  | choose (i : Nat)
deriving DecidableEq, Repr

/-- Does the `Op`; `none`: it panics. Choosing an option that is not there does nothing. -/
def step (drain : List Key → List Key) (D : State) : Op → Option State
  | .setValue k => some (setValue D k)
  | .update opts => update drain D opts
  | .choose i =>
    match D.kids[i]? with
    | some e => some { D with kids := select D.kids e.id }
    | none => some D

def run (drain : List Key → List Key) (D : State) : List Op → Option State
  | [] => some D
  | op :: ops => do
    let D ← step drain D op
    run drain D ops

/-- The texts shown, in order. -/
def shown (D : State) : List Text := D.kids.map (·.text)

end Verif.Dropdown
