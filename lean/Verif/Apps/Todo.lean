/-!
# TodoMVC

Model of `examples/web-todomvc/src/app.rs`. The program is a set of loops, each of which waits for a change of a
`ReactiveCell` or for an event and then does something. Every loop is polled on its own here, in any order; the
program polls several of them in a fixed order.

* A cell's listener is a flag (`…Due`) that is set when the cell is borrowed mutably and cleared when the listener is
  made anew (C22, C23).
* Loops that begin with their body have run it once when the model starts; those of an item do so at their first poll
  (`…Started`).
* An event that has arrived is in `pending` until its loop takes it; a stream holds one event (C40).
* Items are kept in the order in which the list shows them (C33; new ones are added at the end, line 144); the
  hash map of the items (line 76) has the same keys. Ids and counts do not overflow.
* `trim` is a parameter.
-/

namespace Verif.Todo

abbrev Text := List Char

/-- `enum FilterMode`, app.rs lines 23-27. -/
inductive Mode where
  | all
  | active
  | completed
deriving DecidableEq

/-- `should_show`, app.rs lines 37-42. -/
def Mode.shouldShow : Mode → Bool → Bool
  | .all, _ => true
  | .active, c => !c
  | .completed, c => c

/-- What the user does. -/
inductive Event where
  /-- The text field of the head changes (`until_add`, lines 189-199). -/
  | add (text : Text)
  /-- A click on the checkbox of an item. -/
  | check (i : Nat)
  /-- A click on the checkbox for all. -/
  | toggleAll
  /-- A click on `Clear completed`. -/
  | clear
  /-- A click on the cross of an item. -/
  | delete (i : Nat)
  /-- A double click on the label of an item. -/
  | dblclick (i : Nat)
  /-- The editor of an item changes or loses the focus; its value. -/
  | edited (i : Nat) (text : Text)
  /-- A click on a filter. -/
  | filter (m : Mode)
deriving DecidableEq

/-- Events of the same stream: a later one replaces an earlier one. -/
def Event.sameStream : Event → Event → Bool
  | .add _, .add _ => true
  | .edited i _, .edited j _ => i == j
  | a, b => a == b

/-- `TodoItem` (lines 290-294) with its elements and loops (`render_until_deleted`, lines 307-412). -/
structure Item where
  /-- The cells. -/
  text : Text
  checked : Bool
  /-- The checkbox on the screen. -/
  box : Bool
  /-- The class `completed`. -/
  completed : Bool
  /-- The class `hidden`. -/
  hidden : Bool
  /-- The text of the label. -/
  label : Text
  /-- The editor is open (lines 346-361). -/
  editing : Bool
  /-- The loop of lines 366-383 has begun to wait, and `checked` has changed since. -/
  checkStarted : Bool
  checkDue : Bool
  /-- The loop of lines 384-389. -/
  labelStarted : Bool
  labelDue : Bool
  /-- The loop of lines 390-406. -/
  visStarted : Bool
  visDue : Bool

/-- `TodoItem::new` (lines 297-306), nothing rendered yet. -/
def Item.new (text : Text) : Item :=
  { text := text, checked := false, box := false, completed := false, hidden := false, label := [], editing := false,
    checkStarted := false, checkDue := false, labelStarted := false, labelDue := false, visStarted := false,
    visDue := false }

/-- `app_main` (lines 54-164) with `GlobalState` and `FootPart`. -/
structure State where
  items : List (Nat × Item)
  /-- Items taken out of the list by line 123 whose futures are not dropped yet. -/
  zombies : List (Nat × Item)
  next : Nat
  /-- The cells of `GlobalState`, lines 44-48. -/
  numActive : Int
  numTotal : Int
  filter : Mode
  /-- The checkbox for all. -/
  toggleBox : Bool
  /-- The number in `… items left`. -/
  left : Int
  mainHidden : Bool
  clearHidden : Bool
  /-- The class `selected` of the filters. -/
  selected : Mode → Bool
  /-- The loops of lines 149-155, 156-161, 228-238, 249-260 and 280-285. -/
  toggleDue : Bool
  mainDue : Bool
  leftDue : Bool
  clearDue : Bool
  selectedDue : Mode → Bool
  pending : List Event

/-- After the first poll. -/
def init : State :=
  { items := [], zombies := [], next := 0, numActive := 0, numTotal := 0, filter := .all, toggleBox := false, left := 0,
    mainHidden := true, clearHidden := true, selected := fun m => decide (m = .all), toggleDue := false,
    mainDue := false, leftDue := false, clearDue := false, selectedDue := fun _ => false, pending := [] }

/-- Change one item. -/
def modify (i : Nat) (f : Item → Item) (items : List (Nat × Item)) : List (Nat × Item) :=
  items.map fun p => if p.1 = i then (p.1, f p.2) else p

def find (i : Nat) (items : List (Nat × Item)) : Option Item := (items.find? fun p => p.1 == i).map Prod.snd

/-- `*num_active.borrow_mut() += d` wakes the loops of lines 149-155, 228-238 and 249-260. -/
def addActive (d : Int) (s : State) : State :=
  { s with numActive := s.numActive + d, toggleDue := true, leftDue := true, clearDue := true }

/-- `*num_total.borrow_mut() += d` wakes the loops of lines 156-161 and 249-260. -/
def addTotal (d : Int) (s : State) : State :=
  { s with numTotal := s.numTotal + d, mainDue := true, clearDue := true }

/-- `checked as i32`. -/
def asInt (b : Bool) : Int := if b then 1 else 0

/-- `Drop for TodoItem`, lines 419-424. -/
def dropItem (t : Item) (s : State) : State := addTotal (-1) (addActive (-(asInt (!t.checked))) s)

/-- Remove an event from its stream. -/
def take (e : Event) (s : State) : State := { s with pending := s.pending.filter fun e' => !e.sameStream e' }

/-- An event arrives. Clicks on a checkbox change it; an event without a listener is lost. -/
def fire (e : Event) (s : State) : State :=
  let put (s : State) : State := { take e s with pending := (take e s).pending ++ [e] }
  match e with
  | .check i =>
    match find i s.items with
    | some t => if t.checkStarted then
        put { s with items := modify i (fun t => { t with box := !t.box }) s.items } else s
    | none => s
  | .toggleAll => put { s with toggleBox := !s.toggleBox }
  | .delete i => if (find i s.items).isSome then put s else s
  | .dblclick i =>
    match find i s.items with
    | some t => if t.editing then s else put s
    | none => s
  | .edited i _ =>
    match find i s.items with
    | some t => if t.editing then put s else s
    | none => s
  | _ => put s

/-- `set_checked`, lines 413-417. -/
def setChecked (c : Bool) (t : Item) : Item :=
  if t.checked ≠ c then { t with checked := c, checkDue := t.checkStarted, visDue := true } else t

/-- Lines 129-148, with the text from `until_add` (lines 191-196). -/
def pollAdd (trim : Text → Text) (text : Text) (s : State) : State :=
  if Event.add text ∈ s.pending then
    let s := take (.add text) s
    if trim text = [] then s
    else
      let s := addTotal 1 (addActive 1 s)
      { s with items := s.items ++ [(s.next, Item.new (trim text))], next := s.next + 1 }
  else s

/-- Lines 108-116. -/
def pollToggleAll (s : State) : State :=
  if Event.toggleAll ∈ s.pending then
    let s := take .toggleAll s
    { s with items := s.items.map fun p => (p.1, setChecked s.toggleBox p.2) }
  else s

/-- Lines 117-128. The futures of the items that are taken out are dropped later. -/
def pollClear (s : State) : State :=
  if Event.clear ∈ s.pending then
    let s := take .clear s
    { s with items := s.items.filter (fun p => !p.2.checked)
             zombies := s.zombies ++ s.items.filter (fun p => p.2.checked) }
  else s

/-- The executor drops the future of an item that was taken out, and with it the item. -/
def reap (s : State) : State :=
  match s.zombies with
  | [] => s
  | z :: zs => dropItem z.2 { s with zombies := zs }

/-- Lines 149-155. -/
def pollToggleBox (s : State) : State :=
  if s.toggleDue then { s with toggleDue := false, toggleBox := decide (s.numActive = 0) } else s

/-- Lines 156-161. -/
def pollMain (s : State) : State :=
  if s.mainDue then { s with mainDue := false, mainHidden := decide (s.numTotal = 0) } else s

/-- Lines 228-238. -/
def pollLeft (s : State) : State :=
  if s.leftDue then { s with leftDue := false, left := s.numActive } else s

/-- Lines 249-260. -/
def pollClearShown (s : State) : State :=
  if s.clearDue then { s with clearDue := false, clearHidden := !decide (s.numTotal > s.numActive) } else s

/-- Lines 274-279: a filter was clicked. -/
def pollFilter (m : Mode) (s : State) : State :=
  if Event.filter m ∈ s.pending then
    { take (.filter m) s with
      filter := m, selectedDue := fun _ => true,
      items := s.items.map fun p => (p.1, { p.2 with visDue := true }) }
  else s

/-- Lines 280-285. -/
def pollSelected (m : Mode) (s : State) : State :=
  if s.selectedDue m then
    { s with selectedDue := fun k => if k = m then false else s.selectedDue k,
             selected := fun k => if k = m then decide (s.filter = m) else s.selected k }
  else s

/-- Lines 366-383, one round. -/
def pollCheck (i : Nat) (s : State) : State :=
  match find i s.items with
  | none => s
  | some t =>
    if t.checkStarted then
      if Event.check i ∈ s.pending then
        addActive (1 - 2 * asInt t.box)
          { take (.check i) s with
            items := s.items |> modify i fun t =>
              { t with checked := t.box, completed := t.box, checkDue := false, visDue := true } }
      else if t.checkDue then
        addActive (1 - 2 * asInt t.checked)
          { s with
            items := s.items |> modify i fun t =>
              { t with box := t.checked, completed := t.checked, checkDue := false } }
      else s
    else { s with items := modify i (fun t => { t with checkStarted := true, checkDue := false }) s.items }

/-- Lines 384-389, one round. -/
def pollLabel (i : Nat) (s : State) : State :=
  { s with items := modify i (fun t => if !t.labelStarted || t.labelDue then
      { t with labelStarted := true, labelDue := false, label := t.text } else t) s.items }

/-- Lines 390-406, one round. -/
def pollVis (i : Nat) (s : State) : State :=
  { s with items := modify i (fun t => if !t.visStarted || t.visDue then
      { t with visStarted := true, visDue := false, hidden := !s.filter.shouldShow t.checked } else t) s.items }

/-- Lines 345-349: the editor opens. -/
def pollOpen (i : Nat) (s : State) : State :=
  if Event.dblclick i ∈ s.pending then
    { take (.dblclick i) s with items := modify i (fun t => { t with editing := true }) s.items }
  else s

/-- Lines 350-361: the editor closes. -/
def pollClose (trim : Text → Text) (i : Nat) (text : Text) (s : State) : State :=
  if Event.edited i text ∈ s.pending then
    { take (.edited i text) s with
      items := modify i (fun t => { t with editing := false, text := trim text, labelDue := true }) s.items }
  else s

/-- Lines 407-409 and then lines 138-141: the item takes itself out and is dropped. -/
def pollDelete (i : Nat) (s : State) : State :=
  if Event.delete i ∈ s.pending then
    match find i s.items with
    | some t => dropItem t { take (.delete i) s with items := s.items.filter fun p => p.1 != i }
    | none => take (.delete i) s
  else s

/-- What is polled. -/
inductive Poll where
  | add (text : Text)
  | toggleAll
  | clear
  | reap
  | toggleBox
  | main
  | left
  | clearShown
  | filter (m : Mode)
  | selected (m : Mode)
  | check (i : Nat)
  | label (i : Nat)
  | vis (i : Nat)
  | open (i : Nat)
  | close (i : Nat) (text : Text)
  | delete (i : Nat)

/-- One poll. -/
def poll (trim : Text → Text) (s : State) : Poll → State
  | .add text => pollAdd trim text s
  | .toggleAll => pollToggleAll s
  | .clear => pollClear s
  | .reap => reap s
  | .toggleBox => pollToggleBox s
  | .main => pollMain s
  | .left => pollLeft s
  | .clearShown => pollClearShown s
  | .filter m => pollFilter m s
  | .selected m => pollSelected m s
  | .check i => pollCheck i s
  | .label i => pollLabel i s
  | .vis i => pollVis i s
  | .open i => pollOpen i s
  | .close i text => pollClose trim i text s
  | .delete i => pollDelete i s

/-- Several polls. -/
def polls (trim : Text → Text) (s : State) (ps : List Poll) : State := ps.foldl (poll trim) s

end Verif.Todo
