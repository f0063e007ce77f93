import Verif.Apps.Drag

/-!
# Drag and drop: specification

A drag as the person at the screen knows it, and what the program should be told about it.
-/

namespace Verif.Drag

variable {Id : Type} [DecidableEq Id]

/-- While an item is dragged, the pointer is over items and leaves items. -/
inductive Way (Id : Type) where
  /-- The pointer is over `j` at `pointer`; the element of `j` begins at `begins`. -/
  | over (j : Id) (pointer begins : Int)
  /-- The pointer leaves `j`, or only (`self = false`) an element inside `j`. -/
  | leave (j : Id) (self : Bool)

/-- One drag, from taking the item up to letting it go. -/
structure Gesture (Id : Type) where
  /-- The item taken up. -/
  item : Id
  /-- Its size. -/
  size : Int
  way : List (Way Id)
  /-- The item it is dropped on, if any. -/
  drop : Option Id

/-- The event that the browser sends for a piece of the way. -/
def Way.event : Way Id → Id × Event
  | .over j p b => (j, .over p b)
  | .leave j self => (j, .leave self)

/-- The events that the browser sends for a drag. -/
def Gesture.events (g : Gesture Id) : List (Id × Event) :=
  (g.item, .start g.size) :: (g.way.map Way.event ++ (g.drop.toList.map fun j => (j, Event.drop)) ++ [(g.item, .stop)])

/-- Is the pointer over an item other than the one dragged? -/
def Way.overOther (i : Id) : Way Id → Bool
  | .over j _ _ => decide (j ≠ i)
  | .leave _ _ => false

/-- `m` is what should be reported about the drag `g`: item and target, and the side is the one on which the
pointer was when it was last over another item. -/
def Reports (g : Gesture Id) (m : Move Id) : Prop :=
  m.frm = g.item ∧ g.drop = some m.to ∧
  ∀ (pre post : List (Way Id)) (j : Id) (pointer begins : Int),
    g.way = pre ++ .over j pointer begins :: post → j ≠ g.item →
    (∀ w ∈ post, Way.overOther g.item w = false) →
    m.after = decide (2 * pointer > 2 * begins + g.size)

/-- Nothing is left to do: no item and no reader of `until_move` would do anything if polled. -/
def Settled (s : State Id) : Prop := (∀ j, pollItem j s = s) ∧ pollMove s = s

/-- Polling an item or the stream. -/
def Action.IsPoll : Action Id → Prop
  | .pollItem _ => True
  | .pollMove => True
  | _ => False

/-- An event arrives and everything is polled, in any order and any number of times, until nothing is left to do. -/
def Handled (s : State Id) (i : Id) (e : Event) (s' : State Id) : Prop :=
  ∃ polls : List (Action Id), (∀ a ∈ polls, a.IsPoll) ∧ run (fire i e s) polls = s' ∧ Settled s'

/-- Events arrive one after the other. -/
inductive Play : State Id → List (Id × Event) → State Id → Prop where
  | nil (s : State Id) : Play s [] s
  | cons {s s' s'' : State Id} {i : Id} {e : Event} {es : List (Id × Event)} :
      Handled s i e s' → Play s' es s'' → Play s ((i, e) :: es) s''

/-- What happens in a session. -/
inductive Act (Id : Type) where
  | mount (i : Id)
  | unmount (i : Id)
  | drag (g : Gesture Id)

/-- A session: items come and go between drags, and the drags are over items that are there. -/
inductive Session : State Id → List (Act Id) → State Id → Prop where
  | nil (s : State Id) : Session s [] s
  | mount {s s' : State Id} {i : Id} {as : List (Act Id)} :
      Session (step s (.mount i)) as s' → Session s (.mount i :: as) s'
  | unmount {s s' : State Id} {i : Id} {as : List (Act Id)} :
      Session (step s (.unmount i)) as s' → Session s (.unmount i :: as) s'
  | drag {s s' s'' : State Id} {g : Gesture Id} {as : List (Act Id)} :
      (∀ p ∈ g.events, (s.items p.1).mounted = true) → Play s g.events s' → Session s' as s'' →
      Session s (.drag g :: as) s''

/-- The drags of a session that end on an item. -/
def drops : List (Act Id) → List (Gesture Id)
  | [] => []
  | .drag g :: as => if g.drop.isSome then g :: drops as else drops as
  | _ :: as => drops as

end Verif.Drag
