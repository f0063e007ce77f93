import Verif.Lists.Forest
/-!
# Any number of lists, one inside the other

Histories of a document with any number of `DynamicList`s. A list may be rendered anywhere, so also
directly as an item of another list.
-/
namespace Verif.Lists
open Verif.Dom

/-- The document and the lists, by name. -/
structure World where
  dom : Dom
  lists : Nat → Option DynList

/-- A call of a method. -/
inductive Call
  /-- with the two comments that `insert` creates -/
  | insert (key : Key) (before : Option Key) (start stop : NodeId)
  | remove (key : Key)
  | moveBefore (key : Key) (before : Option Key)
  | swap (a b : Key)
  | retain (keep : Key → Bool)

/-- The call, dynamic_list.rs 122-289. -/
def Call.run (d : Dom) (L : DynList) : Call → Option (Dom × DynList × Option Bool)
  | .insert k b x y => (Lists.insert d L k b x y).map fun r => (r.1, r.2.1, some r.2.2)
  | .remove k => (Lists.remove d L k).map fun r => (r.1, r.2.1, some r.2.2)
  | .moveBefore k b => (Lists.moveBefore d L k b).map fun d => (d, L, none)
  | .swap a b => (Lists.swap d L a b).map fun d => (d, L, none)
  | .retain p => (Lists.retain d L p).map fun r => (r.1, r.2, none)

inductive NOp
  /-- `DynamicList::new`, with the fragment and the two comments it creates -/
  | create (i : Nat) (frag start stop : NodeId)
  | call (i : Nat) (c : Call)
  /-- the list is rendered in `parent`, before `after` -/
  | render (i : Nat) (parent : NodeId) (after : Option NodeId)
  /-- the future returned by `render` is dropped; `src` is the node whose child the start marker of
  the list is at that time -/
  | unrender (i : Nat) (src : NodeId)
  /-- some other part of the program inserts a node -/
  | place (container n : NodeId) (ref : Option NodeId)
  /-- some other part of the program removes a node -/
  | vanish (container n : NodeId)

def World.set (w : World) (d : Dom) (i : Nat) (L : DynList) : World :=
  ⟨d, fun j => if j = i then some L else w.lists j⟩

/-- The guard of `render`, dynamic_list.rs 330-339, for a list that may have been moved to another parent
after it was rendered: `next_sibling` follows the nodes where they are. `unrender` of
`Verif.Lists.Dynamic` is the case `src = L.container`. -/
def unrenderAt (d : Dom) (L : DynList) (src : NodeId) : Option (Dom × DynList) := do
  let d ← moveNodes d src L.frag L.listStart L.listEnd none
  return (d, { L with container := L.frag })

/-- One step, with the answer of `insert` and `remove`. -/
def nstep (w : World) : NOp → Option (World × Option Bool)
  | .create i frag x y => (new w.dom frag x y).map fun r => (w.set r.1 i r.2, none)
  | .call i c => do
    let L ← w.lists i
    let r ← c.run w.dom L
    return (w.set r.1 i r.2.1, r.2.2)
  | .render i p a => do
    let L ← w.lists i
    let r ← render w.dom L p a
    return (w.set r.1 i r.2, none)
  | .unrender i src => do
    let L ← w.lists i
    let r ← unrenderAt w.dom L src
    return (w.set r.1 i r.2, none)
  | .place c n r => (w.dom.insertBefore c n r).map fun d => (⟨d, w.lists⟩, none)
  | .vanish c n => (w.dom.removeChild c n).map fun d => (⟨d, w.lists⟩, none)

def nrun (w : World) : List NOp → Option (World × List (Option Bool))
  | [] => some (w, [])
  | op :: ops => do
    let (w, a) ← nstep w op
    let (w, as) ← nrun w ops
    return (w, a :: as)

/-! ## what is on the page -/

/-- The children of every node, and the fragment of every list. -/
structure Page where
  at_ : NodeId → Forest
  frag : Nat → NodeId

def Page.set (F : Page) (c : NodeId) (f : Forest) : Page :=
  ⟨fun x => if x = c then f else F.at_ x, F.frag⟩

/-- What the call does between the markers of the list. -/
def Call.spec : Call → Forest → Forest
  | .insert k b x y => Forest.insert k b x y
  | .remove k => Forest.unwrap (· != k)
  | .moveBefore k b => Forest.move k b
  | .swap a b => Forest.swap a b
  | .retain p => Forest.unwrap p

/-- Whether the key was in the list. -/
def Call.answer (f : Forest) : Call → Option Bool
  | .insert k _ _ _ | .remove k => some (f.keys.contains k)
  | _ => none

def nspec (F : Page) : NOp → Page
  | .create i frag x y =>
    ⟨fun c => if c = frag then .list i x y .nil .nil else F.at_ c, fun j => if j = i then frag else F.frag j⟩
  | .call i c => ⟨fun x => (F.at_ x).atList i c.spec, F.frag⟩
  | .render i p a => (F.set p ((F.at_ (F.frag i)).place a (F.at_ p))).set (F.frag i) .nil
  | .unrender i src => (F.set src ((F.at_ src).cutList i)).set (F.frag i) ((F.at_ src).pickList i)
  | .place c n r =>
    ⟨fun x => if x = c then Forest.place (.node n .nil) r ((F.at_ x).cutNode n) else (F.at_ x).cutNode n, F.frag⟩
  | .vanish c n => F.set c ((F.at_ c).cutNode n)

def nspecRun (F : Page) : List NOp → Page
  | [] => F
  | op :: ops => nspecRun (nspec F op) ops

/-- What is asked of a call on a list with `f` between its markers (as in C33). -/
def Call.ok (d : Dom) (f : Forest) : Call → Prop
  | .insert _ b x y => (∀ k, b = some k → k ∈ f.keys) ∧ Fresh d x ∧ Fresh d y ∧ x ≠ y
  | .remove _ => True
  | .moveBefore k b => k ∈ f.keys ∧ ∀ k', b = some k' → k' ∈ f.keys ∧ k' ≠ k
  | .swap a b => a ∈ f.keys ∧ b ∈ f.keys ∧ ¬ f.adjacent a b
  | .retain _ => True

/-- What is asked of a step.
* A list that is called is a child of the node in which it was rendered (or of its fragment).
* The calls are as in C33.
* A list is rendered in one place at a time, and not in a fragment of a list.
* Others neither insert into fragments of lists, nor move or remove markers. -/
def NAllowed (w : World) (F : Page) : NOp → Prop
  | .create i frag x y => w.lists i = none ∧ F.at_ frag = .nil ∧ (∀ j L, w.lists j = some L → L.frag ≠ frag) ∧
      Fresh w.dom x ∧ Fresh w.dom y ∧ x ≠ y
  | .call i c => ∃ L f, w.lists i = some L ∧
      (F.at_ L.container).Has i L.listStart L.listEnd f ∧ c.ok w.dom f
  | .render i p a => ∃ L, w.lists i = some L ∧ L.container = L.frag ∧
      (∀ j L', w.lists j = some L' → L'.frag ≠ p) ∧ ∀ r, a = some r → r ∈ w.dom.kids p
  | .unrender i src => ∃ L, w.lists i = some L ∧ L.container ≠ L.frag ∧ L.listStart ∈ w.dom.kids src
  | .place c n r => (∀ j L, w.lists j = some L → L.frag ≠ c) ∧ (∀ x, ¬ (F.at_ x).Marker n) ∧ r ≠ some n ∧
      ∀ q, r = some q → q ∈ w.dom.kids c
  | .vanish c n => n ∈ w.dom.kids c ∧ ∀ x, ¬ (F.at_ x).Marker n

def NAllowedRun (w : World) (F : Page) : List NOp → Prop
  | [] => True
  | op :: ops => NAllowed w F op ∧ ∀ w' a, nstep w op = some (w', a) → NAllowedRun w' (nspec F op) ops

end Verif.Lists
