import Verif.Cell.Model
import Verif.Arena.Refine
/-!
# Invariant of the cell: the arena's list has exactly one slot per live listener
-/
namespace Verif.Cell
open Verif.Arena (Arena Book)
variable {V : Type}

def feSlots : ForEach → List Nat
  | .awaiting l => [l.slot]
  | _ => []

/-- Slots owned by the listeners. -/
def own (s : Sys V) : List Nat := (s.listeners.filterMap (·.map (·.slot))) ++ feSlots s.forEach

/-- The arena part: one list, with these slots and wakers. -/
def Good (a : Arena Waker) (slots : List (Nat × Waker)) : Prop :=
  Arena.Run none a [(SUBLIST, slots)]

theorem Good.step {a : Arena Waker} {slots : List (Nat × Waker)} (h : Good a slots)
    (op : Arena.Op Waker) (ha : Book.allows [(SUBLIST, slots)] op) :
    ∃ a' r, Arena.step none a op = some (a', r) ∧ Book.expects [(SUBLIST, slots)] op r ∧
      Arena.Run none a' (Book.note none [(SUBLIST, slots)] op r) := by
  obtain ⟨free, hi⟩ := Arena.run_inv h
  obtain ⟨a', r, _, e, hx, _⟩ := Arena.step_ok hi op ha
  exact ⟨a', r, e, hx, .cons h ha e⟩

theorem Good.nodup {a : Arena Waker} {slots : List (Nat × Waker)} (h : Good a slots) :
    (slots.map (·.1)).Nodup := by
  obtain ⟨free, hi⟩ := Arena.run_inv h
  have := hi.nodup
  simp only [Arena.allNodes, List.flatMap_cons, List.flatMap_nil, Arena.nodes, List.append_nil,
    List.nodup_cons] at this
  exact this.2

theorem good_new : ∃ a, Arena.addSublist none (Arena.new none) = some (a, SUBLIST) ∧ Good a [] := by
  refine ⟨_, rfl, ?_⟩
  have : Arena.Run (none : Waker) (Arena.new none) [] := .nil
  exact Arena.Run.cons (op := .addSublist) (r := .handle 1) this trivial rfl

theorem Good.add {a : Arena Waker} {slots : List (Nat × Waker)} (h : Good a slots) :
    ∃ a' x, Arena.add none a SUBLIST = some (a', x) ∧ x ∉ slots.map (·.1) ∧
      Good a' (slots ++ [(x, none)]) := by
  obtain ⟨a', r, e, ⟨x, hr, _, h2⟩, hi⟩ := h.step (.add SUBLIST) (by simp [Book.allows, Book.lists])
  subst hr
  simp only [Arena.step, Option.map_eq_some_iff, Prod.mk.injEq, Arena.Res.handle.injEq] at e
  obtain ⟨⟨a1, x1⟩, e, rfl, rfl⟩ := e
  refine ⟨a1, x1, e, by simpa [Book.slots] using h2, ?_⟩
  simpa [Book.note, Good] using hi

/-- The slot list after an update. -/
def putWaker (slots : List (Nat × Waker)) (x : Nat) (w : Waker) : List (Nat × Waker) :=
  slots.map fun y => if y.1 = x then (x, w) else y

theorem Good.update {a : Arena Waker} {slots : List (Nat × Waker)} (h : Good a slots) {x : Nat}
    (hx : x ∈ slots.map (·.1)) (w : Waker) :
    ∃ a', Arena.update a x w = some a' ∧ Good a' (putWaker slots x w) := by
  obtain ⟨a', r, e, hr, hi⟩ := h.step (.update x w) (by simpa [Book.allows, Book.slots] using hx)
  simp only [Arena.step, Option.map_eq_some_iff, Prod.mk.injEq] at e
  obtain ⟨a1, e, rfl, _⟩ := e
  exact ⟨a1, e, by simpa [Book.note, putWaker, Good] using hi⟩

theorem Good.remove {a : Arena Waker} {slots : List (Nat × Waker)} (h : Good a slots) {x : Nat}
    (hx : x ∈ slots.map (·.1)) :
    ∃ a', Arena.remove none a x = some a' ∧ Good a' (slots.filter fun y => decide (y.1 ≠ x)) := by
  obtain ⟨a', r, e, hr, hi⟩ := h.step (.remove x) (by simpa [Book.allows, Book.slots] using hx)
  simp only [Arena.step, Option.map_eq_some_iff, Prod.mk.injEq] at e
  obtain ⟨a1, e, rfl, _⟩ := e
  exact ⟨a1, e, by simpa [Book.note, Good] using hi⟩

theorem Good.iter {a : Arena Waker} {slots : List (Nat × Waker)} (h : Good a slots) :
    Arena.iter a SUBLIST = some (slots.map (·.2)) := by
  obtain ⟨free, hi⟩ := Arena.run_inv h
  exact Arena.iter_ok hi (e := (SUBLIST, slots)) (by simp)

theorem putWaker_map (slots : List (Nat × Waker)) (x : Nat) (w : Waker) :
    (putWaker slots x w).map (·.1) = slots.map (·.1) := by
  simp only [putWaker, List.map_map]
  apply List.map_congr_left
  intro y _
  simp only [Function.comp]
  split <;> simp_all

theorem putWaker_mem {slots : List (Nat × Waker)} {x : Nat} (w : Waker) (hx : x ∈ slots.map (·.1)) :
    (x, w) ∈ putWaker slots x w := by
  simp only [List.mem_map] at hx
  obtain ⟨y, hy, rfl⟩ := hx
  simp only [putWaker, List.mem_map]
  exact ⟨y, hy, by simp⟩

theorem putWaker_other {slots : List (Nat × Waker)} {x : Nat} (w : Waker) {y : Nat × Waker}
    (hy : y ∈ slots) (hne : y.1 ≠ x) : y ∈ putWaker slots x w := by
  simp only [putWaker, List.mem_map]
  exact ⟨y, hy, by simp [hne]⟩

/-! ## The operations of the cell -/

/-- Effect of an operation on the slots: what was there stays, except for one slot. -/
def Keeps (slots slots' : List (Nat × Waker)) (x : Nat) : Prop :=
  ∀ y ∈ slots, y.1 ≠ x → y ∈ slots'

theorem untilChange_ok {c : Inner V} {slots : List (Nat × Waker)} (h : Good c.listeners slots)
    (hf : c.free = true) : ∃ a x, untilChange c = some ({ c with listeners := a }, ⟨0, x⟩) ∧
      x ∉ slots.map (·.1) ∧ Good a (slots ++ [(x, none)]) := by
  obtain ⟨a, x, e, hx, hg⟩ := h.add
  refine ⟨a, x, ?_, hx, hg⟩
  simp only [untilChange, hf, if_true, e, bind, Option.bind, pure]

/-- What a poll makes of the listener and the result. -/
def pollResult (version : Nat) (l : Listener) : Listener × Bool :=
  if l.lastVersion = 0 then ({ l with lastVersion := version }, false)
  else if l.lastVersion < version then ({ l with lastVersion := version }, true)
  else (l, false)

theorem pollResult_slot (v : Nat) (l : Listener) : (pollResult v l).1.slot = l.slot := by
  simp only [pollResult]; split
  · rfl
  · split <;> rfl

theorem pollNext_ok {c : Inner V} {slots : List (Nat × Waker)} (h : Good c.listeners slots)
    (hf : c.free = true) {l : Listener} (hl : l.slot ∈ slots.map (·.1)) (w : Waker) :
    ∃ a, pollNext c l w = some ({ c with listeners := a }, pollResult c.version l) ∧
      Good a (putWaker slots l.slot w) := by
  obtain ⟨a, e, hg⟩ := h.update hl w
  refine ⟨a, ?_, hg⟩
  simp only [pollNext, hf, if_true, e, bind, Option.bind, pure, pollResult]

theorem dropListener_ok {c : Inner V} {slots : List (Nat × Waker)} (h : Good c.listeners slots)
    (hf : c.free = true) {l : Listener} (hl : l.slot ∈ slots.map (·.1)) :
    ∃ a, dropListener c l = some { c with listeners := a } ∧
      Good a (slots.filter fun y => decide (y.1 ≠ l.slot)) := by
  obtain ⟨a, e, hg⟩ := h.remove hl
  refine ⟨a, ?_, hg⟩
  simp only [dropListener, hf, if_true, e, bind, Option.bind, pure]

/-- The loop of `for_each` runs its body once. -/
theorem forEachLoop_ok {c : Inner V} {slots : List (Nat × Waker)} (h : Good c.listeners slots)
    (hf : c.free = true) (w : Waker) (seen : List V) :
    ∃ a x, forEachLoop w 2 c seen =
        some ({ c with listeners := a }, ⟨c.version, x⟩, seen ++ [c.data]) ∧
      x ∉ slots.map (·.1) ∧ Good a (putWaker (slots ++ [(x, none)]) x w) := by
  obtain ⟨a, x, e, hx, hg⟩ := untilChange_ok h hf
  obtain ⟨a', e', hg'⟩ := pollNext_ok (c := { c with listeners := a }) hg hf (l := ⟨0, x⟩)
    (by simp) w
  refine ⟨a', x, ?_, hx, hg'⟩
  have hw : c.writing = false := by
    simp only [Inner.free, Bool.and_eq_true, Bool.not_eq_true'] at hf; exact hf.1
  have hw' : ¬ (c.writing = true) := by rw [hw]; simp
  rw [forEachLoop, if_neg hw']
  simp only [e, bind, Option.bind, e', pollResult, if_true, pure, Bool.false_eq_true, if_false]

/-- Invariant. -/
structure WF (s : Sys V) (slots : List (Nat × Waker)) : Prop where
  good : Good s.cell.listeners slots
  owned : ∀ x, (own s).count x = (slots.map (·.1)).count x
  ver : 1 ≤ s.cell.version
  le : ∀ (i : Nat) (l : Listener), s.listeners[i]? = some (some l) → l.lastVersion ≤ s.cell.version
  fe : ∀ l, s.forEach = .awaiting l → 1 ≤ l.lastVersion ∧ l.lastVersion ≤ s.cell.version

theorem WF.mem {s : Sys V} {slots : List (Nat × Waker)} (h : WF s slots) {x : Nat} :
    x ∈ own s ↔ x ∈ slots.map (·.1) := by
  rw [← List.count_pos_iff, ← List.count_pos_iff, h.owned]

theorem own_get {s : Sys V} {i : Nat} {l : Listener} (h : s.listeners[i]? = some (some l)) :
    l.slot ∈ own s := by
  simp only [own, List.mem_append, List.mem_filterMap]
  exact .inl ⟨some l, List.mem_of_getElem? h, rfl⟩

theorem own_fe {s : Sys V} {l : Listener} (h : s.forEach = .awaiting l) : l.slot ∈ own s := by
  simp [own, h, feSlots]

theorem filterMap_set {f : Option Listener → Option Nat} :
    ∀ (xs : List (Option Listener)) (i : Nat) (o o' : Option Listener), xs[i]? = some o → ∀ x,
    ((xs.set i o').filterMap f).count x + (f o).toList.count x =
      (xs.filterMap f).count x + (f o').toList.count x
  | [], _, _, _, h, _ => by simp at h
  | y :: xs, 0, o, o', h, x => by
    simp only [List.getElem?_cons_zero, Option.some.injEq] at h
    subst h
    simp only [List.set_cons_zero, List.filterMap_cons]
    cases f y <;> cases f o' <;> simp [List.count_cons] <;> omega
  | y :: xs, i + 1, o, o', h, x => by
    have ih := filterMap_set xs i o o' (f := f) (by simpa using h) x
    simp only [List.set_cons_succ, List.filterMap_cons]
    cases f y <;> simp only [List.count_cons] <;> omega

theorem count_filter_ne (slots : List (Nat × Waker)) (x y : Nat) :
    ((slots.filter fun z => decide (z.1 ≠ x)).map (·.1)).count y =
      if y = x then 0 else (slots.map (·.1)).count y := by
  induction slots with
  | nil => simp
  | cons z t ih =>
    simp only [List.filter_cons]
    by_cases h : z.1 = x
    · simp only [h, ne_eq, not_true_eq_false, decide_false, Bool.false_eq_true, if_false, ih,
        List.map_cons, List.count_cons, beq_iff_eq]
      split <;> (try split) <;> omega
    · simp only [h, ne_eq, not_false_eq_true, decide_true, if_true, List.map_cons, List.count_cons,
        ih, beq_iff_eq]
      split <;> split <;> omega

theorem nodup_count_one {l : List Nat} (hd : l.Nodup) {x : Nat} (hx : x ∈ l) : l.count x = 1 := by
  have := List.nodup_iff_count.1 hd x
  have := List.count_pos_iff.2 hx
  omega

theorem WF.count_le {s : Sys V} {slots : List (Nat × Waker)} (h : WF s slots) (x : Nat) :
    (own s).count x ≤ 1 := by
  rw [h.owned]; exact List.nodup_iff_count.1 h.good.nodup x

theorem slot_ne {s : Sys V} {slots : List (Nat × Waker)} (h : WF s slots) {i j : Nat}
    {l m : Listener} (hi : s.listeners[i]? = some (some l)) (hj : s.listeners[j]? = some (some m))
    (hne : i ≠ j) : l.slot ≠ m.slot := by
  intro e
  have hc := h.count_le l.slot
  have hs := filterMap_set (f := (·.map (·.slot))) s.listeners i (some l) none hi l.slot
  have hm : m.slot ∈ (s.listeners.set i none).filterMap (·.map (·.slot)) := by
    rw [List.mem_filterMap]
    refine ⟨some m, List.mem_of_getElem? (i := j) ?_, rfl⟩
    rw [List.getElem?_set_ne hne]; exact hj
  rw [← e] at hm
  have := List.count_pos_iff.2 hm
  simp only [own, List.count_append] at hc
  simp at hs
  omega

theorem slot_ne_fe {s : Sys V} {slots : List (Nat × Waker)} (h : WF s slots) {i : Nat}
    {l m : Listener} (hi : s.listeners[i]? = some (some l)) (hf : s.forEach = .awaiting m) :
    l.slot ≠ m.slot := by
  intro e
  have hc := h.count_le l.slot
  have hm : l.slot ∈ s.listeners.filterMap (·.map (·.slot)) := by
    rw [List.mem_filterMap]
    exact ⟨some l, List.mem_of_getElem? hi, rfl⟩
  have := List.count_pos_iff.2 hm
  simp only [own, hf, feSlots, List.count_append, List.count_cons, List.count_nil, e,
    beq_self_eq_true, if_true] at hc this
  omega

/-! ## Steps -/

/-- The operation polls or drops listener `i`. -/
def Op.touches (i : Nat) : Op V → Bool
  | .poll j _ => j == i
  | .dropListener j => j == i
  | _ => false

def Op.touchesFE : Op V → Bool
  | .forEachPoll _ => true
  | .forEachDrop => true
  | _ => false

def Op.isChange : Op V → Bool
  | .dropGuard => true
  | _ => false

/-- What an operation leaves alone. -/
structure Eff (s : Sys V) (op : Op V) (s' : Sys V) (slots slots' : List (Nat × Waker)) : Prop where
  version : s'.cell.version = s.cell.version + (bif op.isChange then 1 else 0)
  same : ∀ (i : Nat) (l : Listener), op.touches i = false → s.listeners[i]? = some (some l) →
    s'.listeners[i]? = some (some l) ∧ ∀ w, (l.slot, w) ∈ slots → (l.slot, w) ∈ slots'
  fe : op.touchesFE = false → s'.forEach = s.forEach ∧ s'.seen = s.seen
  feSlot : ∀ l, op.touchesFE = false → s.forEach = .awaiting l →
    ∀ w, (l.slot, w) ∈ slots → (l.slot, w) ∈ slots'

/-- Operations that touch neither arena nor listeners. -/
theorem wf_plain {s : Sys V} {slots : List (Nat × Waker)} (h : WF s slots) (op : Op V) (c : Inner V)
    (h1 : c.listeners = s.cell.listeners)
    (h2 : c.version = s.cell.version + (bif op.isChange then 1 else 0)) :
    WF { s with cell := c } slots ∧ Eff s op { s with cell := c } slots slots := by
  refine ⟨⟨by rw [h1]; exact h.good, h.owned, by have := h.ver; simp only [h2]; omega, ?_, ?_⟩,
    ⟨h2, fun i l _ hl => ⟨hl, fun _ hw => hw⟩, fun _ => ⟨rfl, rfl⟩, fun l _ _ _ hw => hw⟩⟩
  · intro i l hl; have := h.le i l hl; simp only [h2]; omega
  · intro l hl; have := h.fe l hl; simp only [h2]; omega

theorem filter_keep {slots : List (Nat × Waker)} {x y : Nat} {w : Waker} (hm : (y, w) ∈ slots)
    (hne : y ≠ x) : (y, w) ∈ slots.filter fun z => decide (z.1 ≠ x) := by
  rw [List.mem_filter]; exact ⟨hm, by simpa using hne⟩

end Verif.Cell
