import Verif.Arena.Props
import Verif.XBow.Model
/-!
# Rows: the map and the arena seen together

Each entry of the map with the slots of its sublist.
-/
namespace Verif.XBow
open Verif.Arena (Arena Book)

structure Row where
  key : Key
  list : Nat
  version : Nat
  slots : List (Nat × Waker)

abbrev Abs := List Row

def toMap (A : Abs) : List (Key × Entry) := A.map fun r => (r.key, ⟨r.list, r.version⟩)
def book (A : Abs) : Book Waker := A.map fun r => (r.list, r.slots)
def slotsOf (A : Abs) : List Nat := A.flatMap fun r => r.slots.map (·.1)

structure Sim (st : StoreWakers) (A : Abs) : Prop where
  map : st.map = toMap A
  run : Arena.Run none st.all (book A)
  keys : (A.map (·.key)).Nodup

theorem inj_of_nodup_map {α β : Type} {f : α → β} : ∀ {l : List α}, (l.map f).Nodup →
    ∀ {x y : α}, x ∈ l → y ∈ l → f x = f y → x = y
  | a :: l, h, x, y, hx, hy, e => by
    simp only [List.map_cons, List.nodup_cons] at h
    rcases List.mem_cons.1 hx with rfl | hx' <;> rcases List.mem_cons.1 hy with rfl | hy'
    · rfl
    · exact (h.1 (by rw [e]; exact List.mem_map_of_mem hy')).elim
    · exact (h.1 (by rw [← e]; exact List.mem_map_of_mem hx')).elim
    · exact inj_of_nodup_map h.2 hx' hy' e

theorem book_lists (A : Abs) : (book A).lists = A.map (·.list) := by
  simp [book, Book.lists, List.map_map, Function.comp_def]

theorem book_slots (A : Abs) : (book A).slots = slotsOf A := by
  simp [book, Book.slots, slotsOf, List.flatMap_map]

variable {st : StoreWakers} {A : Abs}

theorem Sim.distinct (h : Sim st A) : (A.map (·.list) ++ slotsOf A).Nodup := by
  have := Arena.arena_handles_distinct h.run
  rwa [book_lists, book_slots] at this

theorem Sim.lists (h : Sim st A) : (A.map (·.list)).Nodup := (List.nodup_append.1 h.distinct).1
theorem Sim.slots (h : Sim st A) : (slotsOf A).Nodup := (List.nodup_append.1 h.distinct).2.1

theorem Sim.find_some (h : Sim st A) {r : Row} (hr : r ∈ A) :
    st.find r.key = some ⟨r.list, r.version⟩ := by
  have hk := h.keys
  simp only [StoreWakers.find, h.map, toMap]
  clear h
  induction A with
  | nil => cases hr
  | cons a A ih =>
    simp only [List.map_cons, List.nodup_cons] at hk
    rcases List.mem_cons.1 hr with rfl | hr'
    · simp
    · have hne : a.key ≠ r.key := fun e => hk.1 (by rw [e]; exact List.mem_map_of_mem hr')
      simp only [List.map_cons]
      rw [List.find?_cons_of_neg (by simpa using hne)]
      exact ih hr' hk.2

theorem Sim.find_none (h : Sim st A) {k : Key} (hk : ∀ r ∈ A, r.key ≠ k) : st.find k = none := by
  simp only [StoreWakers.find, h.map, toMap, Option.map_eq_none_iff, List.find?_eq_none,
    List.mem_map, forall_exists_index, and_imp, forall_apply_eq_imp_iff₂, beq_iff_eq]
  exact hk

theorem Sim.init : Sim StoreWakers.new [] := ⟨rfl, .nil, by simp⟩

/-! ## The operations on rows -/

def addTo (A : Abs) (k : Key) (x : Nat) : Abs :=
  A.map fun r => if r.key = k then ⟨r.key, r.list, r.version, r.slots ++ [(x, none)]⟩ else r

def aset (A : Abs) (x : Nat) (w : Waker) : Abs :=
  A.map fun r => ⟨r.key, r.list, r.version, r.slots.map fun y => if y.1 = x then (x, w) else y⟩

def awake (A : Abs) (k : Key) : Abs :=
  A.map fun r => if r.key = k then ⟨r.key, r.list, r.version + 1, r.slots⟩ else r

def aclear (A : Abs) (x : Nat) : Abs :=
  A.map fun r => ⟨r.key, r.list, r.version, r.slots.filter fun y => decide (y.1 ≠ x)⟩

def arem (A : Abs) (k : Key) (x : Nat) : Abs :=
  (aclear A x).filter fun r => !(decide (r.key = k) && r.slots.isEmpty)

theorem getEntry_some (h : Sim st A) {r : Row} (hr : r ∈ A) :
    getEntry st r.key = some (st, ⟨r.list, r.version⟩) := by
  simp only [getEntry, h.find_some hr]

theorem getEntry_none (h : Sim st A) {k : Key} (hk : ∀ r ∈ A, r.key ≠ k) :
    ∃ st' l, getEntry st k = some (st', ⟨l, 1⟩) ∧ Sim st' (A ++ [⟨k, l, 1, []⟩]) := by
  obtain ⟨a', r, e, l, rfl, hl, hs⟩ := Arena.arena_call_ok h.run .addSublist trivial
  have hrun := Arena.Run.cons h.run (show (book A).allows .addSublist from trivial) e
  simp only [Arena.step, Option.map_eq_some_iff, Prod.mk.injEq, Arena.Res.handle.injEq] at e
  obtain ⟨⟨a, l'⟩, e, rfl, rfl⟩ := e
  refine ⟨⟨a, st.map ++ [(k, ⟨l', 1⟩)]⟩, l', ?_, ⟨?_, ?_, ?_⟩⟩
  · simp only [getEntry, h.find_none hk, e, bind, Option.bind]; rfl
  · simp [h.map, toMap]
  · simpa [book, Book.note] using hrun
  · simp only [List.map_append, List.map_cons, List.map_nil, List.nodup_append]
    refine ⟨h.keys, by simp, ?_⟩
    intro a ha b hb
    simp only [List.mem_singleton] at hb
    obtain ⟨r, hr, rfl⟩ := List.mem_map.1 ha
    rw [hb]; exact hk r hr

theorem add_some (h : Sim st A) {r : Row} (hr : r ∈ A) :
    ∃ a x, Arena.add none st.all r.list = some (a, x) ∧ Sim ⟨a, st.map⟩ (addTo A r.key x) ∧
      x ∉ slotsOf A := by
  have hal : (book A).allows (.add r.list) := by
    show r.list ∈ (book A).lists
    rw [book_lists]; exact List.mem_map_of_mem hr
  obtain ⟨a', res, e, x, rfl, hl, hs⟩ := Arena.arena_call_ok h.run _ hal
  have hrun := Arena.Run.cons h.run hal e
  simp only [Arena.step, Option.map_eq_some_iff, Prod.mk.injEq, Arena.Res.handle.injEq] at e
  obtain ⟨⟨a, l'⟩, e, rfl, rfl⟩ := e
  refine ⟨a, l', e, ⟨?_, ?_, ?_⟩, by rwa [book_slots] at hs⟩
  · rw [h.map]
    simp only [toMap, addTo, List.map_map]
    apply List.map_congr_left
    intro r' _
    simp only [Function.comp]; split <;> rfl
  · have : (book A).note none (.add r.list) (.handle l') = book (addTo A r.key l') := by
      simp only [Book.note, book, addTo, List.map_map]
      apply List.map_congr_left
      intro r' hr'
      simp only [Function.comp]
      by_cases hk : r'.key = r.key
      · have := inj_of_nodup_map h.keys hr' hr hk
        subst this; simp
      · rw [if_neg hk, if_neg]
        intro hl
        exact hk (by rw [inj_of_nodup_map h.lists hr' hr hl])
    rwa [this] at hrun
  · have : (addTo A r.key l').map (·.key) = A.map (·.key) := by
      simp only [addTo, List.map_map]
      apply List.map_congr_left
      intro r' _
      simp only [Function.comp]; split <;> rfl
    rw [this]; exact h.keys

theorem update_ok (h : Sim st A) {x : Nat} (hx : x ∈ slotsOf A) (w : Waker) :
    ∃ a, Arena.update st.all x w = some a ∧ Sim ⟨a, st.map⟩ (aset A x w) := by
  have hal : (book A).allows (.update x w) := by
    show x ∈ (book A).slots
    rwa [book_slots]
  obtain ⟨a', res, e, _⟩ := Arena.arena_call_ok h.run _ hal
  have hrun := Arena.Run.cons h.run hal e
  simp only [Arena.step, Option.map_eq_some_iff, Prod.mk.injEq] at e
  obtain ⟨a, e, rfl, rfl⟩ := e
  refine ⟨a, e, ⟨?_, ?_, ?_⟩⟩
  · rw [h.map]
    simp only [toMap, aset, List.map_map, Function.comp_def]
  · simpa [Book.note, book, aset, List.map_map, Function.comp_def] using hrun
  · simpa [aset, List.map_map, Function.comp_def] using h.keys

theorem wakeEntry_some (h : Sim st A) {r : Row} (hr : r ∈ A) :
    ∃ st', wakeEntry st r.key = some (st', r.slots.map (·.2)) ∧ Sim st' (awake A r.key) := by
  have hit := Arena.arena_iter h.run r.list r.slots (List.mem_map.2 ⟨r, hr, rfl⟩)
  refine ⟨_, by simp only [wakeEntry, h.find_some hr, hit, bind, Option.bind]; rfl, ?_, ?_, ?_⟩
  · rw [h.map]
    simp only [toMap, awake, List.map_map]
    apply List.map_congr_left
    intro r' _
    simp only [Function.comp]; split <;> rfl
  · have : book (awake A r.key) = book A := by
      simp only [book, awake, List.map_map]
      apply List.map_congr_left
      intro r' _
      simp only [Function.comp]; split <;> rfl
    rw [this]; exact h.run
  · have : (awake A r.key).map (·.key) = A.map (·.key) := by
      simp only [awake, List.map_map]
      apply List.map_congr_left
      intro r' _
      simp only [Function.comp]; split <;> rfl
    rw [this]; exact h.keys

theorem wakeEntry_none (h : Sim st A) {k : Key} (hk : ∀ r ∈ A, r.key ≠ k) :
    wakeEntry st k = some (st, []) := by
  simp only [wakeEntry, h.find_none hk]

theorem awake_none {k : Key} (hk : ∀ r ∈ A, r.key ≠ k) : awake A k = A := by
  induction A with
  | nil => rfl
  | cons a A ih =>
    simp only [awake, List.map_cons] at ih ⊢
    rw [if_neg (hk a List.mem_cons_self), ih (fun r hr => hk r (List.mem_cons_of_mem _ hr))]

theorem wakeEntry_ok (h : Sim st A) (k : Key) :
    ∃ st' ws, wakeEntry st k = some (st', ws) ∧ Sim st' (awake A k) ∧
      ∀ r ∈ A, r.key = k → ∀ y ∈ r.slots, y.2 ∈ ws := by
  by_cases hk : ∃ r ∈ A, r.key = k
  · obtain ⟨r, hr, rfl⟩ := hk
    obtain ⟨st', e, hs⟩ := wakeEntry_some h hr
    refine ⟨st', _, e, hs, ?_⟩
    intro r' hr' e' y hy
    rw [inj_of_nodup_map h.keys hr' hr e'] at hy
    exact List.mem_map_of_mem hy
  · have hk' : ∀ r ∈ A, r.key ≠ k := fun r hr e => hk ⟨r, hr, e⟩
    refine ⟨st, [], wakeEntry_none h hk', ?_, ?_⟩
    · rw [awake_none hk']; exact h
    · intro r hr e; exact (hk' r hr e).elim

theorem removeWakerSlot_ok (h : Sim st A) {r : Row} (hr : r ∈ A) {x : Nat} (hx : x ∈ slotsOf A) :
    ∃ st', removeWakerSlot st r.key x = some st' ∧ Sim st' (arem A r.key x) := by
  have hal : (book A).allows (.remove x) := by
    show x ∈ (book A).slots
    rwa [book_slots]
  obtain ⟨a', res, e, _⟩ := Arena.arena_call_ok h.run _ hal
  have hrun := Arena.Run.cons h.run hal e
  simp only [Arena.step, Option.map_eq_some_iff, Prod.mk.injEq] at e
  obtain ⟨a1, e, rfl, rfl⟩ := e
  have hb1 : (book A).note none (.remove x) .unit = book (aclear A x) := by
    simp [Book.note, book, aclear, List.map_map, Function.comp_def]
  rw [hb1] at hrun
  have hk1 : (aclear A x).map (·.key) = A.map (·.key) := by
    simp [aclear, List.map_map, Function.comp_def]
  have hl1 : (aclear A x).map (·.list) = A.map (·.list) := by
    simp [aclear, List.map_map, Function.comp_def]
  have hm1 : st.map = toMap (aclear A x) := by
    rw [h.map]; simp [toMap, aclear, List.map_map, Function.comp_def]
  have hal2 : (book (aclear A x)).allows (.removeIfEmpty r.list) := by
    show r.list ∈ (book (aclear A x)).lists
    rw [book_lists, hl1]; exact List.mem_map_of_mem hr
  obtain ⟨a2', res2, e2, b, rfl, hb⟩ := Arena.arena_call_ok hrun _ hal2
  have hrun2 := Arena.Run.cons hrun hal2 e2
  simp only [Arena.step, Option.map_eq_some_iff, Prod.mk.injEq, Arena.Res.bool.injEq] at e2
  obtain ⟨⟨a2, b'⟩, e2, rfl, rfl⟩ := e2
  -- the row of the key
  have hkey : ∀ r' ∈ aclear A x, r'.key = r.key ↔ r'.list = r.list := by
    intro r' hr'
    obtain ⟨r0, hr0, rfl⟩ := List.mem_map.1 hr'
    simp only
    constructor
    · intro e; rw [inj_of_nodup_map h.keys hr0 hr e]
    · intro e; rw [inj_of_nodup_map h.lists hr0 hr e]
  refine ⟨_, by simp only [removeWakerSlot, h.find_some hr, e, e2, bind, Option.bind]; rfl, ?_, ?_, ?_⟩
  · show (if b' = true then _ else _) = _
    cases hb' : b' with
    | true =>
      rw [hb'] at hb
      obtain ⟨r1, hr1, e1⟩ := List.mem_map.1 (hb.1 rfl)
      simp only [Prod.mk.injEq] at e1
      have hr1k := (hkey r1 hr1).2 e1.1
      rw [if_pos rfl, hm1]
      simp only [toMap, arem, List.filter_map]
      congr 1
      apply List.filter_congr
      intro r' hr'
      simp only [Function.comp]
      by_cases hk : r'.key = r.key
      · have : r' = r1 := inj_of_nodup_map (hk1 ▸ h.keys) hr' hr1 (hk.trans hr1k.symm)
        subst this; simp [hk, e1.2]
      · simp [hk]
    | false =>
      rw [hb'] at hb
      rw [if_neg (by simp), hm1]
      simp only [arem]
      congr 1
      rw [List.filter_eq_self.2]
      intro r' hr'
      by_cases hk : r'.key = r.key
      · cases hs : r'.slots with
        | nil =>
          exact (by simpa using hb.2 (List.mem_map.2 ⟨r', hr', by rw [(hkey r' hr').1 hk, hs]⟩))
        | cons y ys => simp
      · simp [hk]
  · show Arena.Run none a2 _
    have : (book (aclear A x)).note none (.removeIfEmpty r.list) (.bool b') = book (arem A r.key x) := by
      cases hb' : b' with
      | true =>
        rw [hb'] at hb
        obtain ⟨r1, hr1, e1⟩ := List.mem_map.1 (hb.1 rfl)
        simp only [Prod.mk.injEq] at e1
        have hr1k := (hkey r1 hr1).2 e1.1
        simp only [Book.note, book, arem, List.filter_map]
        congr 1
        apply List.filter_congr
        intro r' hr'
        simp only [Function.comp]
        by_cases hk : r'.key = r.key
        · have : r' = r1 := inj_of_nodup_map (hk1 ▸ h.keys) hr' hr1 (hk.trans hr1k.symm)
          subst this; simp [hk, e1.2, e1.1]
        · have hl : r'.list ≠ r.list := fun e => hk ((hkey r' hr').2 e)
          simp [hk, hl]
      | false =>
        rw [hb'] at hb
        simp only [Book.note, arem]
        congr 1
        symm
        rw [List.filter_eq_self.2]
        intro r' hr'
        by_cases hk : r'.key = r.key
        · cases hs : r'.slots with
          | nil =>
            exact (by simpa using hb.2 (List.mem_map.2 ⟨r', hr', by rw [(hkey r' hr').1 hk, hs]⟩))
          | cons y ys => simp
        · simp [hk]
    rwa [this] at hrun2
  · refine List.Nodup.sublist ?_ (hk1 ▸ h.keys)
    simp only [arem]
    exact (List.filter_sublist).map _

/-! ## What rows know about a slot -/

/-- Slot `x` is at key `k`, whose version is `v`, and holds the waker `w`. -/
def Has (A : Abs) (k : Key) (x : Nat) (w : Waker) (v : Nat) : Prop :=
  ∃ r ∈ A, r.key = k ∧ r.version = v ∧ (x, w) ∈ r.slots

theorem Has.slot {k : Key} {x : Nat} {w : Waker} {v : Nat} (h : Has A k x w v) : x ∈ slotsOf A := by
  obtain ⟨r, hr, _, _, hx⟩ := h
  exact List.mem_flatMap.2 ⟨r, hr, List.mem_map.2 ⟨_, hx, rfl⟩⟩

theorem Has.append {k : Key} {x : Nat} {w : Waker} {v : Nat} (h : Has A k x w v) (B : Abs) :
    Has (A ++ B) k x w v := by
  obtain ⟨r, hr, h1⟩ := h
  exact ⟨r, List.mem_append_left _ hr, h1⟩

theorem Has.addTo {k k' : Key} {x x' : Nat} {w : Waker} {v : Nat} (h : Has A k x w v) :
    Has (addTo A k' x') k x w v := by
  obtain ⟨r, hr, h1, h2, h3⟩ := h
  refine ⟨_, List.mem_map.2 ⟨r, hr, rfl⟩, ?_⟩
  split
  · exact ⟨h1, h2, List.mem_append_left _ h3⟩
  · exact ⟨h1, h2, h3⟩

theorem Has.aset_ne {k : Key} {x x' : Nat} {w w' : Waker} {v : Nat} (h : Has A k x w v) (hne : x ≠ x') :
    Has (aset A x' w') k x w v := by
  obtain ⟨r, hr, h1, h2, h3⟩ := h
  refine ⟨_, List.mem_map.2 ⟨r, hr, rfl⟩, h1, h2, ?_⟩
  exact List.mem_map.2 ⟨_, h3, by rw [if_neg hne]⟩

theorem Has.aset_eq {k : Key} {x : Nat} {w w' : Waker} {v : Nat} (h : Has A k x w v) :
    Has (aset A x w') k x w' v := by
  obtain ⟨r, hr, h1, h2, h3⟩ := h
  refine ⟨_, List.mem_map.2 ⟨r, hr, rfl⟩, h1, h2, ?_⟩
  exact List.mem_map.2 ⟨_, h3, by rw [if_pos rfl]⟩

theorem Has.awake {k k' : Key} {x : Nat} {w : Waker} {v : Nat} (h : Has A k x w v) :
    Has (awake A k') k x w (v + if k = k' then 1 else 0) := by
  obtain ⟨r, hr, h1, h2, h3⟩ := h
  refine ⟨_, List.mem_map.2 ⟨r, hr, rfl⟩, ?_⟩
  subst h1; subst h2
  by_cases hk : r.key = k'
  · rw [if_pos hk, if_pos hk]; exact ⟨rfl, rfl, h3⟩
  · rw [if_neg hk, if_neg hk]; exact ⟨rfl, rfl, h3⟩

theorem Has.arem {k k' : Key} {x x' : Nat} {w : Waker} {v : Nat} (h : Has A k x w v) (hne : x ≠ x') :
    Has (arem A k' x') k x w v := by
  obtain ⟨r, hr, h1, h2, h3⟩ := h
  have hin : (x, w) ∈ r.slots.filter fun y => decide (y.1 ≠ x') := List.mem_filter.2 ⟨h3, by simpa using hne⟩
  refine ⟨⟨r.key, r.list, r.version, r.slots.filter fun y => decide (y.1 ≠ x')⟩,
    List.mem_filter.2 ⟨List.mem_map.2 ⟨r, hr, rfl⟩, ?_⟩, h1, h2, hin⟩
  cases hs : r.slots.filter fun y => decide (y.1 ≠ x') with
  | nil => rw [hs] at hin; cases hin
  | cons y ys => simp

theorem Has.version_unique (hk : (A.map (·.key)).Nodup) {k : Key} {x x' : Nat} {w w' : Waker}
    {v v' : Nat} (h : Has A k x w v) (h' : Has A k x' w' v') : v = v' := by
  obtain ⟨r, hr, h1, h2, h3⟩ := h
  obtain ⟨r', hr', h1', h2', h3'⟩ := h'
  have := inj_of_nodup_map hk hr hr' (h1.trans h1'.symm)
  subst this; rw [← h2, ← h2']

end Verif.XBow
