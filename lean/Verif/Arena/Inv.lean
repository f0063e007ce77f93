import Verif.Arena.Spec
import Verif.Arena.Links
/-!
# The arena's nodes are the free list and the lists of the book
-/
namespace Verif.Arena
variable {W : Type}

/-- Pointer functions, meaningful for indices in range only. -/
def nx (a : Arena W) (i : Nat) : Nat := match a[i]? with | some x => x.next | none => 0
def pv (a : Arena W) (i : Nat) : Nat := match a[i]? with | some x => x.prev | none => 0
def wk (a : Arena W) (i : Nat) : Option W := (a[i]?).map (·.waker)

theorem getNext_ok {a : Arena W} {i : Nat} (h : i < a.length) : getNext a i = some (nx a i) := by
  simp [getNext, nx, List.getElem?_eq_getElem h]

theorem getPrev_ok {a : Arena W} {i : Nat} (h : i < a.length) : getPrev a i = some (pv a i) := by
  simp [getPrev, pv, List.getElem?_eq_getElem h]

theorem setNext_ok {a : Arena W} {i : Nat} (v : Nat) (h : i < a.length) :
    ∃ a', setNext a i v = some a' ∧ a'.length = a.length ∧ nx a' = upd (nx a) i v ∧
      pv a' = pv a ∧ wk a' = wk a := by
  refine ⟨_, by simp only [setNext, List.getElem?_eq_getElem h]; rfl, by simp, ?_, ?_, ?_⟩
  · funext j; simp only [nx, upd, List.getElem?_set]; by_cases e : i = j
    · subst e; simp [h]
    · simp [e, Ne.symm e]
  · funext j; simp only [pv, List.getElem?_set]; by_cases e : i = j
    · subst e; simp [h]
    · simp [e]
  · funext j; simp only [wk, List.getElem?_set]; by_cases e : i = j
    · subst e; simp [h]
    · simp [e]

theorem setPrev_ok {a : Arena W} {i : Nat} (v : Nat) (h : i < a.length) :
    ∃ a', setPrev a i v = some a' ∧ a'.length = a.length ∧ nx a' = nx a ∧
      pv a' = upd (pv a) i v ∧ wk a' = wk a := by
  refine ⟨_, by simp only [setPrev, List.getElem?_eq_getElem h]; rfl, by simp, ?_, ?_, ?_⟩
  · funext j; simp only [nx, List.getElem?_set]; by_cases e : i = j
    · subst e; simp [h]
    · simp [e]
  · funext j; simp only [pv, upd, List.getElem?_set]; by_cases e : i = j
    · subst e; simp [h]
    · simp [e, Ne.symm e]
  · funext j; simp only [wk, List.getElem?_set]; by_cases e : i = j
    · subst e; simp [h]
    · simp [e]

theorem setWaker_ok {a : Arena W} {i : Nat} (w : W) (h : i < a.length) :
    ∃ a', setWaker a i w = some a' ∧ a'.length = a.length ∧ nx a' = nx a ∧
      pv a' = pv a ∧ wk a' = fun j => if j = i then some w else wk a j := by
  refine ⟨_, by simp only [setWaker, List.getElem?_eq_getElem h]; rfl, by simp, ?_, ?_, ?_⟩
  · funext j; simp only [nx, List.getElem?_set]; by_cases e : i = j
    · subst e; simp [h]
    · simp [e]
  · funext j; simp only [pv, List.getElem?_set]; by_cases e : i = j
    · subst e; simp [h]
    · simp [e]
  · funext j; simp only [wk, List.getElem?_set]; by_cases e : i = j
    · subst e; simp [h]
    · simp [e, Ne.symm e]

/-- The nodes of an entry of the book. -/
def nodes (e : Nat × List (Nat × W)) : List Nat := e.1 :: e.2.map (·.1)

def allNodes (s : Book W) : List Nat := s.flatMap nodes

/-- The book's lists are rings, the wakers are those noted. -/
structure Held (dummy : W) (a : Arena W) (s : Book W) : Prop where
  rings : ∀ e ∈ s, Ring (nx a) (pv a) (nodes e)
  heads : ∀ e ∈ s, wk a e.1 = some dummy
  wakers : ∀ e ∈ s, ∀ y ∈ e.2, wk a y.1 = some y.2

structure Inv (dummy : W) (a : Arena W) (s : Book W) (free : List Nat) : Prop where
  held : Held dummy a s
  ring0 : Ring (nx a) (pv a) (0 :: free)
  count : ∀ i, (0 :: free).count i + (allNodes s).count i = if i < a.length then 1 else 0
  dummies : ∀ i ∈ free, wk a i = some dummy
  size : 2 ≤ a.length

theorem nodup_of_count {l : List Nat} (h : ∀ i, l.count i ≤ 1) : l.Nodup :=
  List.nodup_iff_count.2 (fun i => h i)

theorem count_pos {l : List Nat} {i : Nat} (h : i ∈ l) : 1 ≤ l.count i := List.count_pos_iff.2 h

/-- Index bounds and disjointness. -/
theorem Inv.lt_of_mem {dummy : W} {a : Arena W} {s : Book W} {free : List Nat}
    (h : Inv dummy a s free) {i : Nat} (hi : i ∈ 0 :: free ∨ i ∈ allNodes s) : i < a.length := by
  have := h.count i
  rcases hi with hi | hi
  all_goals
    have := count_pos hi
    have := h.count i; split at this <;> omega

theorem Inv.disj {dummy : W} {a : Arena W} {s : Book W} {free : List Nat}
    (h : Inv dummy a s free) {i : Nat} (hi : i ∈ 0 :: free) (hj : i ∈ allNodes s) : False := by
  have := h.count i
  have := count_pos hi; have := count_pos hj
  split at * <;> omega

theorem mem_allNodes {s : Book W} {i : Nat} : i ∈ allNodes s ↔ i ∈ s.lists ∨ i ∈ s.slots := by
  simp only [allNodes, List.mem_flatMap, nodes, Book.lists, Book.slots, List.mem_map,
    List.mem_cons]
  constructor
  · rintro ⟨e, he, h | ⟨y, hy, h⟩⟩
    · exact .inl ⟨e, he, h.symm⟩
    · exact .inr ⟨e, he, y, hy, h⟩
  · rintro (⟨e, he, h⟩ | ⟨e, he, y, hy, h⟩)
    · exact ⟨e, he, .inl h.symm⟩
    · exact ⟨e, he, .inr ⟨y, hy, h⟩⟩

theorem allNodes_append (s t : Book W) : allNodes (s ++ t) = allNodes s ++ allNodes t := by
  simp [allNodes]

theorem allNodes_cons (e : Nat × List (Nat × W)) (t : Book W) :
    allNodes (e :: t) = nodes e ++ allNodes t := by
  simp [allNodes]

theorem mem_allNodes_of {s : Book W} {e : Nat × List (Nat × W)} (he : e ∈ s) {i : Nat}
    (hi : i ∈ nodes e) : i ∈ allNodes s := by
  simp only [allNodes, List.mem_flatMap]; exact ⟨e, he, hi⟩

/-- A change elsewhere does not matter. -/
theorem Held.frame {dummy : W} {a a' : Arena W} {s : Book W} (h : Held dummy a s)
    (hn : ∀ i ∈ allNodes s, nx a' i = nx a i) (hp : ∀ i ∈ allNodes s, pv a' i = pv a i)
    (hw : ∀ i ∈ allNodes s, wk a' i = wk a i) : Held dummy a' s := by
  constructor
  · intro e he
    exact ring_frame (fun i hi => hn i (mem_allNodes_of he hi))
      (fun i hi => hp i (mem_allNodes_of he hi)) (h.rings e he)
  · intro e he
    rw [hw _ (mem_allNodes_of he (by simp [nodes]))]; exact h.heads e he
  · intro e he y hy
    rw [hw _ (mem_allNodes_of he (by simp only [nodes, List.mem_cons, List.mem_map]; exact .inr ⟨y, hy, rfl⟩))]
    exact h.wakers e he y hy

theorem Held.append {dummy : W} {a : Arena W} {s t : Book W} :
    Held dummy a (s ++ t) ↔ Held dummy a s ∧ Held dummy a t := by
  constructor
  · intro h
    exact ⟨⟨fun e he => h.rings e (by simp [he]), fun e he => h.heads e (by simp [he]),
      fun e he => h.wakers e (by simp [he])⟩,
      ⟨fun e he => h.rings e (by simp [he]), fun e he => h.heads e (by simp [he]),
      fun e he => h.wakers e (by simp [he])⟩⟩
  · rintro ⟨h, k⟩
    constructor <;> intro e he <;> rcases List.mem_append.1 he with he | he
    · exact h.rings e he
    · exact k.rings e he
    · exact h.heads e he
    · exact k.heads e he
    · exact h.wakers e he
    · exact k.wakers e he

theorem Held.singleton {dummy : W} {a : Arena W} {e : Nat × List (Nat × W)} :
    Held dummy a [e] ↔ Ring (nx a) (pv a) (nodes e) ∧ wk a e.1 = some dummy ∧
      ∀ y ∈ e.2, wk a y.1 = some y.2 := by
  constructor
  · intro h; exact ⟨h.rings e (by simp), h.heads e (by simp), h.wakers e (by simp)⟩
  · rintro ⟨h1, h2, h3⟩
    constructor <;> intro e' he <;> cases List.mem_singleton.1 he <;> assumption

theorem Held.cons {dummy : W} {a : Arena W} {e : Nat × List (Nat × W)} {t : Book W} :
    Held dummy a (e :: t) ↔ Held dummy a [e] ∧ Held dummy a t := by
  rw [← Held.append]; rfl

theorem inv_new (dummy : W) : Inv dummy (new dummy) [] [1] := by
  refine ⟨⟨by simp, by simp, by simp⟩, ?_, ?_, ?_, by simp [new]⟩
  · simp [Ring, Linked, nx, pv, new]
  · intro i
    have hl : (new dummy).length = 2 := rfl
    rw [hl]
    simp only [allNodes, List.flatMap_nil, List.count_cons, List.count_nil, beq_iff_eq]
    (repeat' split) <;> omega
  · intro i hi; simp at hi; subst hi; simp [wk, new]

/-! ## Choosing a node -/

/-- After `pick`. -/
structure Picked (dummy : W) (a : Arena W) (s : Book W) (x : Nat) (must : Bool) (free : List Nat) :
    Prop where
  held : Held dummy a s
  ring0 : Ring (nx a) (pv a) (bif must then 0 :: x :: free else 0 :: free)
  count : ∀ i, (0 :: x :: free).count i + (allNodes s).count i = if i < a.length then 1 else 0
  dummies : ∀ i ∈ x :: free, wk a i = some dummy
  size : 2 ≤ a.length

theorem grow_ok {dummy : W} {a : Arena W} {s : Book W} (h : Inv dummy a s []) :
    ∃ a', growFullList dummy a = some (a', a.length) ∧
      Picked dummy a' s a.length false (List.range' (a.length + 1) (a.length - 1)) := by
  have hsz := h.size
  obtain ⟨b, hb⟩ : ∃ b, b = a ++ (List.range' a.length a.length).map
      (fun idx => (⟨dummy, idx - 1, idx + 1⟩ : Item W)) := ⟨_, rfl⟩
  have hlen : b.length = 2 * a.length := by rw [hb]; simp; omega
  have hold : ∀ (i : Nat), i < a.length → b[i]? = a[i]? := by
    intro i hi; rw [hb, List.getElem?_append_left hi]
  have hnew : ∀ (i : Nat), a.length ≤ i → i < 2 * a.length → b[i]? = some ⟨dummy, i - 1, i + 1⟩ := by
    intro i h1 h2
    rw [hb, List.getElem?_append_right h1]
    simp only [List.getElem?_map]
    rw [List.getElem?_range' (by omega)]
    simp only [Option.map_some, Nat.one_mul]
    congr 2 <;> omega
  obtain ⟨a1, e1, l1, n1, p1, w1⟩ := setPrev_ok (a := b) (i := a.length + 1) 0 (by omega)
  obtain ⟨a2, e2, l2, n2, p2, w2⟩ := setNext_ok (a := a1) (i := a.length * 2 - 1) 0 (by omega)
  obtain ⟨a3, e3, l3, n3, p3, w3⟩ := setPrev_ok (a := a2) (i := 0) (a.length * 2 - 1) (by omega)
  obtain ⟨a4, e4, l4, n4, p4, w4⟩ := setNext_ok (a := a3) (i := 0) (a.length + 1) (by omega)
  refine ⟨a4, ?_, ?_⟩
  · simp only [growFullList, ← hb, e1, e2, e3, e4, bind, Option.bind, pure]
  · have hn : nx a4 = upd (upd (nx b) (a.length * 2 - 1) 0) 0 (a.length + 1) := by
      rw [n4, n3, n2, n1]
    have hp : pv a4 = upd (upd (pv b) (a.length + 1) 0) 0 (a.length * 2 - 1) := by
      rw [p4, p3, p2, p1]
    have hw : wk a4 = wk b := by rw [w4, w3, w2, w1]
    have hmem : ∀ i ∈ allNodes s, i < a.length ∧ i ≠ 0 := by
      intro i hi
      exact ⟨h.lt_of_mem (.inr hi), fun e => h.disj (i := i) (by simp [e]) hi⟩
    refine ⟨h.held.frame ?_ ?_ ?_, ?_, ?_, ?_, by omega⟩
    · intro i hi
      obtain ⟨g1, g2⟩ := hmem i hi
      rw [hn, upd_ne _ _ g2, upd_ne _ _ (by omega)]
      simp only [nx, hold i g1]
    · intro i hi
      obtain ⟨g1, g2⟩ := hmem i hi
      rw [hp, upd_ne _ _ g2, upd_ne _ _ (by omega)]
      simp only [pv, hold i g1]
    · intro i hi
      obtain ⟨g1, g2⟩ := hmem i hi
      rw [hw]; simp only [wk, hold i g1]
    · simp only [cond_false]
      have e : a.length - 1 = (a.length - 2) + 1 := by omega
      rw [e]
      apply ring_range
      · rw [hn, upd_self]
      · rw [hp, upd_self]; omega
      · rw [hp, upd_ne _ _ (by omega), upd_self]
      · rw [hn, upd_ne _ _ (by omega)]
        have : a.length + 1 + (a.length - 2) = a.length * 2 - 1 := by omega
        rw [this, upd_self]
      · intro i h1 h2
        constructor
        · rw [hn, upd_ne _ _ (by omega), upd_ne _ _ (by omega)]
          simp only [nx, hnew i (by omega) (by omega)]
        · rw [hp, upd_ne _ _ (by omega), upd_ne _ _ (by omega)]
          simp only [pv, hnew (i + 1) (by omega) (by omega)]
          omega
    · intro i
      have hc := h.count i
      have e : a.length :: List.range' (a.length + 1) (a.length - 1) = List.range' a.length a.length := by
        have : a.length = (a.length - 1) + 1 := by omega
        conv => rhs; rw [show List.range' a.length a.length = List.range' a.length ((a.length - 1) + 1) by rw [← this]]
        rfl
      rw [e, List.count_cons]
      rw [List.count_cons, List.count_nil] at hc
      have hr : (List.range' a.length a.length).count i =
          if a.length ≤ i ∧ i < a.length + a.length then 1 else 0 := by
        have hd : (List.range' a.length a.length).Nodup := List.nodup_range'
        split
        · rename_i g
          have h1 := List.nodup_iff_count.1 hd i
          have h2 := count_pos (List.mem_range'_1.2 g)
          omega
        · rename_i g
          exact List.count_eq_zero_of_not_mem (fun c => g (List.mem_range'_1.1 c))
      rw [hr, l4, l3, l2, l1, hlen]
      split at hc <;> split at hc <;> split <;> split <;> (try split) <;> omega
    · intro i hi
      rw [hw]
      have : a.length ≤ i ∧ i < 2 * a.length := by
        rcases List.mem_cons.1 hi with hi | hi
        · omega
        · have := List.mem_range'_1.1 hi; omega
      simp only [wk, hnew i this.1 this.2, Option.map_some]

theorem pick_ok {dummy : W} {a : Arena W} {s : Book W} {free : List Nat} (h : Inv dummy a s free) :
    ∃ a' x must free', pick dummy a = some (a', x, must) ∧ Picked dummy a' s x must free' := by
  have hsz := h.size
  obtain ⟨_, e1, _, _⟩ := ring_ends h.ring0
  cases free with
  | nil =>
    simp only [List.nil_append, List.head_cons] at e1
    obtain ⟨a', hg, hp⟩ := grow_ok h
    refine ⟨a', _, _, _, ?_, hp⟩
    simp only [pick, getNext_ok (show 0 < a.length by omega), e1, bind, Option.bind, hg, pure, if_true]
  | cons x free =>
    simp only [List.cons_append, List.head_cons] at e1
    have hx : x ≠ 0 := by
      intro e
      have := h.count 0
      simp only [e, List.count_cons, beq_self_eq_true, if_true] at this
      split at this <;> omega
    refine ⟨a, x, true, free, ?_, ⟨h.held, h.ring0, h.count, h.dummies, h.size⟩⟩
    simp only [pick, getNext_ok (show 0 < a.length by omega), e1, bind, Option.bind, pure, if_neg hx]

section
variable {dummy : W} {a : Arena W} {s : Book W} {x : Nat} {must : Bool} {free : List Nat}

theorem Picked.lt (h : Picked dummy a s x must free) {i : Nat}
    (hi : i ∈ 0 :: x :: free ∨ i ∈ allNodes s) : i < a.length := by
  have := h.count i
  rcases hi with hi | hi
  all_goals
    have := count_pos hi
    have := h.count i; split at this <;> omega

theorem Picked.disj (h : Picked dummy a s x must free) {i : Nat}
    (hi : i ∈ 0 :: x :: free) (hj : i ∈ allNodes s) : False := by
  have := h.count i
  have := count_pos hi; have := count_pos hj
  split at * <;> omega

theorem Picked.nodup (h : Picked dummy a s x must free) : (0 :: x :: free).Nodup := by
  apply nodup_of_count
  intro i; have := h.count i; split at this <;> omega

theorem Picked.xne (h : Picked dummy a s x must free) : x ≠ 0 ∧ x ∉ free := by
  have := h.nodup
  simp only [List.nodup_cons, List.mem_cons] at this; grind

/-- What the free list looks like around the chosen node. -/
theorem Picked.around (h : Picked dummy a s x true free) :
    pv a x = 0 ∧ nx a x ∈ 0 :: free ∧ nx a x ≠ x := by
  have hr := h.ring0
  simp only [cond_true] at hr
  obtain ⟨_, _, s3, s4, _, _⟩ := ring_split (l1 := []) hr
  have hm : nx a x ∈ free ++ [0] := by rw [s4]; exact List.head_mem _
  have hx := h.xne
  refine ⟨by simpa using s3, ?_, ?_⟩
  · simp only [List.mem_append, List.mem_cons, List.not_mem_nil, or_false] at hm ⊢; grind
  · intro e; rw [e] at hm; simp at hm; grind

end

/-- The end of `add_sublist` and `add`: whatever was written to the chosen node and to nodes outside
of the free list, the free list is left without the node. -/
theorem fix_ok {dummy : W} {a b : Arena W} {s : Book W} {x : Nat} {must : Bool} {free : List Nat}
    (h : Picked dummy a s x must free) (hl : b.length = a.length)
    (hn : ∀ i ∈ 0 :: free, nx b i = nx a i) (hp : ∀ i ∈ 0 :: free, pv b i = pv a i) :
    ∃ c, fixFree b must (pv a x) (nx a x) = some c ∧ c.length = a.length ∧ wk c = wk b ∧
      Ring (nx c) (pv c) (0 :: free) ∧
      (∀ i, i ∉ 0 :: free → nx c i = nx b i) ∧ (∀ i, i ∉ 0 :: free → pv c i = pv b i) := by
  cases must with
  | false =>
    exact ⟨b, rfl, hl, rfl, ring_frame hn hp (by simpa using h.ring0), fun _ _ => rfl, fun _ _ => rfl⟩
  | true =>
    obtain ⟨h1, h2, h3⟩ := h.around
    have hx := h.xne
    have hlt : nx a x < a.length := h.lt (.inl (by simp only [List.mem_cons] at h2 ⊢; grind))
    obtain ⟨b1, e1, l1, n1, p1, w1⟩ := setNext_ok (a := b) (i := pv a x) (nx a x)
      (by have := h.size; omega)
    obtain ⟨b2, e2, l2, n2, p2, w2⟩ := setPrev_ok (a := b1) (i := nx a x) (pv a x) (by omega)
    have hN : nx b2 = upd (nx b) (pv a x) (nx a x) := by rw [n2, n1]
    have hP : pv b2 = upd (pv b) (nx a x) (pv a x) := by rw [p2, p1]
    refine ⟨b2, ?_, by omega, by rw [w2, w1], ?_, ?_, ?_⟩
    · simp only [fixFree, if_true, e1, bind, Option.bind, e2]
    · refine ring_unlink (l1 := []) (x := x) (by simpa using h.ring0) h.nodup ?_ ?_ ?_ ?_
      · rw [hN, upd_self]
      · rw [hP, upd_self]
      · intro i hi hne; rw [hN, upd_ne _ _ hne]; exact hn i hi
      · intro i hi hne; rw [hP, upd_ne _ _ hne]; exact hp i hi
    · intro i hi; rw [hN, upd_ne]; rw [h1]; intro e; exact hi (by simp [e])
    · intro i hi; rw [hP, upd_ne]; intro e; exact hi (by rw [e]; exact h2)

theorem addSublist_ok {dummy : W} {a : Arena W} {s : Book W} {free : List Nat}
    (h : Inv dummy a s free) :
    ∃ a' x free', addSublist dummy a = some (a', x) ∧ x ∉ s.lists ∧ x ∉ s.slots ∧
      Inv dummy a' (s ++ [(x, [])]) free' := by
  obtain ⟨b, x, must, free', hpick, hk⟩ := pick_ok h
  have hx := hk.xne
  have hxlt : x < b.length := hk.lt (.inl (by simp))
  obtain ⟨b1, e1, l1, n1, p1, w1⟩ := setPrev_ok (a := b) (i := x) x hxlt
  obtain ⟨b2, e2, l2, n2, p2, w2⟩ := setNext_ok (a := b1) (i := x) x (by omega)
  have hN : nx b2 = upd (nx b) x x := by rw [n2, n1]
  have hP : pv b2 = upd (pv b) x x := by rw [p2, p1]
  have hne : ∀ i ∈ 0 :: free', i ≠ x := by
    intro i hi e; subst e
    simp only [List.mem_cons] at hi; grind
  have hne' : ∀ i ∈ allNodes s, i ≠ x := by
    intro i hi e; exact hk.disj (i := i) (by simp [e]) hi
  obtain ⟨c, hc, lc, wc, rc, nc, pc⟩ := fix_ok (b := b2) hk (by omega)
    (fun i hi => by rw [hN, upd_ne _ _ (hne i hi)]) (fun i hi => by rw [hP, upd_ne _ _ (hne i hi)])
  have hxf : x ∉ 0 :: free' := fun hi => hne x hi rfl
  have hsf : ∀ i ∈ allNodes s, i ∉ 0 :: free' := by
    intro i hi hj
    exact hk.disj (i := i) (by simp only [List.mem_cons] at hj ⊢; grind) hi
  have hwx : wk c = wk b := by rw [wc, w2, w1]
  refine ⟨c, x, free', ?_, ?_, ?_, ?_⟩
  · simp only [addSublist, hpick, bind, Option.bind, getPrev_ok hxlt, e1,
      getNext_ok (show x < b1.length by omega), e2, pure]
    rw [n1, hc]
  · intro hm; exact hne' x (mem_allNodes.2 (.inl hm)) rfl
  · intro hm; exact hne' x (mem_allNodes.2 (.inr hm)) rfl
  · refine ⟨?_, rc, ?_, ?_, by have := hk.size; omega⟩
    · rw [Held.append, Held.singleton]
      refine ⟨hk.held.frame ?_ ?_ (fun i _ => by rw [hwx]), ?_, ?_, by simp⟩
      · intro i hi; rw [nc i (hsf i hi), hN, upd_ne _ _ (hne' i hi)]
      · intro i hi; rw [pc i (hsf i hi), hP, upd_ne _ _ (hne' i hi)]
      · simp only [nodes, List.map_nil, Ring, List.nil_append, Linked, and_true]
        exact ⟨by rw [nc x hxf, hN, upd_self], by rw [pc x hxf, hP, upd_self]⟩
      · rw [hwx]; exact hk.dummies x (by simp)
    · intro i
      have := hk.count i
      rw [lc]
      rw [allNodes_append, List.count_append]
      simp only [allNodes, List.flatMap_cons, List.flatMap_nil, nodes, List.map_nil,
        List.append_nil, List.count_cons, List.count_nil] at this ⊢
      omega
    · intro i hi; rw [hwx]; exact hk.dummies i (by simp [hi])

theorem split_of_mem {s : Book W} {h : Nat} (hm : h ∈ s.lists) :
    ∃ s1 l s2, s = s1 ++ (h, l) :: s2 := by
  simp only [Book.lists, List.mem_map] at hm
  obtain ⟨⟨h', l⟩, he, e⟩ := hm
  cases e
  obtain ⟨s1, s2, e⟩ := List.append_of_mem he
  exact ⟨s1, l, s2, e⟩

theorem add_ok {dummy : W} {a : Arena W} {s1 s2 : Book W} {h : Nat} {l : List (Nat × W)}
    {free : List Nat} (hi : Inv dummy a (s1 ++ (h, l) :: s2) free) :
    ∃ a' x free', add dummy a h = some (a', x) ∧ x ∉ allNodes (s1 ++ (h, l) :: s2) ∧
      Inv dummy a' (s1 ++ (h, l ++ [(x, dummy)]) :: s2) free' := by
  obtain ⟨b, x, must, free', hpick, hk⟩ := pick_ok hi
  have hx := hk.xne
  have hxlt : x < b.length := hk.lt (.inl (by simp))
  have hcnt := hk.count
  have hheld := hk.held
  rw [Held.append, Held.cons, Held.singleton] at hheld
  obtain ⟨hd1, ⟨hring, hhead, hwak⟩, hd2⟩ := hheld
  simp only [nodes] at hring
  have hmem : ∀ i, i ∈ h :: l.map (·.1) → i ∈ allNodes (s1 ++ (h, l) :: s2) := by
    intro i hi; simp only [allNodes_append, allNodes_cons, nodes, List.mem_append]; exact .inr (.inl hi)
  have hmem1 : ∀ i, i ∈ allNodes s1 → i ∈ allNodes (s1 ++ (h, l) :: s2) := by
    intro i hi; simp only [allNodes_append, List.mem_append]; exact .inl hi
  have hmem2 : ∀ i, i ∈ allNodes s2 → i ∈ allNodes (s1 ++ (h, l) :: s2) := by
    intro i hi; simp only [allNodes_append, allNodes_cons, List.mem_append]; exact .inr (.inr hi)
  have hne : ∀ i ∈ 0 :: free', i ≠ x := by
    intro i hi e; subst e; simp only [List.mem_cons] at hi; grind
  have hne' : ∀ i ∈ allNodes (s1 ++ (h, l) :: s2), i ≠ x := by
    intro i hi e; exact hk.disj (i := i) (by simp [e]) hi
  have hdf : ∀ i ∈ allNodes (s1 ++ (h, l) :: s2), i ∉ 0 :: free' := by
    intro i hi hj
    exact hk.disj (i := i) (by simp only [List.mem_cons] at hj ⊢; grind) hi
  have hring0 : ∀ i ∈ h :: l.map (·.1), i ∉ allNodes s1 ∧ i ∉ allNodes s2 := by
    intro i hi
    have := hcnt i
    rw [allNodes_append, allNodes_cons, List.count_append, List.count_append] at this
    have := count_pos hi
    simp only [nodes] at *
    constructor <;> intro hj <;> have := count_pos hj <;> split at * <;> omega
  have hnd : (h :: l.map (·.1)).Nodup := by
    apply nodup_of_count
    intro i
    have := hcnt i
    rw [allNodes_append, allNodes_cons, List.count_append, List.count_append] at this
    simp only [nodes] at this
    split at this <;> omega
  have hq : pv b h ∈ h :: l.map (·.1) := (ring_mem hring (by simp)).2
  have hhm : h ∈ h :: l.map (·.1) := by simp
  have hhlt : h < b.length := hk.lt (.inr (hmem h hhm))
  have hqlt : pv b h < b.length := hk.lt (.inr (hmem _ hq))
  have hhx : h ≠ x := hne' h (hmem h hhm)
  have hqx : pv b h ≠ x := hne' _ (hmem _ hq)
  obtain ⟨b1, e1, l1, n1, p1, w1⟩ := setPrev_ok (a := b) (i := h) x hhlt
  obtain ⟨b2, e2, l2, n2, p2, w2⟩ := setNext_ok (a := b1) (i := pv b h) x (by omega)
  obtain ⟨b3, e3, l3, n3, p3, w3⟩ := setPrev_ok (a := b2) (i := x) (pv b h) (by omega)
  obtain ⟨b4, e4, l4, n4, p4, w4⟩ := setNext_ok (a := b3) (i := x) h (by omega)
  have hN : nx b4 = upd (upd (nx b) (pv b h) x) x h := by rw [n4, n3, n2, n1]
  have hP : pv b4 = upd (upd (pv b) h x) x (pv b h) := by rw [p4, p3, p2, p1]
  have hpx : pv b2 x = pv b x := by rw [p2, p1, upd_ne _ _ (Ne.symm hhx)]
  have hnx : nx b3 x = nx b x := by rw [n3, n2, n1, upd_ne _ _ (Ne.symm hqx)]
  obtain ⟨c, hc, lc, wc, rc, nc, pc⟩ := fix_ok (b := b4) hk (by omega)
    (fun i hi => by
      rw [hN, upd_ne _ _ (hne i hi), upd_ne]
      intro e; exact hdf _ (hmem _ hq) (e ▸ hi))
    (fun i hi => by
      rw [hP, upd_ne _ _ (hne i hi), upd_ne]
      intro e; exact hdf _ (hmem _ hhm) (e ▸ hi))
  have hwx : wk c = wk b := by rw [wc, w4, w3, w2, w1]
  have hxf : x ∉ 0 :: free' := fun hi => hne x hi rfl
  refine ⟨c, x, free', ?_, fun hm => hne' x hm rfl, ?_⟩
  · simp only [add, hpick, bind, Option.bind, getPrev_ok hhlt, e1, e2,
      getPrev_ok (show x < b2.length by omega), e3, getNext_ok (show x < b3.length by omega), e4, pure,
      hpx, hnx, hc]
  · refine ⟨?_, rc, ?_, ?_, by have := hk.size; omega⟩
    · rw [Held.append, Held.cons, Held.singleton]
      refine ⟨hd1.frame ?_ ?_ (fun i _ => by rw [hwx]), ⟨?_, ?_, ?_⟩,
        hd2.frame ?_ ?_ (fun i _ => by rw [hwx])⟩
      · intro i hi
        rw [nc i (hdf i (hmem1 i hi)), hN, upd_ne _ _ (hne' i (hmem1 i hi)), upd_ne]
        intro e; exact (hring0 _ hq).1 (e ▸ hi)
      · intro i hi
        rw [pc i (hdf i (hmem1 i hi)), hP, upd_ne _ _ (hne' i (hmem1 i hi)), upd_ne]
        intro e; exact (hring0 _ hhm).1 (e ▸ hi)
      · simp only [nodes, List.map_append, List.map_cons, List.map_nil]
        apply ring_append hring hnd
        · rw [nc _ (hdf _ (hmem _ hq)), hN, upd_ne _ _ hqx, upd_self]
        · rw [pc _ hxf, hP, upd_self]
        · rw [nc _ hxf, hN, upd_self]
        · rw [pc _ (hdf _ (hmem _ hhm)), hP, upd_ne _ _ hhx, upd_self]
        · intro i hi hn
          rw [nc _ (hdf _ (hmem _ hi)), hN, upd_ne _ _ (hne' i (hmem i hi)), upd_ne _ _ hn]
        · intro i hi hn
          rw [pc _ (hdf _ (hmem _ hi)), hP, upd_ne _ _ (hne' i (hmem i hi)), upd_ne _ _ hn]
      · rw [hwx]; exact hhead
      · intro y hy
        rw [hwx]
        simp only [List.mem_append, List.mem_singleton] at hy
        rcases hy with hy | hy
        · exact hwak y hy
        · subst hy; exact hk.dummies x (by simp)
      · intro i hi
        rw [nc i (hdf i (hmem2 i hi)), hN, upd_ne _ _ (hne' i (hmem2 i hi)), upd_ne]
        intro e; exact (hring0 _ hq).2 (e ▸ hi)
      · intro i hi
        rw [pc i (hdf i (hmem2 i hi)), hP, upd_ne _ _ (hne' i (hmem2 i hi)), upd_ne]
        intro e; exact (hring0 _ hhm).2 (e ▸ hi)
    · intro i
      have := hcnt i
      rw [lc]
      simp only [allNodes_append, allNodes_cons, List.count_append, nodes, List.map_append,
        List.map_cons, List.map_nil, List.count_cons, List.count_nil] at this ⊢
      omega
    · intro i hi; rw [hwx]; exact hk.dummies i (by simp [hi])

theorem remove_ok {dummy : W} {a : Arena W} {s1 s2 : Book W} {h x : Nat} {w : W}
    {l1 l2 : List (Nat × W)} {free : List Nat}
    (hi : Inv dummy a (s1 ++ (h, l1 ++ (x, w) :: l2) :: s2) free) :
    ∃ a', remove dummy a x = some a' ∧ Inv dummy a' (s1 ++ (h, l1 ++ l2) :: s2) (x :: free) := by
  have hcnt := hi.count
  have hsz := hi.size
  have hheld := hi.held
  rw [Held.append, Held.cons, Held.singleton] at hheld
  obtain ⟨hd1, ⟨hring, hhead, hwak⟩, hd2⟩ := hheld
  simp only [nodes, List.map_append, List.map_cons] at hring
  have hmem : ∀ i, i ∈ h :: (l1.map (·.1) ++ x :: l2.map (·.1)) →
      i ∈ allNodes (s1 ++ (h, l1 ++ (x, w) :: l2) :: s2) := by
    intro i hi
    simp only [allNodes_append, allNodes_cons, nodes, List.mem_append, List.map_append, List.map_cons]
    exact .inr (.inl hi)
  have hmem1 : ∀ i, i ∈ allNodes s1 → i ∈ allNodes (s1 ++ (h, l1 ++ (x, w) :: l2) :: s2) := by
    intro i hi; simp only [allNodes_append, List.mem_append]; exact .inl hi
  have hmem2 : ∀ i, i ∈ allNodes s2 → i ∈ allNodes (s1 ++ (h, l1 ++ (x, w) :: l2) :: s2) := by
    intro i hi; simp only [allNodes_append, allNodes_cons, List.mem_append]; exact .inr (.inr hi)
  have hdf : ∀ i ∈ allNodes (s1 ++ (h, l1 ++ (x, w) :: l2) :: s2), i ∉ 0 :: free :=
    fun i h1 h2 => hi.disj h2 h1
  have hring0 : ∀ i ∈ h :: (l1.map (·.1) ++ x :: l2.map (·.1)), i ∉ allNodes s1 ∧ i ∉ allNodes s2 := by
    intro i hi
    have := hcnt i
    rw [allNodes_append, allNodes_cons, List.count_append, List.count_append] at this
    have := count_pos hi
    simp only [nodes, List.map_append, List.map_cons] at *
    constructor <;> intro hj <;> have := count_pos hj <;> split at * <;> omega
  have hnd : (h :: (l1.map (·.1) ++ x :: l2.map (·.1))).Nodup := by
    apply nodup_of_count
    intro i
    have := hcnt i
    rw [allNodes_append, allNodes_cons, List.count_append, List.count_append] at this
    simp only [nodes, List.map_append, List.map_cons] at this
    split at this <;> omega
  have hnd0 : (0 :: free).Nodup := by
    apply nodup_of_count
    intro i
    have := hcnt i
    split at this <;> omega
  have hxm : x ∈ h :: (l1.map (·.1) ++ x :: l2.map (·.1)) := by simp
  have hxlt := hi.lt_of_mem (.inr (hmem x hxm))
  have hxp := (ring_mem hring hxm).2
  have hxn := (ring_mem hring hxm).1
  have h0m := (ring_mem hi.ring0 (show (0 : Nat) ∈ 0 :: free by simp)).1
  have hxf := hdf x (hmem x hxm)
  have hplt := hi.lt_of_mem (.inr (hmem _ hxp))
  have hnlt := hi.lt_of_mem (.inr (hmem _ hxn))
  have h0lt := hi.lt_of_mem (.inl h0m)
  have hx0 : x ≠ 0 := fun e => hxf (by simp [e])
  have hxo : x ≠ nx a 0 := fun e => hxf (by rw [e]; exact h0m)
  -- the node's neighbours are other nodes
  obtain ⟨_, _, s3, s4, _, _⟩ := ring_split hring
  have hpx : pv a x ≠ x := by
    intro e
    have : x ∈ h :: l1.map (·.1) := by
      rw [← e, s3]; exact List.getLast_mem _
    simp only [List.nodup_cons, List.nodup_append, List.mem_append, List.mem_cons] at hnd this
    grind
  have hnxx : nx a x ≠ x := by
    intro e
    have : x ∈ l2.map (·.1) ++ [h] := by
      rw [← e, s4]; exact List.head_mem _
    simp only [List.nodup_cons, List.nodup_append, List.mem_append, List.mem_cons, List.not_mem_nil,
      or_false] at hnd this
    grind
  obtain ⟨b1, e1, q1, n1, p1, w1⟩ := setNext_ok (a := a) (i := 0) x (by omega)
  obtain ⟨b2, e2, q2, n2, p2, w2⟩ := setPrev_ok (a := b1) (i := nx a 0) x (by omega)
  obtain ⟨b3, e3, q3, n3, p3, w3⟩ := setPrev_ok (a := b2) (i := x) 0 (by omega)
  obtain ⟨b4, e4, q4, n4, p4, w4⟩ := setNext_ok (a := b3) (i := x) (nx a 0) (by omega)
  obtain ⟨b5, e5, q5, n5, p5, w5⟩ := setWaker_ok (a := b4) (i := x) dummy (by omega)
  obtain ⟨b6, e6, q6, n6, p6, w6⟩ := setNext_ok (a := b5) (i := pv a x) (nx a x) (by omega)
  obtain ⟨b7, e7, q7, n7, p7, w7⟩ := setPrev_ok (a := b6) (i := nx a x) (pv a x) (by omega)
  have hN : nx b7 = upd (upd (upd (nx a) 0 x) x (nx a 0)) (pv a x) (nx a x) := by
    rw [n7, n6, n5, n4, n3, n2, n1]
  have hP : pv b7 = upd (upd (upd (pv a) (nx a 0) x) x 0) (nx a x) (pv a x) := by
    rw [p7, p6, p5, p4, p3, p2, p1]
  have hW : wk b7 = fun j => if j = x then some dummy else wk a j := by
    rw [w7, w6, w5, w4, w3, w2, w1]
  have hpv : pv b2 x = pv a x := by rw [p2, p1, upd_ne _ _ hxo]
  have hnv : nx b3 x = nx a x := by rw [n3, n2, n1, upd_ne _ _ hx0]
  -- nodes outside
  have out : ∀ i, i ∉ h :: (l1.map (·.1) ++ x :: l2.map (·.1)) → i ∉ 0 :: free →
      nx b7 i = nx a i ∧ pv b7 i = pv a i ∧ wk b7 i = wk a i := by
    intro i h1 h2
    have g1 : i ≠ x := fun e => h1 (by rw [e]; exact hxm)
    have g2 : i ≠ 0 := fun e => h2 (by simp [e])
    have g3 : i ≠ nx a 0 := fun e => h2 (by rw [e]; exact h0m)
    have g4 : i ≠ pv a x := fun e => h1 (by rw [e]; exact hxp)
    have g5 : i ≠ nx a x := fun e => h1 (by rw [e]; exact hxn)
    refine ⟨?_, ?_, ?_⟩
    · rw [hN, upd_ne _ _ g4, upd_ne _ _ g1, upd_ne _ _ g2]
    · rw [hP, upd_ne _ _ g5, upd_ne _ _ g1, upd_ne _ _ g3]
    · rw [hW]; simp only [if_neg g1]
  have out1 : ∀ i ∈ allNodes s1, nx b7 i = nx a i ∧ pv b7 i = pv a i ∧ wk b7 i = wk a i :=
    fun i hi => out i (fun hm => (hring0 i hm).1 hi) (hdf i (hmem1 i hi))
  have out2 : ∀ i ∈ allNodes s2, nx b7 i = nx a i ∧ pv b7 i = pv a i ∧ wk b7 i = wk a i :=
    fun i hi => out i (fun hm => (hring0 i hm).2 hi) (hdf i (hmem2 i hi))
  have sub : ∀ i, i ∈ h :: (l1.map (·.1) ++ l2.map (·.1)) →
      i ∈ h :: (l1.map (·.1) ++ x :: l2.map (·.1)) ∧ i ≠ x := by
    intro i hi
    refine ⟨by simp only [List.mem_cons, List.mem_append] at hi ⊢; grind, ?_⟩
    rintro rfl
    simp only [List.nodup_cons, List.nodup_append, List.mem_append, List.mem_cons] at hnd hi
    grind
  refine ⟨b7, ?_, ?_, ?_, ?_, ?_, by omega⟩
  · simp only [remove, getNext_ok (show 0 < a.length by omega), bind, Option.bind, e1, e2,
      getPrev_ok (show x < b2.length by omega), hpv, e3, getNext_ok (show x < b3.length by omega),
      hnv, e4, e5, e6, e7]
  · rw [Held.append, Held.cons, Held.singleton]
    refine ⟨hd1.frame (fun i hi => (out1 i hi).1) (fun i hi => (out1 i hi).2.1)
      (fun i hi => (out1 i hi).2.2), ⟨?_, ?_, ?_⟩, hd2.frame (fun i hi => (out2 i hi).1)
      (fun i hi => (out2 i hi).2.1) (fun i hi => (out2 i hi).2.2)⟩
    · simp only [nodes, List.map_append]
      apply ring_unlink hring hnd
      · rw [hN, upd_self]
      · rw [hP, upd_self]
      · intro i hi hne
        obtain ⟨g1, g2⟩ := sub i hi
        rw [hN, upd_ne _ _ hne, upd_ne _ _ g2, upd_ne]
        intro e; exact hdf i (hmem i g1) (by simp [e])
      · intro i hi hne
        obtain ⟨g1, g2⟩ := sub i hi
        rw [hP, upd_ne _ _ hne, upd_ne _ _ g2, upd_ne]
        intro e; exact hdf i (hmem i g1) (by rw [e]; exact h0m)
    · have : h ≠ x := (sub h (by simp)).2
      simp only [hW, if_neg this]; exact hhead
    · intro y hy
      have : y.1 ≠ x := (sub y.1 (by
        simp only [List.mem_cons, List.mem_append, List.mem_map] at hy ⊢
        rcases hy with hy | hy
        · exact .inr (.inl ⟨y, hy, rfl⟩)
        · exact .inr (.inr ⟨y, hy, rfl⟩))).2
      simp only [hW, if_neg this]
      exact hwak y (by simp only [List.mem_append, List.mem_cons] at hy ⊢; grind)
  · have inn : ∀ i ∈ 0 :: free, i ≠ x ∧ i ≠ pv a x ∧ i ≠ nx a x := by
      intro i hi
      exact ⟨fun e => hxf (e ▸ hi), fun e => hdf _ (hmem _ hxp) (e ▸ hi),
        fun e => hdf _ (hmem _ hxn) (e ▸ hi)⟩
    apply ring_push hi.ring0 hnd0
    · obtain ⟨g1, g2, g3⟩ := inn 0 (by simp)
      rw [hN, upd_ne _ _ g2, upd_ne _ _ g1, upd_self]
    · rw [hP, upd_ne _ _ (Ne.symm hnxx), upd_self]
    · rw [hN, upd_ne _ _ (Ne.symm hpx), upd_self]
    · obtain ⟨g1, g2, g3⟩ := inn _ h0m
      rw [hP, upd_ne _ _ g3, upd_ne _ _ g1, upd_self]
    · intro i hi hne
      obtain ⟨g1, g2, g3⟩ := inn i hi
      rw [hN, upd_ne _ _ g2, upd_ne _ _ g1, upd_ne _ _ hne]
    · intro i hi hne
      obtain ⟨g1, g2, g3⟩ := inn i hi
      rw [hP, upd_ne _ _ g3, upd_ne _ _ g1, upd_ne _ _ hne]
  · intro i
    have := hcnt i
    have hlen : b7.length = a.length := by omega
    rw [hlen]
    simp only [allNodes_append, allNodes_cons, List.count_append, nodes, List.map_append,
      List.map_cons, List.count_cons] at this ⊢
    omega
  · intro i hm
    rw [hW]
    by_cases e : i = x
    · simp [e]
    · simp only [if_neg e]
      exact hi.dummies i (by simp only [List.mem_cons] at hm; grind)

theorem update_ok [DecidableEq W] {dummy : W} {a : Arena W} {s1 s2 : Book W} {h x : Nat} {w v : W}
    {l1 l2 : List (Nat × W)} {free : List Nat}
    (hi : Inv dummy a (s1 ++ (h, l1 ++ (x, w) :: l2) :: s2) free) :
    ∃ a', update a x v = some a' ∧ Inv dummy a' (s1 ++ (h, l1 ++ (x, v) :: l2) :: s2) free := by
  have hcnt := hi.count
  have hxm : x ∈ allNodes (s1 ++ (h, l1 ++ (x, w) :: l2) :: s2) := by
    simp [allNodes_append, allNodes_cons, nodes]
  have hxlt := hi.lt_of_mem (.inr hxm)
  have hw : wk a x = some w := by
    have := hi.held
    rw [Held.append, Held.cons, Held.singleton] at this
    exact this.2.1.2.2 (x, w) (by simp)
  have hen : allNodes (s1 ++ (h, l1 ++ (x, v) :: l2) :: s2) =
      allNodes (s1 ++ (h, l1 ++ (x, w) :: l2) :: s2) := by
    simp [allNodes_append, allNodes_cons, nodes]
  have key : ∃ a', update a x v = some a' ∧ a'.length = a.length ∧ nx a' = nx a ∧ pv a' = pv a ∧
      wk a' = fun j => if j = x then some v else wk a j := by
    by_cases e : w = v
    · subst e
      refine ⟨a, ?_, rfl, rfl, rfl, ?_⟩
      · simp only [wk, List.getElem?_eq_getElem hxlt, Option.map_some, Option.some.injEq] at hw
        simp only [update, List.getElem?_eq_getElem hxlt, hw, if_true]
      · funext j; by_cases e : j = x
        · simp [e, hw]
        · simp [e]
    · obtain ⟨a', g⟩ := setWaker_ok v hxlt
      refine ⟨a', ?_, g.2⟩
      simp only [wk, List.getElem?_eq_getElem hxlt, Option.map_some, Option.some.injEq] at hw
      simp only [update, List.getElem?_eq_getElem hxlt, hw, if_neg e]
      exact g.1
  obtain ⟨a', e1, hl, hN, hP, hW⟩ := key
  have hcx := hcnt x
  have hxr : ∀ i, (i ∈ allNodes s1 ∨ i ∈ allNodes s2 ∨ i = h ∨ i ∈ l1.map (·.1) ∨ i ∈ l2.map (·.1)) →
      i ≠ x := by
    rintro i hm rfl
    simp only [allNodes_append, allNodes_cons, List.count_append, nodes, List.map_append,
      List.map_cons, List.count_cons, beq_self_eq_true, if_true] at hcx
    rcases hm with hm | hm | hm | hm | hm
    · have := count_pos hm; split at hcx <;> split at hcx <;> omega
    · have := count_pos hm; split at hcx <;> split at hcx <;> omega
    · subst hm; simp only [beq_self_eq_true, if_true] at hcx
      (repeat' split at hcx) <;> omega
    · have := count_pos hm; split at hcx <;> split at hcx <;> omega
    · have := count_pos hm; split at hcx <;> split at hcx <;> omega
  have hheld := hi.held
  rw [Held.append, Held.cons, Held.singleton] at hheld
  obtain ⟨hd1, ⟨hring, hhead, hwak⟩, hd2⟩ := hheld
  refine ⟨a', e1, ?_, ?_, ?_, ?_, by have := hi.size; omega⟩
  · rw [Held.append, Held.cons, Held.singleton]
    refine ⟨hd1.frame (fun i _ => by rw [hN]) (fun i _ => by rw [hP]) (fun i hi => ?_), ⟨?_, ?_, ?_⟩,
      hd2.frame (fun i _ => by rw [hN]) (fun i _ => by rw [hP]) (fun i hi => ?_)⟩
    · rw [hW]; simp only [if_neg (hxr i (.inl hi))]
    · rw [hN, hP]
      simp only [nodes, List.map_append, List.map_cons] at hring ⊢; exact hring
    · rw [hW]; simp only [if_neg (hxr h (.inr (.inr (.inl rfl))))]; exact hhead
    · intro y hy
      simp only [List.mem_append, List.mem_cons] at hy
      rcases hy with hy | hy | hy
      · have : y.1 ≠ x := hxr _ (.inr (.inr (.inr (.inl (List.mem_map.2 ⟨y, hy, rfl⟩)))))
        rw [hW]; simp only [if_neg this]; exact hwak y (by simp [hy])
      · subst hy; simp [hW]
      · have : y.1 ≠ x := hxr _ (.inr (.inr (.inr (.inr (List.mem_map.2 ⟨y, hy, rfl⟩)))))
        rw [hW]; simp only [if_neg this]; exact hwak y (by simp [hy])
    · rw [hW]; simp only [if_neg (hxr i (.inr (.inl hi)))]
  · rw [hN, hP]; exact hi.ring0
  · intro i; rw [hen, hl]; exact hcnt i
  · intro i hm
    have : i ≠ x := by
      rintro rfl; exact hi.disj (i := i) (by simp [hm]) hxm
    rw [hW]; simp only [if_neg this]; exact hi.dummies i hm

theorem removeIfEmpty_ok {dummy : W} {a : Arena W} {s1 s2 : Book W} {h : Nat}
    {l : List (Nat × W)} {free : List Nat} (hi : Inv dummy a (s1 ++ (h, l) :: s2) free) :
    ∃ a' free', removeSublistIfEmpty a h = some (a', decide (l = [])) ∧
      Inv dummy a' (if l = [] then s1 ++ s2 else s1 ++ (h, l) :: s2) free' := by
  have hcnt := hi.count
  have hsz := hi.size
  have hheld := hi.held
  rw [Held.append, Held.cons, Held.singleton] at hheld
  obtain ⟨hd1, ⟨hring, hhead, hwak⟩, hd2⟩ := hheld
  have hm : h ∈ allNodes (s1 ++ (h, l) :: s2) := by simp [allNodes_append, allNodes_cons, nodes]
  have hlt := hi.lt_of_mem (.inr hm)
  obtain ⟨_, r2, _, _⟩ := ring_ends hring
  cases l with
  | cons y l =>
    simp only [List.map_cons, List.cons_append, List.head_cons] at r2
    have hne : y.1 ≠ h := by
      intro e
      have := hcnt h
      simp only [allNodes_append, allNodes_cons, List.count_append, nodes, List.map_cons,
        List.count_cons, e, beq_self_eq_true, if_true] at this
      (repeat' split at this) <;> omega
    refine ⟨a, free, ?_, by simpa using hi⟩
    simp only [removeSublistIfEmpty, getNext_ok hlt, bind, Option.bind, r2, if_neg hne, pure]
    rfl
  | nil =>
    simp only [List.map_nil, List.nil_append, List.head_cons] at r2
    have hnf : h ∉ 0 :: free := fun hj => hi.disj hj hm
    have h0 : h ≠ 0 := fun e => hnf (by simp [e])
    have h0m := (ring_mem hi.ring0 (show (0 : Nat) ∈ 0 :: free by simp)).1
    have h0lt := hi.lt_of_mem (.inl h0m)
    have hho : h ≠ nx a 0 := fun e => hnf (by rw [e]; exact h0m)
    obtain ⟨b1, e1, q1, n1, p1, w1⟩ := setPrev_ok (a := a) (i := h) 0 hlt
    obtain ⟨b2, e2, q2, n2, p2, w2⟩ := setNext_ok (a := b1) (i := 0) h (by omega)
    obtain ⟨b3, e3, q3, n3, p3, w3⟩ := setPrev_ok (a := b2) (i := nx a 0) h (by omega)
    obtain ⟨b4, e4, q4, n4, p4, w4⟩ := setNext_ok (a := b3) (i := h) (nx a 0) (by omega)
    have hN : nx b4 = upd (upd (nx a) 0 h) h (nx a 0) := by rw [n4, n3, n2, n1]
    have hP : pv b4 = upd (upd (pv a) h 0) (nx a 0) h := by rw [p4, p3, p2, p1]
    have hW : wk b4 = wk a := by rw [w4, w3, w2, w1]
    have hn0 : nx b1 0 = nx a 0 := by rw [n1]
    have hnd0 : (0 :: free).Nodup := by
      apply nodup_of_count; intro i; have := hcnt i; split at this <;> omega
    have hc := fun i => hcnt i
    simp only [allNodes_append, allNodes_cons, List.count_append, nodes, List.map_nil,
        List.count_cons, List.count_nil] at hc
    have hne : ∀ i, i ∈ allNodes s1 ∨ i ∈ allNodes s2 → i ≠ h ∧ i ∉ 0 :: free := by
      intro i hj
      constructor
      · rintro rfl
        have := hc i
        simp only [beq_self_eq_true, if_true] at this
        rcases hj with hj | hj <;> have := count_pos hj <;> split at * <;> omega
      · intro hk
        refine hi.disj hk ?_
        simp only [allNodes_append, allNodes_cons, List.mem_append]; grind
    have out : ∀ i, i ∈ allNodes s1 ∨ i ∈ allNodes s2 → nx b4 i = nx a i ∧ pv b4 i = pv a i := by
      intro i hj
      obtain ⟨g1, g2⟩ := hne i hj
      have g3 : i ≠ 0 := fun e => g2 (by simp [e])
      have g4 : i ≠ nx a 0 := fun e => g2 (by rw [e]; exact h0m)
      exact ⟨by rw [hN, upd_ne _ _ g1, upd_ne _ _ g3], by rw [hP, upd_ne _ _ g4, upd_ne _ _ g1]⟩
    refine ⟨b4, h :: free, ?_, ?_⟩
    · simp only [removeSublistIfEmpty, getNext_ok hlt, bind, Option.bind, r2, if_true, e1,
        getNext_ok (show 0 < b1.length by omega), hn0, e2, e3, e4, pure]
      rfl
    · simp only [if_true]
      refine ⟨?_, ?_, ?_, ?_, by omega⟩
      · rw [Held.append]
        exact ⟨hd1.frame (fun i hi => (out i (.inl hi)).1) (fun i hi => (out i (.inl hi)).2)
            (fun i _ => by rw [hW]),
          hd2.frame (fun i hi => (out i (.inr hi)).1) (fun i hi => (out i (.inr hi)).2)
            (fun i _ => by rw [hW])⟩
      · apply ring_push hi.ring0 hnd0
        · rw [hN, upd_ne _ _ (Ne.symm h0), upd_self]
        · rw [hP, upd_ne _ _ hho, upd_self]
        · rw [hN, upd_self]
        · rw [hP, upd_self]
        · intro i hj hne
          have g : i ≠ h := by rintro rfl; exact hnf hj
          rw [hN, upd_ne _ _ g, upd_ne _ _ hne]
        · intro i hj hne
          have g : i ≠ h := by rintro rfl; exact hnf hj
          rw [hP, upd_ne _ _ hne, upd_ne _ _ g]
      · intro i
        have := hc i
        have hl : b4.length = a.length := by omega
        rw [hl]
        simp only [allNodes_append, List.count_append, List.count_cons] at this ⊢
        omega
      · intro i hj
        rw [hW]
        rcases List.mem_cons.1 hj with e | hj
        · rw [e]; exact hhead
        · exact hi.dummies i hj

/-! ## Iterating -/

theorem iterFrom_ok {a : Arena W} {h : Nat} : ∀ (l : List (Nat × W)) (fuel : Nat) (p : Nat),
    Linked (nx a) (pv a) (p :: (l.map (·.1) ++ [h])) → (∀ y ∈ l, y.1 ≠ h) →
    (∀ y ∈ l, wk a y.1 = some y.2) → l.length ≤ fuel → iterFrom a h fuel (nx a p) = some (l.map (·.2))
  | [], fuel, p, hl, _, _, _ => by
    have : nx a p = h := hl.1
    rw [this]; cases fuel <;> simp [iterFrom]
  | y :: l, 0, p, _, _, _, hf => by simp at hf
  | y :: l, fuel + 1, p, hl, hne, hw, hf => by
    have e : nx a p = y.1 := hl.1
    have hwy := hw y (by simp)
    have ih := iterFrom_ok l fuel y.1 hl.2.2 (fun z hz => hne z (by simp [hz]))
      (fun z hz => hw z (by simp [hz])) (by simpa using hf)
    rw [e]
    simp only [iterFrom, if_neg (hne y (by simp))]
    simp only [wk] at hwy
    simp only [nx] at ih
    split
    · rename_i g; simp [g] at hwy
    · rename_i x g
      simp only [g, Option.map_some, Option.some.injEq] at hwy
      simp only [g] at ih
      rw [ih]; simp [hwy]

theorem iter_ok {dummy : W} {a : Arena W} {s : Book W} {free : List Nat} (hi : Inv dummy a s free)
    {e : Nat × List (Nat × W)} (he : e ∈ s) : iter a e.1 = some (e.2.map (·.2)) := by
  obtain ⟨s1, s2, hs⟩ := List.append_of_mem he
  subst hs
  have hcnt := hi.count
  have hlt := hi.lt_of_mem (.inr (mem_allNodes_of he (show e.1 ∈ nodes e by simp [nodes])))
  have hr := hi.held.rings e he
  simp only [iter, getNext_ok hlt, bind, Option.bind]
  have hc := fun i => hcnt i
  simp only [allNodes_append, allNodes_cons, List.count_append, nodes] at hc
  have hnd : (e.1 :: e.2.map (·.1)).Nodup := by
    apply nodup_of_count; intro i; have := hc i; split at this <;> omega
  apply iterFrom_ok
  · exact hr
  · intro y hy h
    simp only [List.nodup_cons] at hnd
    exact hnd.1 (h ▸ List.mem_map.2 ⟨y, hy, rfl⟩)
  · exact hi.held.wakers e he
  · -- distinct indices below the length
    have hsub : (e.2.map (·.1)) ⊆ List.range a.length := by
      intro i hm
      rw [List.mem_range]
      exact hi.lt_of_mem (.inr (mem_allNodes_of he (by simp only [nodes, List.mem_cons]; exact .inr hm)))
    have := List.Nodup.length_le_of_subset (List.nodup_cons.1 hnd).2 hsub
    simpa using this

end Verif.Arena
