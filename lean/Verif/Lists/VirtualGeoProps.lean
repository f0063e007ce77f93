import Verif.Lists.VirtualGeo
/-! # Theorems on what is on the screen (C57) -/
namespace Verif.Lists
open Verif.Dom

/-! ## one update -/

/-- An update that does nothing leaves no spacer in sight, whatever the window is. -/
theorem noGap_of_quiet {L : Layout} {v : Port} (hq : L.quiet v = true) : NoGap L v := by
  obtain ⟨h1, h2⟩ := (quiet_iff L v).1 hq
  exact ⟨by omega, by omega⟩

/-- **C57.** After an update of a window that is not empty no spacer is in sight, nor closer than 5/4
of the root's size, wherever the list is and however large the items, the root, and the spacers
before the update. -/
theorem virtual_noGap {L : Layout} {v : Port} (hh : 0 < L.item) (hv : 0 < L.visible) (hs : 0 ≤ v.size) :
    NoGap (L.update v) v := by
  cases hq : L.quiet v with
  | true => rw [Layout.update, if_pos hq]; exact noGap_of_quiet hq
  | false =>
    rw [update_pos v hv hq]
    have hf := floor_mul_le (v.r0 - 2 * v.size - v.top) hh
    have hc := le_ceil_mul (v.r1 + 2 * v.size - v.top) hh
    have hr : v.r1 = v.r0 + v.size := by simp [Port.size]; omega
    simp only [NoGap, Layout.visible]
    generalize hx : (v.r0 - 2 * v.size - v.top) / L.item = x at *
    generalize hy : -(-(v.r1 + 2 * v.size - v.top) / L.item) = y at *
    constructor
    · by_cases h0 : x.toNat = 0
      · exact .inl h0
      · right
        have : (x.toNat : Int) = x := by omega
        rw [this]; omega
    · by_cases hn : min y.toNat L.num = L.num
      · exact .inl hn
      · right
        have hm : min y.toNat L.num = y.toNat := by omega
        rw [hm]
        have h1 : (y : Int) ≤ (x.toNat : Int) + ((y.toNat - x.toNat : Nat) : Int) := by omega
        have h2 := Int.mul_le_mul_of_nonneg_left h1 (by omega : 0 ≤ L.item)
        rw [Int.mul_add] at h2
        omega

/-- The update does not change the size of the items and their number. -/
theorem update_item (L : Layout) (v : Port) : (L.update v).item = L.item ∧ (L.update v).num = L.num := by
  unfold Layout.update; split <;> exact ⟨rfl, rfl⟩

/-- **C57.** An update of a window that is not empty, if it does anything, puts the items where they
would be if all of them were rendered, and if the window does not begin behind its end, the list is as
long as it would be then. -/
theorem virtual_placed {L : Layout} {v : Port} (hv : 0 < L.visible) (hq : L.quiet v = false) :
    Placed (L.update v) ∧
    ((L.update v).start ≤ (L.update v).stop → (L.update v).length = L.item * L.num) := by
  rw [update_pos v hv hq]
  refine ⟨rfl, ?_⟩
  simp only [Layout.length, Layout.visible]
  intro h
  rw [← Int.mul_add, ← Int.mul_add]
  congr 1
  omega

/-- No spacer in sight and items at their places: the items in view are rendered. -/
theorem inView_rendered {L : Layout} {v : Port} (hh : 0 < L.item) (hs : 0 ≤ v.size) (hg : NoGap L v) (hp : Placed L)
    (hle : L.start ≤ L.stop) (k : Nat) (hk : k < L.num) (hi : InView L.item v k) : L.start ≤ k ∧ k < L.stop := by
  obtain ⟨h1, h2⟩ := hg
  obtain ⟨i1, i2⟩ := hi
  unfold Placed at hp
  rw [hp] at h1 h2
  constructor
  · rcases h1 with h1 | h1
    · omega
    · have : L.item * L.start < L.item * (k + 1) := by omega
      have := Int.lt_of_mul_lt_mul_left this (by omega)
      omega
  · rcases h2 with h2 | h2
    · omega
    · rw [Int.add_assoc, ← Int.mul_add] at h2
      have : L.item * k < L.item * ((L.start : Int) + L.visible) := by omega
      have := Int.lt_of_mul_lt_mul_left this (by omega)
      simp only [Layout.visible] at this
      omega

/-- **C57.** An update that does something renders at most as many items as fill five times the root,
and two more. -/
theorem virtual_few {L : Layout} {v : Port} (hh : 0 < L.item) (hv : 0 < L.visible) (hs : 0 ≤ v.size)
    (hq : L.quiet v = false) : L.item * ((L.update v).visible : Int) < 5 * v.size + 2 * L.item := by
  rw [update_pos v hv hq]
  have hf := lt_floor_mul (v.r0 - 2 * v.size - v.top) hh
  have hc := ceil_mul_lt (v.r1 + 2 * v.size - v.top) hh
  have hr : v.r1 = v.r0 + v.size := by simp [Port.size]; omega
  simp only [Layout.visible]
  generalize (v.r0 - 2 * v.size - v.top) / L.item = x at *
  generalize -(-(v.r1 + 2 * v.size - v.top) / L.item) = y at *
  by_cases h0 : min y.toNat L.num - x.toNat = 0
  · rw [h0]; omega
  · have : ((min y.toNat L.num - x.toNat : Nat) : Int) ≤ y - x := by omega
    have := Int.mul_le_mul_of_nonneg_left this (by omega : 0 ≤ L.item)
    rw [Int.mul_sub] at this
    omega

/-! ## histories -/

/-- The list is not further away from the visible part of the root than twice the root's size, and it
has items. -/
def InReach (item : Int) (num : Nat) (v : Port) : Prop :=
  0 < v.size ∧ 0 < num ∧ v.top < v.r1 + 2 * v.size ∧ v.r0 - 2 * v.size < v.top + item * num

/-- At every event, with the number of items then. -/
def Reaches (item : Int) (num : Nat) : List LEvent → Prop
  | [] => True
  | .update v :: es => InReach item num v ∧ Reaches item num es
  | .setNum n v :: es => InReach item n v ∧ Reaches item n es

def LEvent.view : LEvent → Port
  | .update v => v
  | .setNum _ v => v

theorem window_of_inReach {item : Int} {num : Nat} {v : Port} (hh : 0 < item) (h : InReach item num v) :
    ((v.r0 - 2 * v.size - v.top) / item).toNat < min (-(-(v.r1 + 2 * v.size - v.top) / item)).toNat num := by
  obtain ⟨h1, h2, h3, h4⟩ := h
  have hf := floor_mul_le (v.r0 - 2 * v.size - v.top) hh
  have hc := le_ceil_mul (v.r1 + 2 * v.size - v.top) hh
  have hr : v.r1 = v.r0 + v.size := by simp [Port.size]; omega
  generalize (v.r0 - 2 * v.size - v.top) / item = x at *
  generalize -(-(v.r1 + 2 * v.size - v.top) / item) = y at *
  have k1 : item * x < item * num := by omega
  have k2 : item * x < item * y := by omega
  have k3 : item * 0 < item * y := by omega
  have := Int.lt_of_mul_lt_mul_left k1 (by omega)
  have := Int.lt_of_mul_lt_mul_left k2 (by omega)
  have := Int.lt_of_mul_lt_mul_left k3 (by omega)
  omega

theorem visible_update {L : Layout} {v : Port} (hh : 0 < L.item) (hv : 0 < L.visible) (hr : InReach L.item L.num v) :
    0 < (L.update v).visible := by
  cases hq : L.quiet v with
  | true => rw [Layout.update, if_pos hq]; exact hv
  | false =>
    rw [update_pos v hv hq]
    have := window_of_inReach hh hr
    simp only [Layout.visible]
    omega

theorem placed_update {L : Layout} {v : Port} (hv : 0 < L.visible) (hp : Placed L) : Placed (L.update v) := by
  cases hq : L.quiet v with
  | true => rw [Layout.update, if_pos hq]; exact hp
  | false => exact (virtual_placed hv hq).1

theorem length_update {L : Layout} {v : Port} (hh : 0 < L.item) (hv : 0 < L.visible) (hr : InReach L.item L.num v)
    (hl : L.length = L.item * L.num) : (L.update v).length = L.item * L.num := by
  have := visible_update hh hv hr
  cases hq : L.quiet v with
  | true => rw [Layout.update, if_pos hq]; exact hl
  | false => exact (virtual_placed hv hq).2 (by simp only [Layout.visible] at this; omega)

theorem step_facts {L : Layout} (hh : 0 < L.item) (hv : 0 < L.visible) (hp : Placed L) {e : LEvent}
    (hr : Reaches L.item L.num [e]) : (L.step e).item = L.item ∧ 0 < (L.step e).visible ∧ Placed (L.step e) ∧
      NoGap (L.step e) e.view ∧ 0 ≤ e.view.size := by
  cases e with
  | update v =>
    exact ⟨(update_item L v).1, visible_update hh hv hr.1, placed_update hv hp,
      virtual_noGap hh hv (Int.le_of_lt hr.1.1), Int.le_of_lt hr.1.1⟩
  | setNum n v =>
    exact ⟨(update_item _ v).1, visible_update (L := { L with num := n }) hh hv hr.1,
      placed_update (L := { L with num := n }) hv hp,
      virtual_noGap (L := { L with num := n }) hh hv (Int.le_of_lt hr.1.1), Int.le_of_lt hr.1.1⟩

theorem reaches_append {item : Int} {es es' : List LEvent} : ∀ {L : Layout}, L.item = item →
    Reaches item L.num (es ++ es') → Reaches item L.num es ∧ Reaches item (es.foldl Layout.step L).num es' := by
  induction es with
  | nil => intro L _ h; exact ⟨trivial, h⟩
  | cons e es ih =>
    intro L hi h
    cases e with
    | update v =>
      have e1 : (L.step (.update v)).num = L.num := (update_item L v).2
      have := ih (L := L.step (.update v)) ((update_item L v).1.trans hi) (by rw [e1]; exact h.2)
      rw [e1] at this
      exact ⟨⟨h.1, this.1⟩, this.2⟩
    | setNum n v =>
      have e1 : (L.step (.setNum n v)).num = n := (update_item { L with num := n } v).2
      have := ih (L := L.step (.setNum n v)) ((update_item { L with num := n } v).1.trans hi) (by rw [e1]; exact h.2)
      rw [e1] at this
      exact ⟨⟨h.1, this.1⟩, this.2⟩

theorem run_facts (es : List LEvent) : ∀ {L : Layout}, 0 < L.item → 0 < L.visible → Placed L →
    Reaches L.item L.num es → (es.foldl Layout.step L).item = L.item ∧
      0 < (es.foldl Layout.step L).visible ∧ Placed (es.foldl Layout.step L) := by
  induction es with
  | nil => intro L _ hv hp _; exact ⟨rfl, hv, hp⟩
  | cons e es ih =>
    intro L hh hv hp hr
    obtain ⟨hr1, hr2⟩ := reaches_append (es := [e]) (L := L) rfl hr
    obtain ⟨f1, f2, f3, -, -⟩ := step_facts hh hv hp hr1
    rw [List.foldl_cons]
    have := ih (L := L.step e) (by omega) f2 f3 (by rw [f1]; exact hr2)
    rw [f1] at this
    exact this

/-- **C57, partial.** Take a list that shows items, where they would be if all were rendered. Scroll,
resize the root, change the number of items, any number of times, so that at every update the list is
not further from the visible part than twice the root's size. Then no spacer is in sight, the items
are where they would be if all were rendered, and all items that would be in view then are rendered.

Missing: updates while the list is further away (`virtual_past_end`), and the first two updates
(`virtual_second`). -/
theorem virtual_in_view_partial {L : Layout} (hh : 0 < L.item) (hv : 0 < L.visible) (hp : Placed L)
    (es : List LEvent) (e : LEvent) (hr : Reaches L.item L.num (es ++ [e])) :
    let L' := (es ++ [e]).foldl Layout.step L
    NoGap L' e.view ∧ Placed L' ∧ L'.item = L.item ∧
      ∀ (k : Nat), k < L'.num → InView L.item e.view k → L'.start ≤ k ∧ k < L'.stop := by
  obtain ⟨hr1, hr2⟩ := reaches_append (L := L) rfl hr
  obtain ⟨f1, f2, f3⟩ := run_facts es hh hv hp hr1
  obtain ⟨g1, g2, g3, g4, g5⟩ := step_facts (L := es.foldl Layout.step L) (by omega) f2 f3 (by rw [f1]; exact hr2)
  rw [List.foldl_append, List.foldl_cons, List.foldl_nil]
  refine ⟨g4, g3, by omega, fun k hk hi => ?_⟩
  have hit : ((es.foldl Layout.step L).step e).item = L.item := by omega
  refine inView_rendered (by omega) g5 g4 g3 ?_ k hk (by rw [hit]; exact hi)
  simp only [Layout.visible] at g2
  omega

/-- **C57, partial.** While the number of items does not change, the list stays as long as it would be
if all items were rendered. Missing: changes of the number, see `virtual_setNum_length`. -/
theorem virtual_length_partial (vs : List Port) : ∀ {L : Layout}, 0 < L.item → 0 < L.visible →
    (∀ v ∈ vs, InReach L.item L.num v) → L.length = L.item * L.num →
    (vs.foldl Layout.update L).length = L.item * L.num := by
  induction vs with
  | nil => intro L _ _ _ h; exact h
  | cons v vs ih =>
    intro L hh hv hr hl
    obtain ⟨e1, e2⟩ := update_item L v
    have h1 := visible_update hh hv (hr v (by simp))
    have h2 := length_update hh hv (hr v (by simp)) hl
    have := ih (L := L.update v) (by omega) h1 (by rw [e1, e2]; exact fun x hx => hr x (by simp [hx])) (by rw [e1, e2]; exact h2)
    rw [e1, e2] at this
    exact this

/-! ## the first updates -/

/-- The first update, with an empty window, takes a quarter of the root for the size of an item. If the
list would be in reach with items of that size, the window is not empty afterwards. -/
theorem virtual_first {L : Layout} {v : Port} {u : Int} (hv : L.visible = 0) (hu : v.size = 4 * u)
    (hr : InReach u L.num v) (hq : L.quiet v = false) : 0 < (L.update v).visible := by
  have hpos : 0 < u := by have := hr.1; omega
  have hw := window_of_inReach hpos hr
  have ha : (L.rects v).avg L.visible = (u * 4, 4) := by
    simp only [Rects.avg, hv, Layout.rects, Nat.lt_irrefl, gt_iff_lt, if_false, Prod.mk.injEq, and_true]
    simp only [Port.size] at hu
    omega
  simp only [Layout.update, hq, Bool.false_eq_true, if_false, Layout.visible, Rects.measure]
  rw [Layout.visible] at ha
  rw [ha]
  simp only [Layout.rects]
  rw [Int.mul_ediv_mul_of_pos_left _ _ (by omega : (0 : Int) < 4), ← Int.neg_mul,
    Int.mul_ediv_mul_of_pos_left _ _ (by omega : (0 : Int) < 4)]
  simp only [Port.size] at hw
  omega

/-- **C57, the second update.** Two updates are enough to begin with: after a first one as above, any
further update leaves no spacer in sight. -/
theorem virtual_second {L : Layout} {v v2 : Port} {u : Int} (hh : 0 < L.item) (hv : L.visible = 0) (hu : v.size = 4 * u)
    (hr : InReach u L.num v) (hq : L.quiet v = false) (hs : 0 ≤ v2.size) : NoGap ((L.update v).update v2) v2 :=
  virtual_noGap (by rw [(update_item L v).1]; exact hh) (virtual_first hv hu hr hq) hs

/-- One is not always enough: if more than twelve items fit into the root, the first update of a list at
the top of the root leaves the back spacer in sight. -/
theorem virtual_first_gap {n : Nat} {item u : Int} (top : Int) (hh : 0 < item) (hi : 12 * item < 4 * u) (hn : 12 < n) :
    let v : Port := ⟨top, top, top + 4 * u⟩
    let L' := (Layout.mk 0 0 0 item 0 0).step (.setNum n v)
    L' = ⟨0, 12, n, item, 0, u * (n - 12 : Nat)⟩ ∧ v.top + L'.front + L'.item * L'.visible < v.r1 ∧ ¬ NoGap L' v := by
  intro v L'
  have hu : 0 < u := by omega
  have hq : (Layout.mk 0 0 n item 0 0).quiet v = false := by
    cases h : (Layout.mk 0 0 n item 0 0).quiet v with
    | false => rfl
    | true =>
      obtain ⟨-, h2⟩ := (quiet_iff _ _).1 h
      simp only [Layout.visible, Port.size, v] at h2
      omega
  have e : L' = ⟨0, 12, n, item, 0, u * (n - 12 : Nat)⟩ := by
    have e1 : (top - 2 * (top + 4 * u - top) - top) * 4 / (top + 4 * u - top) = -8 := by
      rw [show (top - 2 * (top + 4 * u - top) - top) * 4 = -8 * (top + 4 * u - top) by omega]
      exact Int.mul_ediv_cancel _ (by omega)
    have e2 : -((top + 4 * u + 2 * (top + 4 * u - top) - top) * 4) / (top + 4 * u - top) = -12 := by
      rw [show -((top + 4 * u + 2 * (top + 4 * u - top) - top) * 4) = -12 * (top + 4 * u - top) by omega]
      exact Int.mul_ediv_cancel _ (by omega)
    have e3 : ∀ (m : Nat), (top + 4 * u - top) * (m : Int) / 4 = u * m := by
      intro m
      rw [show (top + 4 * u - top) = u * 4 by omega, Int.mul_right_comm]
      exact Int.mul_ediv_cancel _ (by omega)
    simp only [L', Layout.step, Layout.update, hq, Bool.false_eq_true, if_false, Rects.measure, Rects.avg,
      Layout.rects, Layout.visible, Nat.sub_self, Nat.lt_irrefl, gt_iff_lt, v, e1, e2, e3]
    have e4 : min (- -12 : Int).toNat n = 12 := by
      rw [show (- -12 : Int).toNat = 12 by decide]; omega
    simp only [e4]
    simp
  refine ⟨e, ?_, ?_⟩
  · rw [e]; simp only [Layout.visible, v]; omega
  · rw [e]
    rintro ⟨-, h2⟩
    simp only [Layout.visible, Port.size, v] at h2
    omega

/-! ## what goes wrong otherwise -/

/-- **Not so for jumps past the end.** If the window does not contain the last item, and the root is
scrolled to a place that is more than two roots and an item behind the end of the list, then the list
becomes longer than all items together, and renders nothing. -/
theorem virtual_past_end {L : Layout} {v : Port} (hh : 0 < L.item) (hv : 0 < L.visible) (hp : Placed L) (hs : 0 ≤ v.size)
    (hn : L.stop < L.num) (hj : v.top + L.item * L.num + L.item + 2 * v.size ≤ v.r0) :
    (L.update v).visible = 0 ∧ L.item * L.num < (L.update v).length ∧ v.r0 - 2 * v.size - L.item < v.top + (L.update v).length := by
  have hb : v.top + L.front + L.item * L.visible ≤ v.top + L.item * L.num := by
    unfold Placed at hp
    rw [hp, Int.add_assoc, ← Int.mul_add]
    have : (L.start : Int) + L.visible ≤ L.num := by simp only [Layout.visible] at hv ⊢; omega
    have := Int.mul_le_mul_of_nonneg_left this (by omega : 0 ≤ L.item)
    omega
  have hr : v.r1 = v.r0 + v.size := by simp [Port.size]; omega
  have hq : L.quiet v = false := by
    cases h : L.quiet v with
    | false => rfl
    | true =>
      obtain ⟨-, h2⟩ := (quiet_iff _ _).1 h
      omega
  rw [update_pos v hv hq]
  have hf := lt_floor_mul (v.r0 - 2 * v.size - v.top) hh
  have hf2 : ((L.num : Int) + 1) ≤ (v.r0 - 2 * v.size - v.top) / L.item := by
    rw [Int.le_ediv_iff_mul_le hh, Int.mul_comm, Int.mul_add]; omega
  simp only [Layout.visible, Layout.length]
  generalize (v.r0 - 2 * v.size - v.top) / L.item = x at *
  generalize -(-(v.r1 + 2 * v.size - v.top) / L.item) = y at *
  have ht : (x.toNat : Int) = x := by omega
  have h0 : min y.toNat L.num - x.toNat = 0 := by omega
  have h3 : 0 ≤ L.item * ((L.num - min y.toNat L.num : Nat) : Int) := Int.mul_nonneg (by omega) (by omega)
  rw [h0, ht]
  have h4 : L.item * ((L.num : Int) + 1) ≤ L.item * x := Int.mul_le_mul_of_nonneg_left hf2 (by omega)
  rw [Int.mul_add] at h4
  refine ⟨rfl, ?_, ?_⟩ <;> omega

/-- **Not so for the length when the number of items changes.** Directly after an update that did
something and whose window does not contain the last item, setting another number of items does not
change the length of the list, nor anything else. -/
theorem virtual_setNum_length {L : Layout} {v : Port} (hh : 0 < L.item) (hv : 0 < L.visible) (hs : 0 < v.size)
    (hq : L.quiet v = false) (hn : (L.update v).stop < L.num) (n : Nat) :
    (L.update v).step (.setNum n v) = { L.update v with num := n } ∧
    ((L.update v).step (.setNum n v)).length = L.item * L.num := by
  have hf := floor_mul_le (v.r0 - 2 * v.size - v.top) hh
  have hc := le_ceil_mul (v.r1 + 2 * v.size - v.top) hh
  have hr : v.r1 = v.r0 + v.size := by simp [Port.size]; omega
  have hlen := (virtual_placed (v := v) hv hq).2
  have hle : (L.update v).start ≤ (L.update v).stop := by
    rw [update_pos v hv hq] at hn ⊢
    simp only at hn ⊢
    generalize (v.r0 - 2 * v.size - v.top) / L.item = x at *
    generalize -(-(v.r1 + 2 * v.size - v.top) / L.item) = y at *
    have : L.item * x ≤ L.item * y := by omega
    have := Int.le_of_mul_le_mul_left this hh
    omega
  have hquiet : ({ L.update v with num := n } : Layout).quiet v = true := by
    rw [quiet_iff]
    rw [update_pos v hv hq] at hn ⊢
    simp only [Layout.visible] at hn ⊢
    generalize (v.r0 - 2 * v.size - v.top) / L.item = x at *
    generalize -(-(v.r1 + 2 * v.size - v.top) / L.item) = y at *
    constructor
    · by_cases h0 : x.toNat = 0
      · exact .inr h0
      · left
        have : (x.toNat : Int) = x := by omega
        rw [this]; omega
    · left
      have hm : min y.toNat L.num = y.toNat := by omega
      rw [hm]
      have h1 : (y : Int) ≤ (x.toNat : Int) + ((y.toNat - x.toNat : Nat) : Int) := by omega
      have h2 := Int.mul_le_mul_of_nonneg_left h1 (by omega : 0 ≤ L.item)
      rw [Int.mul_add] at h2
      omega
  have hstep : (L.update v).step (.setNum n v) = { L.update v with num := n } := by
    rw [Layout.step, Layout.update, if_pos hquiet]
  rw [hstep]
  exact ⟨rfl, hlen hle⟩

/-! ## concrete cases -/

/-- 1000 items of 30 pixels in a root of 400: the first two updates; scrolled by 100; by 15000; the root
becomes twice as large; the number of items is set to 500 -/
def geoDemo : List LEvent :=
  [.setNum 1000 ⟨0, 0, 400⟩, .update ⟨0, 0, 400⟩, .update ⟨-100, 0, 400⟩, .update ⟨-15000, 0, 400⟩,
    .update ⟨-15000, 0, 800⟩, .setNum 600 ⟨-15000, 0, 800⟩]

example : (geoDemo.take 1).foldl Layout.step ⟨0, 0, 0, 30, 0, 0⟩ = ⟨0, 12, 1000, 30, 0, 98800⟩ := by decide
example : (geoDemo.take 2).foldl Layout.step ⟨0, 0, 0, 30, 0, 0⟩ = ⟨0, 40, 1000, 30, 0, 28800⟩ := by decide
example : (geoDemo.take 3).foldl Layout.step ⟨0, 0, 0, 30, 0, 0⟩ = ⟨0, 40, 1000, 30, 0, 28800⟩ := by decide
example : (geoDemo.take 4).foldl Layout.step ⟨0, 0, 0, 30, 0, 0⟩ = ⟨473, 540, 1000, 30, 14190, 13800⟩ := by decide
example : (geoDemo.take 5).foldl Layout.step ⟨0, 0, 0, 30, 0, 0⟩ = ⟨446, 580, 1000, 30, 13380, 12600⟩ := by decide
/-- the length stays that of 1000 items -/
example : (geoDemo.take 6).foldl Layout.step ⟨0, 0, 0, 30, 0, 0⟩ = ⟨446, 580, 600, 30, 13380, 12600⟩ := by decide

/-- hypotheses of `virtual_first`, `virtual_second` -/
example : (Layout.mk 0 0 1000 30 0 0).visible = 0 ∧ Port.size ⟨0, 0, 400⟩ = 4 * 100 ∧
    InReach 100 1000 ⟨0, 0, 400⟩ ∧ (Layout.mk 0 0 1000 30 0 0).quiet ⟨0, 0, 400⟩ = false := by
  refine ⟨by decide, by decide, ?_, by decide⟩
  unfold InReach; decide

/-- hypotheses of `virtual_in_view_partial` and `virtual_length_partial`, and an item in view -/
example : Reaches 30 1000 (geoDemo.drop 2) ∧ Placed ⟨0, 40, 1000, 30, 0, 28800⟩ ∧
    (Layout.mk 0 40 1000 30 0 28800).length = 30 * 1000 ∧ InView 30 ⟨-15000, 0, 800⟩ 510 := by
  refine ⟨?_, ?_, by decide, ?_⟩
  · simp only [geoDemo, List.drop, Reaches, InReach]; decide
  · unfold Placed; decide
  · unfold InView; decide

/-- hypotheses of `virtual_noGap`, `virtual_placed` and `virtual_few` -/
example : 0 < (Layout.mk 0 40 1000 30 0 28800).visible ∧ (Layout.mk 0 40 1000 30 0 28800).quiet ⟨-15000, 0, 400⟩ = false := by decide

/-- hypotheses of `virtual_past_end`: a jump to the end of the page, where the list is followed by
something long; 1000 items of 30 make 30000, the list becomes 49200 -/
example : (⟨-50000, 0, 400⟩ : Port).top + 30 * 1000 + 30 + 2 * Port.size ⟨-50000, 0, 400⟩ ≤ 0 ∧
    (Layout.mk 0 40 1000 30 0 28800).update ⟨-50000, 0, 400⟩ = ⟨1640, 1000, 1000, 30, 49200, 0⟩ := by decide

/-- hypotheses of `virtual_setNum_length` -/
example : (Layout.mk 0 12 1000 30 0 98800).quiet ⟨0, 0, 400⟩ = false ∧
    ((Layout.mk 0 12 1000 30 0 98800).update ⟨0, 0, 400⟩).stop < 1000 := by decide

end Verif.Lists
