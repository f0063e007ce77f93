import Verif.Lists.VirtualLemmas
/-!
# What is on the screen (C57)

The window of a VirtualizedList and the place where the root is, for items of one size.
-/
namespace Verif.Lists
open Verif.Dom

/-! ## what the user expects -/

/-- No spacer that stands for items is closer to the visible part of the root than 5/4 of the root's
size. -/
def NoGap (L : Layout) (v : Port) : Prop :=
  (L.start = 0 ∨ 4 * (v.top + L.front) + 5 * v.size ≤ 4 * v.r0) ∧
  (L.stop = L.num ∨ 4 * v.r1 + 5 * v.size ≤ 4 * (v.top + L.front + L.item * L.visible))

/-- The items are where they would be if all of them were rendered. -/
def Placed (L : Layout) : Prop := L.front = L.item * L.start

/-- The length of the list. -/
def Layout.length (L : Layout) : Int := L.front + L.item * L.visible + L.back

/-- Item `k` of a list of which all items are rendered would be in the visible part of the root. -/
def InView (item : Int) (v : Port) (k : Nat) : Prop :=
  v.r0 < v.top + item * (k + 1) ∧ v.top + item * k < v.r1

/-! ## arithmetic -/

theorem quiet_iff (L : Layout) (v : Port) : L.quiet v = true ↔
    (4 * (v.top + L.front) + 5 * v.size < 4 * v.r0 ∨ L.start = 0) ∧
    (4 * (v.top + L.front + L.item * L.visible) - 5 * v.size > 4 * v.r1 ∨ L.stop = L.num) := by
  simp only [Layout.quiet, Rects.measure, Layout.rects, Port.size, Bool.and_eq_true, Bool.or_eq_true,
    beq_iff_eq]
  exact ⟨fun ⟨h1, h2⟩ => ⟨h1.imp of_decide_eq_true id, h2.imp of_decide_eq_true id⟩,
    fun ⟨h1, h2⟩ => ⟨h1.imp decide_eq_true id, h2.imp decide_eq_true id⟩⟩

theorem avg_pos {L : Layout} (v : Port) (hv : 0 < L.visible) :
    (L.rects v).avg L.visible = (L.item * L.visible, (L.visible : Int)) := by
  simp only [Rects.avg, Layout.rects, if_pos hv, Prod.mk.injEq, and_true]
  omega

/-- The window computed from a window that is not empty. -/
theorem measure_pos {L : Layout} (v : Port) (hv : 0 < L.visible) :
    ((L.rects v).measure L.visible).newStart = ((v.r0 - 2 * v.size - v.top) / L.item).toNat ∧
    ((L.rects v).measure L.visible).newEnd = (-(-(v.r1 + 2 * v.size - v.top) / L.item)).toNat := by
  have hq : (0 : Int) < L.visible := by omega
  simp only [Rects.measure, avg_pos v hv]
  simp only [Layout.rects, Port.size]
  rw [Int.mul_ediv_mul_of_pos_left _ _ hq, ← Int.neg_mul, Int.mul_ediv_mul_of_pos_left _ _ hq]
  exact ⟨rfl, rfl⟩

/-- An update of a window that is not empty. -/
theorem update_pos {L : Layout} (v : Port) (hv : 0 < L.visible) (hq : L.quiet v = false) :
    L.update v =
      { L with
        start := ((v.r0 - 2 * v.size - v.top) / L.item).toNat
        stop := min (-(-(v.r1 + 2 * v.size - v.top) / L.item)).toNat L.num
        front := L.item * ((v.r0 - 2 * v.size - v.top) / L.item).toNat
        back := L.item * (L.num - min (-(-(v.r1 + 2 * v.size - v.top) / L.item)).toNat L.num : Nat) } := by
  have hq' : (L.visible : Int) ≠ 0 := by omega
  obtain ⟨h1, h2⟩ := measure_pos v hv
  simp only [Layout.update, hq, Bool.false_eq_true, if_false, h1, h2, avg_pos v hv]
  rw [Int.mul_right_comm, Int.mul_ediv_cancel _ hq', Int.mul_right_comm, Int.mul_ediv_cancel _ hq']

theorem floor_mul_le (x : Int) {h : Int} (hh : 0 < h) : h * (x / h) ≤ x := Int.mul_ediv_self_le (by omega)
theorem lt_floor_mul (x : Int) {h : Int} (hh : 0 < h) : x < h * (x / h) + h := Int.lt_mul_ediv_self_add hh
theorem le_ceil_mul (x : Int) {h : Int} (hh : 0 < h) : x ≤ h * -(-x / h) := by
  have := floor_mul_le (-x) hh
  rw [Int.mul_neg]; omega
theorem ceil_mul_lt (x : Int) {h : Int} (hh : 0 < h) : h * -(-x / h) < x + h := by
  have := lt_floor_mul (-x) hh
  rw [Int.mul_neg]; omega

end Verif.Lists
