import Verif.Lists.VirtualGeoProps
import Verif.Lists.VirtualProps
/-! # What is on the screen is in the document (C57) -/
namespace Verif.Lists
open Verif.Dom

def Layout.window (L : Layout) : Window := ⟨L.start, L.stop, L.num⟩

/-- The windows are those of C37. -/
theorem window_update (L : Layout) (v : Port) :
    (L.update v).window = L.window.next ((L.rects v).measure L.visible) := by
  have hw : L.quiet v = true ↔ (((L.rects v).measure L.visible).farFront = true ∨ L.window.start = 0) ∧
      (((L.rects v).measure L.visible).farBack = true ∨ L.window.stop = L.window.num) := by
    simp only [Layout.quiet, Layout.window, Bool.and_eq_true, Bool.or_eq_true, beq_iff_eq]
  cases hq : L.quiet v with
  | true => rw [Layout.update, if_pos hq, Window.next, if_pos (hw.1 hq)]
  | false =>
    rw [Layout.update, hq, if_neg (by simp), Window.next, if_neg (by rw [← hw, hq]; simp)]
    rfl

/-- **C57 in the document, partial.** After any history of the list as in C37, let the items be on the
screen where they would be if all were rendered. Then run an update with what is measured on the
screen, not further behind the end of the list than twice the root's size. Nothing panics, and every
item that would be in view if all were rendered is in the document. Missing: as for C37 and
`virtual_in_view_partial`. -/
theorem virtual_in_view_shown_partial {d : Dom} {frag ls le : NodeId} (hd : Proper d) (hf : d.kids frag = [])
    (hne : ls ≠ le) (ops : List VOp) (nodes : Nat → NodeId × NodeId) {L : Layout} {v : Port}
    (hw : ops.foldl vSpec ⟨0, 0, 0⟩ = L.window) (hh : 0 < L.item) (hv : 0 < L.visible) (hp : Placed L)
    (hs : 0 ≤ v.size) (hr : v.r0 - 2 * v.size ≤ v.top + L.item * L.num) :
    ∃ d0 L0, new d frag ls le = some (d0, L0) ∧
      (VAllowedRun ⟨⟨d0, L0⟩, 0, 0, 0⟩ ⟨0, 0, 0⟩ [] (ops ++ [.visible ((L.rects v).measure L.visible) nodes]) →
        ∃ V' l, Virtual.run ⟨⟨d0, L0⟩, 0, 0, 0⟩ (ops ++ [.visible ((L.rects v).measure L.visible) nodes]) = some V' ∧
          ShowsAmong V'.sys.dom V'.sys.list l (vGiven ops) ∧
          ∀ (k : Nat), k < L.num → InView L.item v k → k ∈ l.map Item.key) := by
  obtain ⟨d0, L0, h, hx⟩ := virtual_window_partial hd hf hne (ops ++ [.visible ((L.rects v).measure L.visible) nodes])
  refine ⟨d0, L0, h, fun ha => ?_⟩
  obtain ⟨V', l, e, hk, hsh⟩ := hx ha
  have hg : vGiven (ops ++ [.visible ((L.rects v).measure L.visible) nodes]) = vGiven ops := by
    clear hx ha e hk hsh hw
    induction ops with
    | nil => rfl
    | cons op ops ih =>
      rw [List.cons_append, vGiven_cons, vGiven_cons op ops, ih]
  rw [hg] at hsh
  refine ⟨V', l, e, hsh, fun k hkn hi => ?_⟩
  rw [hk, indices_eq, List.foldl_append, List.foldl_cons, List.foldl_nil, hw, mem_upTo]
  rw [vSpec, ← window_update]
  have hle : (L.update v).start ≤ (L.update v).stop := by
    cases hq : L.quiet v with
    | true => rw [Layout.update, if_pos hq]; simp only [Layout.visible] at hv; omega
    | false =>
      rw [update_pos v hv hq]
      have hf := floor_mul_le (v.r0 - 2 * v.size - v.top) hh
      have hc := le_ceil_mul (v.r1 + 2 * v.size - v.top) hh
      have hr1 : v.r1 = v.r0 + v.size := by simp [Port.size]; omega
      simp only
      generalize (v.r0 - 2 * v.size - v.top) / L.item = x at *
      generalize -(-(v.r1 + 2 * v.size - v.top) / L.item) = y at *
      have k1 : L.item * x ≤ L.item * y := by omega
      have k2 : L.item * x ≤ L.item * L.num := by omega
      have := Int.le_of_mul_le_mul_left k1 hh
      have := Int.le_of_mul_le_mul_left k2 hh
      omega
  obtain ⟨e1, e2⟩ := update_item L v
  exact inView_rendered (by omega) hs (virtual_noGap hh hv hs) (placed_update hv hp) hle k (by omega) (by rw [e1]; exact hi)

/-- hypotheses of `virtual_in_view_shown_partial`: the third step of `virtualDemo` -/
example : VAllowedRun ⟨fresh, 0, 0, 0⟩ ⟨0, 0, 0⟩ []
      (virtualDemo.take 2 ++ [.visible (((Layout.mk 0 12 100 100 0 8800).rects ⟨-5000, 0, 400⟩).measure 12) (seqMk 2000)]) ∧
    (virtualDemo.take 2).foldl vSpec ⟨0, 0, 0⟩ = (Layout.mk 0 12 100 100 0 8800).window ∧
    Placed ⟨0, 12, 100, 100, 0, 8800⟩ ∧ (0 : Int) - 2 * 400 ≤ -5000 + 100 * 100 ∧ InView 100 ⟨-5000, 0, 400⟩ 52 :=
  ⟨virtualDemo_allowed', by decide, by unfold Placed; decide, by decide, by unfold InView; decide⟩

end Verif.Lists
