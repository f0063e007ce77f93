import Mathlib.Logic.Function.Basic
import Verif.Live.Inv
/-!
# Apps that wait for several things

Any number of sources (`Verif.Live.Model`) together: an operation is one of one of them. The wakers of the app are
numbered for all of them together.

There is no code of its own in the repository for this file.
-/
namespace Verif.Live
open Verif

section
variable {ι : Type} [DecidableEq ι] {Z : ι → Source}

/-- Several sources. What can be observed of an operation is which source it was done to, the operation, and what
could be observed of it there. -/
abbrev Source.family (Z : ι → Source) : Source where
  σ := ∀ i, (Z i).σ
  Op := Σ i, (Z i).Op
  Out := Σ i, (Z i).Op × (Z i).Out
  step s o := match (Z o.1).step (s o.1) o.2 with
    | some (t, out) => some (Function.update s o.1 t, ⟨o.1, o.2, out⟩)
    | none => none
  wakes out := (Z out.1).wakes out.2.2
  Key := Σ i, (Z i).Key
  dec := letI := fun i => (Z i).dec; inferInstance
  polls _ out := ((Z out.1).polls out.2.1 out.2.2).map fun x => (⟨out.1, x.1⟩, x.2)
  drops o := ((Z o.1).drops o.2).map fun k => ⟨o.1, k⟩

/-- If it was an operation on the source `i`, the operation. -/
def only (Z : ι → Source) (i : ι) (e : (Source.family Z).Op × (Source.family Z).Out) : Option ((Z i).Op × (Z i).Out) :=
  if h : e.2.1 = i then some (h ▸ e.2.2) else none

/-- The part of a history that is about the source `i`. -/
def part (Z : ι → Source) (i : ι) (h : List ((Source.family Z).Op × (Source.family Z).Out)) :
    List ((Z i).Op × (Z i).Out) :=
  h.filterMap (only Z i)

theorem only_self (i : ι) (o : (Source.family Z).Op) (op : (Z i).Op) (out : (Z i).Out) :
    only Z i (o, ⟨i, op, out⟩) = some (op, out) := by simp [only]

theorem only_ne {i j : ι} (hne : j ≠ i) (o : (Source.family Z).Op) (x : (Z j).Op × (Z j).Out) :
    only Z i (o, ⟨j, x⟩) = none := by simp [only, hne]

theorem only_some {i : ι} {e : (Source.family Z).Op × (Source.family Z).Out} {x : (Z i).Op × (Z i).Out}
    (h : only Z i e = some x) : e.2 = ⟨i, x⟩ := by
  obtain ⟨o, j, y⟩ := e
  by_cases hj : j = i
  · subst hj
    simp only [only, dite_true, Option.some.injEq] at h
    subst h; rfl
  · rw [only_ne hj] at h; cases h

/-- Every source has a history of its own. -/
theorem part_hist {s0 s : (Source.family Z).σ} {h : List ((Source.family Z).Op × (Source.family Z).Out)}
    (hh : Hist (Source.family Z) s0 h s) (i : ι) :
    Hist (Z i) (s0 i) (part Z i h) (s i) ∧ ∀ e ∈ h, ∃ j op out, e = (⟨j, op⟩, ⟨j, op, out⟩) := by
  induction hh with
  | nil => exact ⟨.nil _, by simp⟩
  | snoc _ hs ih =>
    rename_i h s1 o out s2 _
    obtain ⟨j, op⟩ := o
    simp only [Source.family] at hs
    cases hz : (Z j).step (s1 j) op with
    | none => rw [hz] at hs; cases hs
    | some x =>
      obtain ⟨t, o'⟩ := x
      rw [hz] at hs
      simp only [Option.some.injEq, Prod.mk.injEq] at hs
      obtain ⟨rfl, rfl⟩ := hs
      refine ⟨?_, ?_⟩
      · simp only [part, List.filterMap_append, List.filterMap_cons, List.filterMap_nil]
        by_cases hj : j = i
        · subst hj
          rw [only_self]
          simp only [Function.update_self]
          exact .snoc ih.1 hz
        · rw [only_ne hj]
          simp only [List.append_nil, Function.update_of_ne (Ne.symm hj)]
          exact ih.1
      · intro e he
        rcases List.mem_append.1 he with he | he
        · exact ih.2 e he
        · simp only [List.mem_singleton] at he
          exact ⟨j, op, o', he⟩

/-- A future of one of several sources that has not been woken has not been woken by its own source. -/
theorem told_part {s0 s : (Source.family Z).σ} {h : List ((Source.family Z).Op × (Source.family Z).Out)} {i : ι}
    {k : (Z i).Key} (ht : Told (Source.family Z) s0 h s ⟨i, k⟩) : Told (Z i) (s0 i) (part Z i h) (s i) k := by
  obtain ⟨n, pre, mid, o, out, rfl, hp, hist, hmid, hwk⟩ := ht
  obtain ⟨h1, h2⟩ := part_hist hist i
  obtain ⟨j, op, out', heq⟩ := h2 _ (List.mem_append_right _ (.head _))
  cases heq
  simp only [Option.map_eq_some_iff, Prod.mk.injEq] at hp
  obtain ⟨⟨k', n'⟩, hp, hk, rfl⟩ := hp
  cases hk
  refine ⟨n', part Z i pre, part Z i mid, op, out', ?_, hp, h1, ?_, ?_⟩
  · simp only [part, List.filterMap_append]
    rw [List.filterMap_cons_some (only_self i _ op out')]
  · intro e he
    obtain ⟨e', he', hx⟩ := List.mem_filterMap.1 he
    obtain ⟨h3, h4⟩ := hmid e' he'
    obtain ⟨j', op', out'', heq⟩ := h2 _ (List.mem_append_right _ (.tail _ he'))
    subst heq
    have := only_some hx
    cases this
    refine ⟨fun m hm => h3 m ?_, fun hn hd => h4 ?_ ?_⟩
    · simp only [Source.family, hm, Option.map_some]
    · simp only [Source.family, hn, Option.map_none]
    · simp only [Source.family, hd, Option.map_some]
  · intro e he hm
    obtain ⟨e', he', hx⟩ := List.mem_filterMap.1 he
    have := only_some hx
    refine hwk e' he' ?_
    simp only [Source.family]
    rw [this]
    exact hm

end
end Verif.Live
