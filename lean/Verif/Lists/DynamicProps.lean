import Verif.Lists.DynamicSteps3
import Verif.Lists.DynamicExample
/-!
# C33: DynamicList shows its items in list order

`Allowed` (`DynamicSystem.lean`) says what is asked of the calls. `dynamicList_in_order_partial`
leaves out three kinds of calls that the documentation allows. `swap_directly_before`,
`move_before_itself` and `missing_before_panics` show that the code is wrong for them.
-/
namespace Verif.Lists
open Verif.Dom

theorem good_step {s : Sys} {l : List Item} {left : List NodeId} (hg : Good s l left) {op : Op}
    (ha : Allowed s l op) :
    ∃ s', step s op = some (s', specAnswer l op) ∧ Good s' (specStep l op) (specLeft l left op) := by
  cases op with
  | insert k b x y => exact good_insert hg ha
  | remove k => exact good_remove hg k
  | moveBefore k b => exact good_move hg ha
  | swap a b => exact good_swap hg ha
  | retain p => exact good_retain hg p
  | render p a => obtain ⟨s', h1, h2, _⟩ := good_render hg ha; exact ⟨s', h1, h2⟩
  | unrender => obtain ⟨s', h1, h2, _⟩ := good_unrender hg ha; exact ⟨s', h1, h2⟩
  | content k ns => exact good_content hg ha
  | place c n r => exact good_place hg ha
  | vanish c n => exact good_vanish hg ha

theorem good_run (ops : List Op) : ∀ {s : Sys} {l : List Item} {left : List NodeId},
    Good s l left → AllowedRun s l ops →
    ∃ s', run s ops = some (s', (specRun l left ops).2.2) ∧
      Good s' (specRun l left ops).1 (specRun l left ops).2.1 := by
  induction ops with
  | nil => intro s l left hg _; exact ⟨s, rfl, hg⟩
  | cons op ops ih =>
    intro s l left hg ha
    obtain ⟨s1, h1, g1⟩ := good_step hg ha.1
    obtain ⟨s2, h2, g2⟩ := ih g1 (ha.2 s1 _ h1)
    refine ⟨s2, ?_, g2⟩
    simp only [run, h1, h2, bind, Option.bind, pure, specRun]

theorem Good.shows {s : Sys} {l : List Item} {left : List NodeId} (hg : Good s l left) :
    Shows s.dom s.list l left := by
  obtain ⟨pre, segs, post, h1, h2, _, h3⟩ := hg.geo
  exact ⟨pre, segs, post, by rw [h1]; simp [flat], h2, h3⟩

/-- **C33.** Start with a new list in any document. After any allowed history no call has panicked,
`insert` and `remove` have answered whether the key was there, `contains_key` tells which keys are
there, and the document shows the items of the plain list, in its order, each contiguous between its
markers, with nothing else between the markers of the list but content of removed items whose task
has not ended yet.

Missing: `swap(a, b)` with `a` directly before `b`, `move_before(k, Some(k))`, and a `before` key
that is not in the list. -/
theorem dynamicList_in_order_partial {d : Dom} {frag ls le : NodeId} (hd : Proper d)
    (hf : d.kids frag = []) (hne : ls ≠ le) (ops : List Op) :
    ∃ d0 L0, new d frag ls le = some (d0, L0) ∧
      (AllowedRun ⟨d0, L0⟩ [] ops →
        ∃ s', run ⟨d0, L0⟩ ops = some (s', (specRun [] [] ops).2.2) ∧
          Shows s'.dom s'.list (specRun [] [] ops).1 (specRun [] [] ops).2.1 ∧
          (∀ k, s'.list.containsKey k = true ↔ Has (specRun [] [] ops).1 k) ∧
          Proper s'.dom) := by
  obtain ⟨d0, L0, h, hg⟩ := good_new hd hf hne
  refine ⟨d0, L0, h, fun ha => ?_⟩
  obtain ⟨s', h1, g1⟩ := good_run ops hg ha
  refine ⟨s', h1, g1.shows, fun k => ?_, g1.proper⟩
  unfold DynList.containsKey
  rw [get_isSome g1.perm g1.keys]
  constructor
  · intro hs
    apply Classical.byContradiction
    intro hn
    rw [find_none.2 hn] at hs
    cases hs
  · intro hs
    cases hx : find k (specRun [] [] ops).1 with
    | some _ => rfl
    | none => exact absurd hs (find_none.1 hx)

/-- Once the tasks of removed items have ended, the children between the markers of the list are
exactly the items. -/
theorem shows_exact {d : Dom} {L : DynList} {l : List Item} {left : List NodeId}
    (h : Shows d L l left) (hl : ∀ n ∈ left, n ∉ d.kids L.container) :
    ∃ pre post, d.kids L.container = pre ++ [L.listStart] ++ l.flatMap Item.nodes ++ [L.listEnd] ++ post := by
  obtain ⟨pre, segs, post, h1, h2, h3⟩ := h
  refine ⟨pre, post, ?_⟩
  have hno : ∀ n, Seg.orphan n ∉ segs := by
    intro n hn
    apply hl n ((h3 n).1 hn)
    rw [h1]
    simp only [List.mem_append, List.mem_flatMap]
    exact Or.inl (Or.inl (Or.inr ⟨_, hn, by simp [Seg.nodes]⟩))
  rw [h1, ← h2]
  congr 3
  clear h1 h2 h3
  induction segs with
  | nil => rfl
  | cons g gs ih =>
    have ih' := ih (fun n hn => hno n (by simp [hn]))
    cases g with
    | orphan n => exact absurd (by simp) (hno n)
    | item x =>
      have e : List.filterMap Seg.item? (Seg.item x :: gs) = x :: List.filterMap Seg.item? gs := rfl
      rw [e, List.flatMap_cons, List.flatMap_cons, ih']
      rfl

/-- The nodes of the items are shown in order. -/
theorem showsAmong_sublist {d : Dom} {L : DynList} {l : List Item} {left : List NodeId}
    (h : ShowsAmong d L l left) : List.Sublist (l.flatMap Item.nodes) (d.kids L.container) := by
  obtain ⟨pre, segs, post, h1, h2, h3⟩ := h
  clear h3
  have : List.Sublist (l.flatMap Item.nodes) (segs.flatMap Seg.nodes) := by
    rw [← h2]
    clear h1 h2
    induction segs with
    | nil => exact List.Sublist.refl _
    | cons g gs ih =>
      cases g with
      | orphan n => exact ih.trans (List.sublist_cons_self _ _)
      | item x => exact List.Sublist.append_left ih x.nodes
  rw [h1]
  refine this.trans ?_
  simp only [List.append_assoc]
  refine List.Sublist.trans ?_ (List.sublist_append_right _ _)
  refine List.Sublist.trans ?_ (List.sublist_append_right _ _)
  exact List.sublist_append_left _ _

theorem shows_sublist {d : Dom} {L : DynList} {l : List Item} {left : List NodeId}
    (h : Shows d L l left) : List.Sublist (l.flatMap Item.nodes) (d.kids L.container) := by
  obtain ⟨pre, segs, post, h1, h2, h3⟩ := h
  exact showsAmong_sublist ⟨pre, segs, post, h1, h2, fun n => (h3 n).1⟩

/-- An item that was removed has no marker in the document any more. -/
theorem removed_markers_gone {s : Sys} {l : List Item} {left : List NodeId} (hg : Good s l left)
    {x : Item} (hx : x ∈ l) {s' : Sys} {a : Option Bool} (h : step s (.remove x.key) = some (s', a)) :
    Fresh s'.dom x.start ∧ Fresh s'.dom x.stop := by
  have hget := get_of_mem hg.perm hg.keys hx
  simp only [step, remove, hget, removeMarkers, Item.stored, bind, Option.bind] at h
  have hsub := (shows_sublist hg.shows).subset
  have hs : x.start ∈ s.dom.kids s.list.container :=
    hsub (List.mem_flatMap.2 ⟨x, hx, by simp [Item.nodes]⟩)
  have he : x.stop ∈ s.dom.kids s.list.container :=
    hsub (List.mem_flatMap.2 ⟨x, hx, by simp [Item.nodes]⟩)
  obtain ⟨d1, e1, k1, f1⟩ := removeChild_kids hs
  rw [e1] at h
  simp only at h
  cases e2 : d1.removeChild s.list.container x.stop with
  | none => rw [e2] at h; cases h
  | some d2 =>
    rw [e2] at h
    simp only [pure, Option.map_some, Option.some.injEq, Prod.mk.injEq] at h
    obtain ⟨rfl, _⟩ := h
    have hm : x.stop ∈ d1.kids s.list.container := by
      apply Classical.byContradiction
      intro hn
      simp only [Dom.removeChild, if_neg hn] at e2
      cases e2
    obtain ⟨d2', e2', k2, f2⟩ := removeChild_kids hm
    rw [e2] at e2'
    cases e2'
    have key : ∀ n c, n = x.start ∨ n = x.stop → n ∉ d2.kids c := by
      intro n c hn hc
      by_cases hcc : c = s.list.container
      · subst hcc
        rw [k2, List.mem_filter, k1, List.mem_filter] at hc
        simp only [bne_iff_ne, ne_eq] at hc
        rcases hn with h | h
        · exact hc.1.2 h
        · exact hc.2 h
      · rw [f2 c hcc, f1 c hcc] at hc
        refine hcc (hg.proper.2 _ _ _ hc ?_)
        rcases hn with h | h <;> rw [h] <;> assumption
    exact ⟨fun c => key _ c (Or.inl rfl), fun c => key _ c (Or.inr rfl)⟩

/-! ## a concrete history

`DynamicExample.lean` has `sample`, its result and the proof that it is allowed. -/

example : ∃ s', run fresh sample = some (s', (specRun [] [] sample).2.2) ∧
    Shows s'.dom s'.list (specRun [] [] sample).1 (specRun [] [] sample).2.1 := by
  obtain ⟨d0, L0, h, hr⟩ := dynamicList_in_order_partial (frag := 100) (ls := 1) (le := 2)
    proper_blank rfl (by decide) sample
  rw [new_blank] at h
  cases h
  obtain ⟨s', h1, h2, _⟩ := hr sample_allowed
  exact ⟨s', h1, h2⟩

example : (specRun [] [] sample).1 = [⟨8, 17, 18, []⟩, ⟨9, 15, 16, []⟩] ∧
    (specRun [] [] sample).2.1 = [50, 51] := by decide

/-! ## what goes wrong -/

/-- two items that show nothing -/
def twoItems : List Op := [.insert 7 none 11 12, .insert 8 none 13 14]

/-- `swap(a, b)` with `a` directly before `b` does not swap them: it turns the markers of `b` around.
After that, moving `b` panics. -/
theorem swap_directly_before :
    ∃ s s', run fresh twoItems = some (s, [some false, some false]) ∧
      Has (specRun [] [] twoItems).1 7 ∧ Has (specRun [] [] twoItems).1 8 ∧
      step s (.swap 7 8) = some (s', none) ∧
      s'.dom.kids 100 = [1, 11, 12, 14, 13, 2] ∧
      (∀ left, ¬ Shows s'.dom s'.list (specSwap 7 8 (specRun [] [] twoItems).1) left) ∧
      step s' (.moveBefore 8 none) = none := by
  refine ⟨_, _, rfl, ⟨⟨7, 11, 12, []⟩, by decide, rfl⟩, ⟨⟨8, 13, 14, []⟩, by decide, rfl⟩, rfl, by decide, ?_, by decide⟩
  intro left h
  have := shows_sublist h
  revert this
  decide

/-- `move_before(k, Some(k))` should leave the item where it is. It turns its markers around; after
that, moving it again panics. -/
theorem move_before_itself :
    ∃ s s', run fresh twoItems = some (s, [some false, some false]) ∧
      step s (.moveBefore 8 (some 8)) = some (s', none) ∧
      s'.dom.kids 100 = [1, 11, 12, 14, 13, 2] ∧
      (∀ left, ¬ Shows s'.dom s'.list (specRun [] [] twoItems).1 left) ∧
      step s' (.moveBefore 8 none) = none := by
  refine ⟨_, _, rfl, rfl, by decide, ?_, by decide⟩
  intro left h
  have := shows_sublist h
  revert this
  decide

/-- A `before` key that is not in the list makes `insert` and `move_before` panic. The documentation
says that the item goes to the end. -/
theorem missing_before_panics {s : Sys} {l : List Item} {left : List NodeId} (hg : Good s l left)
    {b : Key} (hb : ¬ Has l b) (k : Key) (start stop : NodeId) :
    step s (.insert k (some b) start stop) = none ∧ step s (.moveBefore k (some b)) = none := by
  have h := get_none hg.perm hb
  constructor
  · simp only [step, insert, DynList.after, h, Option.map_none, bind, Option.bind]
  · simp only [step, moveBefore, DynList.after, h, Option.map_none, bind, Option.bind]

example : ∃ s, run fresh twoItems = some (s, [some false, some false]) ∧
    step s (.insert 9 (some 5) 15 16) = none := ⟨_, rfl, by decide⟩

end Verif.Lists
