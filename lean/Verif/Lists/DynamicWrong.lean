import Verif.Lists.DynamicProps
import Verif.Lists.Calls
/-!
# The calls that C33 leaves out

After any allowed history: what the calls do that `dynamicList_in_order_partial` does not allow.
-/
namespace Verif.Lists
open Verif.Dom

/-- a block moved before its own first node -/
theorem geo_self {d : Dom} {c ls le : NodeId} {pre post : List NodeId} {S1 S2 : List Seg} {x : Item}
    (hg : Geo d c ls le pre (S1 ++ .item x :: S2) post) (hp : Proper d) :
    ∃ d', moveNodes d c c x.start x.stop (some x.start) = some d' ∧
      d'.kids c = (pre ++ ls :: flat S1) ++ (x.content ++ [x.stop]) ++ x.start :: (flat S2 ++ le :: post) ∧ (d'.kids c).Nodup := by
  have hk : d.kids c = (pre ++ ls :: flat S1) ++ x.start :: (x.content ++ [x.stop] ++ (flat S2 ++ le :: post)) := by
    rw [hg]; simp [flat, Seg.nodes, Item.nodes]
  have hnd := hp.1 c
  have hmem : x.start ∈ d.kids c := by rw [hk]; simp
  obtain ⟨m, rest, hb⟩ : ∃ m rest, x.content ++ [x.stop] = m :: rest := by
    cases h : x.content with
    | nil => exact ⟨_, _, rfl⟩
    | cons a as => exact ⟨_, _, rfl⟩
  have hnot : x.start ∉ pre ++ ls :: flat S1 := by
    rw [hk, List.nodup_append] at hnd
    exact fun h => hnd.2.2 _ h _ (by simp) rfl
  have hne : x.start ≠ x.stop := by
    rw [hk, List.nodup_append, List.nodup_cons] at hnd
    intro e
    exact hnd.2.1.1 (by rw [e]; simp)
  have hnext : nextIn x.start (d.kids c) = some m := by
    rw [hk, nextIn_split hnot, hb]; rfl
  have hlen : (x.content ++ [x.stop]).length ≤ (d.kids c).length := by rw [hk]; simp; omega
  obtain ⟨d', h1, h2, -⟩ := moveLoop_left (c := c) (r := x.start) (stop := x.stop) (x.content ++ [x.stop])
    (d.kids c).length d (pre ++ ls :: flat S1) [] [] (flat S2 ++ le :: post) m rest hb
    (by rw [hk]; simp) hnd (by simp) hlen
  have h3 : d'.kids c = (pre ++ ls :: flat S1) ++ (x.content ++ [x.stop]) ++ x.start :: (flat S2 ++ le :: post) := by
    rw [h2]; simp
  refine ⟨d', ?_, h3, ?_⟩
  rotate_left
  · rw [h3]
    rw [hk] at hnd
    refine (List.Perm.nodup_iff ?_).1 hnd
    rw [List.append_assoc (pre ++ ls :: flat S1)]
    exact List.Perm.append_left _ List.perm_middle.symm
  unfold moveNodes
  simp only [moveLoop, hnext, Dom.insertBefore, if_pos hmem, if_true, Option.bind_eq_bind, Option.bind_some, if_neg hne]
  exact h1

/-- an item whose markers have been turned around is not shown -/
theorem not_shows {d : Dom} {L : DynList} {l : List Item} {left A M B : List NodeId} {x : Item} (hx : x ∈ l)
    (hk : d.kids L.container = A ++ M ++ x.start :: B) (hm : x.stop ∈ M) (hnd : (d.kids L.container).Nodup) :
    ¬ Shows d L l left := by
  intro h
  have hs := shows_sublist h
  have h1 : List.Sublist [x.start, x.stop] (l.flatMap Item.nodes) := by
    obtain ⟨l1, l2, rfl⟩ := List.append_of_mem hx
    rw [List.flatMap_append, List.flatMap_cons]
    refine List.Sublist.trans ?_ (List.sublist_append_right _ _)
    refine List.Sublist.trans ?_ (List.sublist_append_left _ _)
    exact (List.singleton_sublist.2 (by simp)).cons_cons _
  have h2 := h1.trans hs
  obtain ⟨M1, M2, rfl⟩ := List.append_of_mem hm
  rw [hk] at h2 hnd
  have e : A ++ (M1 ++ x.stop :: M2) ++ x.start :: B = (A ++ M1) ++ x.stop :: (M2 ++ x.start :: B) := by simp
  rw [e] at h2 hnd
  rw [List.nodup_append, List.nodup_cons] at hnd
  obtain ⟨n1, ⟨n2, n3⟩, n4⟩ := hnd
  have h3 : x.stop ∈ M2 ++ x.start :: B ∨ x.start ∈ A ++ M1 := by
    rw [List.sublist_append_iff] at h2
    obtain ⟨u, v, e1, s1, s2⟩ := h2
    cases u with
    | nil =>
      simp only [List.nil_append] at e1
      subst e1
      have s3 := s2.tail
      exact Or.inl (s3.subset (by simp))
    | cons a u =>
      simp only [List.cons_append, List.cons.injEq] at e1
      exact Or.inr (s1.subset (by simp [← e1.1]))
  rcases h3 with h3 | h3
  · exact n2 h3
  · exact n4 _ h3 x.start (by simp) rfl

/-- **C33, missing case 1.** After any allowed history, `move_before(k, Some(k))` on an item of the list does
not leave it where it is: the document does not show the items any more. -/
theorem move_before_itself_breaks {d : Dom} {frag ls le : NodeId} (hd : Proper d) (hf : d.kids frag = [])
    (hne : ls ≠ le) (ops : List Op) :
    ∃ d0 L0, new d frag ls le = some (d0, L0) ∧
      (AllowedRun ⟨d0, L0⟩ [] ops → ∃ s1, run ⟨d0, L0⟩ ops = some (s1, (specRun [] [] ops).2.2) ∧
        ∀ k, Has (specRun [] [] ops).1 k → ∃ s2, step s1 (.moveBefore k (some k)) = some (s2, none) ∧
          ∀ left, ¬ Shows s2.dom s2.list (specRun [] [] ops).1 left) := by
  obtain ⟨d0, L0, h, hg⟩ := good_new hd hf hne
  refine ⟨d0, L0, h, fun ha => ?_⟩
  obtain ⟨s1, h1, g1⟩ := good_run ops hg ha
  refine ⟨s1, h1, ?_⟩
  rintro k ⟨x, hx, rfl⟩
  have hget := get_of_mem g1.perm g1.keys hx
  obtain ⟨pre, segs, post, hgeo, hit, -, -⟩ := g1.geo
  rw [← hit] at hx
  obtain ⟨J1, J2, e⟩ := List.append_of_mem hx
  obtain ⟨S1, S2, rfl, -, -⟩ := segs_split e
  obtain ⟨d', e1, k1, n1⟩ := geo_self hgeo g1.proper
  refine ⟨⟨d', s1.list⟩, ?_, fun left => ?_⟩
  · simp only [step, moveBefore, DynList.after, hget, Item.stored, bind, Option.bind, Option.map_some, e1]
  · refine not_shows (x := x) (M := x.content ++ [x.stop]) (by rw [← hit]; exact hx) k1 (by simp) n1

/-- **C33, missing case 2.** After any allowed history that leaves no node of a removed item behind, `swap(a, b)`
with `a` directly before `b` does not swap them: the document shows neither the swapped list nor the old one. -/
theorem swap_directly_before_breaks {d : Dom} {frag ls le : NodeId} (hd : Proper d) (hf : d.kids frag = [])
    (hne : ls ≠ le) (ops : List Op) :
    ∃ d0 L0, new d frag ls le = some (d0, L0) ∧
      (AllowedRun ⟨d0, L0⟩ [] ops → ∃ s1, run ⟨d0, L0⟩ ops = some (s1, (specRun [] [] ops).2.2) ∧
        ((specRun [] [] ops).2.1 = [] → ∀ a b, directlyBefore a b (specRun [] [] ops).1 →
          ∃ s2, step s1 (.swap a b) = some (s2, none) ∧
            ∀ left, ¬ Shows s2.dom s2.list (specSwap a b (specRun [] [] ops).1) left ∧
              ¬ Shows s2.dom s2.list (specRun [] [] ops).1 left)) := by
  obtain ⟨d0, L0, h, hg⟩ := good_new hd hf hne
  refine ⟨d0, L0, h, fun ha => ?_⟩
  obtain ⟨s1, h1, g1⟩ := good_run ops hg ha
  refine ⟨s1, h1, ?_⟩
  intro hleft a b hab
  obtain ⟨p, q, hpq⟩ := hab
  obtain ⟨l1, I3, hl, h2, rfl⟩ := List.map_eq_append_iff.1 hpq.symm
  obtain ⟨I1, l2, rfl, rfl, h3⟩ := List.map_eq_append_iff.1 h2
  obtain ⟨x, l3, rfl, rfl, h4⟩ := List.map_eq_cons_iff.1 h3
  obtain ⟨y, l4, rfl, rfl, h5⟩ := List.map_eq_cons_iff.1 h4
  obtain rfl := List.map_eq_nil_iff.1 h5
  have hl' : (specRun [] [] ops).1 = I1 ++ x :: y :: I3 := by rw [hl]; simp
  generalize (specRun [] [] ops).1 = l at *
  subst hl'
  have hkeys := g1.keys
  have hne' : x.key ≠ y.key := by
    intro e
    rw [List.map_append, List.nodup_append, List.map_cons, List.nodup_cons] at hkeys
    exact hkeys.2.1.1 (by simp [e])
  have hgx := get_of_mem g1.perm g1.keys (x := x) (by simp)
  have hgy := get_of_mem g1.perm g1.keys (x := y) (by simp)
  obtain ⟨pre, segs, post, hgeo, hit, -, hor⟩ := g1.geo
  obtain ⟨S1, T, rfl, hS1, hT⟩ := segs_split hit
  obtain ⟨S2, S3, rfl, hS2, hS3⟩ := segs_split (I1 := []) hT
  have hS2' : S2 = [] := by
    cases S2 with
    | nil => rfl
    | cons z zs =>
      cases z with
      | item z => rw [itemsOf_item] at hS2; cases hS2
      | orphan n =>
        have := (hor n).1 (by simp)
        rw [hleft] at this
        cases this
  subst hS2'
  have hnext : nextIn x.stop (s1.dom.kids s1.list.container) = some y.start := by
    have hk : s1.dom.kids s1.list.container =
        (pre ++ s1.list.listStart :: (flat S1 ++ x.start :: x.content)) ++ x.stop ::
          (flat (Seg.item y :: S3) ++ s1.list.listEnd :: post) := by
      rw [hgeo]; simp [flat, Seg.nodes, Item.nodes]
    have hnd := g1.proper.1 s1.list.container
    rw [hk, List.nodup_append] at hnd
    rw [hk, nextIn_split (fun h => hnd.2.2 _ h _ (by simp) rfl)]
    simp [flat, Seg.nodes, Item.nodes]
  obtain ⟨d1, e1, gd1, -, p1⟩ := geo_right (S2 := []) (S3 := .item y :: S3) (r := y.start) hgeo g1.proper
    (by simp [flat, Seg.nodes, Item.nodes])
  have gd1' : Geo d1 s1.list.container s1.list.listStart s1.list.listEnd pre
      ((S1 ++ [.item x]) ++ .item y :: S3) post := by
    have : S1 ++ [] ++ Seg.item x :: Seg.item y :: S3 = (S1 ++ [.item x]) ++ .item y :: S3 := by simp
    rw [← this]; exact gd1
  obtain ⟨d2, e2, k2, hnd⟩ := geo_self gd1' p1
  refine ⟨⟨d2, s1.list⟩, ?_, fun left => ⟨?_, ?_⟩⟩
  · simp only [step, swap, hgx, hgy, Item.stored, bind, Option.bind, if_neg hne', hnext, e1, e2, Option.map_some]
  · refine not_shows (x := y) (M := y.content ++ [y.stop]) ?_ k2 (by simp) hnd
    rw [List.map_append, List.nodup_append, List.map_cons, List.nodup_cons] at hkeys
    have hfx : find x.key (I1 ++ x :: y :: I3) = some x := by
      refine find_split rfl fun z hz e => hkeys.2.2 z.key (List.mem_map_of_mem hz) x.key (by simp) e
    have hfy : find y.key (I1 ++ x :: y :: I3) = some y := by
      have e : I1 ++ x :: y :: I3 = (I1 ++ [x]) ++ y :: I3 := by simp
      rw [e]
      refine find_split rfl fun z hz e => ?_
      rcases List.mem_append.1 hz with hz | hz
      · exact hkeys.2.2 z.key (List.mem_map_of_mem hz) y.key (by simp) e
      · rw [List.mem_singleton.1 hz] at e
        exact hne' e
    unfold specSwap
    rw [hfx, hfy]
    exact List.mem_map.2 ⟨x, by simp, by simp⟩
  · exact not_shows (x := y) (M := y.content ++ [y.stop]) (by simp) k2 (by simp) hnd

/-- **C33, missing case 3.** After any allowed history, a `before` key that is not in the list makes `insert` and
`move_before` panic. The documentation says that the item goes to the end. A key to move or to swap that is not
in the list makes them panic, as documented. -/
theorem missing_key_panics {d : Dom} {frag ls le : NodeId} (hd : Proper d) (hf : d.kids frag = [])
    (hne : ls ≠ le) (ops : List Op) :
    ∃ d0 L0, new d frag ls le = some (d0, L0) ∧
      (AllowedRun ⟨d0, L0⟩ [] ops → ∃ s1, run ⟨d0, L0⟩ ops = some (s1, (specRun [] [] ops).2.2) ∧
        ∀ k, ¬ Has (specRun [] [] ops).1 k →
          (∀ k' x y, step s1 (.insert k' (some k) x y) = none) ∧ (∀ k', step s1 (.moveBefore k' (some k)) = none) ∧
          (∀ b, step s1 (.moveBefore k b) = none) ∧
          (∀ k', step s1 (.swap k k') = none ∧ step s1 (.swap k' k) = none)) := by
  obtain ⟨d0, L0, h, hg⟩ := good_new hd hf hne
  refine ⟨d0, L0, h, fun ha => ?_⟩
  obtain ⟨s1, h1, g1⟩ := good_run ops hg ha
  refine ⟨s1, h1, ?_⟩
  intro k hk
  have hn := get_none g1.perm hk
  refine ⟨fun k' x y => (missing_before_panics g1 hk k' x y).1, fun k' => (missing_before_panics g1 hk k' 0 0).2, ?_, ?_⟩
  · intro b
    simp only [step, moveBefore, hn, bind]
    cases s1.list.after b <;> rfl
  · intro k'
    refine ⟨by simp only [step, swap, hn, bind]; rfl, ?_⟩
    simp only [step, swap, hn, bind]
    cases s1.list.get k' <;> rfl

/-- **C33, removal.** After any allowed history, removing an item that is in the list takes its two markers out
of the document. -/
theorem removed_item_unmarked {d : Dom} {frag ls le : NodeId} (hd : Proper d) (hf : d.kids frag = [])
    (hne : ls ≠ le) (ops : List Op) :
    ∃ d0 L0, new d frag ls le = some (d0, L0) ∧
      (AllowedRun ⟨d0, L0⟩ [] ops → ∃ s1, run ⟨d0, L0⟩ ops = some (s1, (specRun [] [] ops).2.2) ∧
        ∀ x ∈ (specRun [] [] ops).1, ∃ s2, step s1 (.remove x.key) = some (s2, some true) ∧
          ∀ c, x.start ∉ s2.dom.kids c ∧ x.stop ∉ s2.dom.kids c) := by
  obtain ⟨d0, L0, h, hg⟩ := good_new hd hf hne
  refine ⟨d0, L0, h, fun ha => ?_⟩
  obtain ⟨s1, h1, g1⟩ := good_run ops hg ha
  refine ⟨s1, h1, fun x hx => ?_⟩
  obtain ⟨s2, e2, -⟩ := good_step g1 (op := .remove x.key) trivial
  have hans : specAnswer (specRun [] [] ops).1 (.remove x.key) = some true := by
    simp only [specAnswer, Option.some.injEq]
    cases hfx : find x.key (specRun [] [] ops).1 with
    | none => exact absurd ⟨x, hx, rfl⟩ (find_none.1 hfx)
    | some y => rfl
  rw [hans] at e2
  have := removed_markers_gone g1 hx e2
  exact ⟨s2, e2, fun c => ⟨this.1 c, this.2 c⟩⟩

/-! ## a list is rendered in one place at a time -/

/-- Is the list rendered after a step? -/
def renderedNext (r : Bool) : Op → Bool
  | .render _ _ => true
  | .unrender => false
  | _ => r

/-- The list is rendered after these steps. -/
def renderedAfter (ops : List Op) : Bool := ops.foldl renderedNext false

theorem step_container {s s' : Sys} {l : List Item} {op : Op} {a : Option Bool} {r : Bool} (ha : Allowed s l op)
    (h : step s op = some (s', a)) (hr : r = true ↔ s.list.container ≠ s.list.frag) :
    (renderedNext r op = true ↔ s'.list.container ≠ s'.list.frag) ∧ s'.list.frag = s.list.frag := by
  cases op with
  | insert k b x y =>
    simp only [step, Verif.Lists.insert, Option.map_eq_some_iff, Option.bind_eq_bind, Option.bind_eq_some_iff] at h
    obtain ⟨r, ⟨af, -, d1, -, d2, -, h⟩, he⟩ := h
    split at h
    · obtain ⟨d3, -, h⟩ := Option.bind_eq_some_iff.1 h
      simp only [pure, Option.some.injEq] at h
      subst h; cases he; exact ⟨hr, rfl⟩
    · simp only [pure, Option.some.injEq] at h
      subst h; cases he; exact ⟨hr, rfl⟩
  | remove k =>
    simp only [step, remove, Option.map_eq_some_iff] at h
    obtain ⟨r, h, he⟩ := h
    split at h
    · simp only [Option.bind_eq_bind, Option.bind_eq_some_iff, pure, Option.some.injEq] at h
      obtain ⟨d1, -, h⟩ := h
      subst h; cases he; exact ⟨hr, rfl⟩
    · cases h; cases he; exact ⟨hr, rfl⟩
  | moveBefore k b =>
    simp only [step, Option.map_eq_some_iff] at h
    obtain ⟨d, -, he⟩ := h
    cases he; exact ⟨hr, rfl⟩
  | swap a b =>
    simp only [step, Option.map_eq_some_iff] at h
    obtain ⟨d, -, he⟩ := h
    cases he; exact ⟨hr, rfl⟩
  | retain p =>
    simp only [step, retain, Option.map_eq_some_iff, Option.bind_eq_bind, Option.bind_eq_some_iff, pure,
      Option.some.injEq] at h
    obtain ⟨r, ⟨d1, -, h⟩, he⟩ := h
    subst h; cases he; exact ⟨hr, rfl⟩
  | render p af =>
    simp only [step, render, Option.map_eq_some_iff, Option.bind_eq_bind, Option.bind_eq_some_iff] at h
    obtain ⟨r, ⟨d1, e1, d2, e2, d3, e3, d4, e4, h5⟩, he⟩ := h
    split at h5
    · simp only [Option.bind_eq_some_iff, pure, Option.some.injEq] at h5
      obtain ⟨d5, e5, rfl⟩ := h5
      cases he
      exact ⟨⟨fun _ => ha.2.1, fun _ => rfl⟩, rfl⟩
    · cases h5
  | unrender =>
    simp only [step, unrender, Option.map_eq_some_iff, Option.bind_eq_bind, Option.bind_eq_some_iff, pure,
      Option.some.injEq] at h
    obtain ⟨r, ⟨d, e1, rfl⟩, he⟩ := h
    cases he
    exact ⟨⟨fun h => (by cases h), fun h => absurd rfl h⟩, rfl⟩
  | content k ns =>
    simp only [step, Option.map_eq_some_iff] at h
    obtain ⟨d, -, he⟩ := h
    cases he; exact ⟨hr, rfl⟩
  | place c n q =>
    simp only [step, Option.map_eq_some_iff] at h
    obtain ⟨d, -, he⟩ := h
    cases he; exact ⟨hr, rfl⟩
  | vanish c n =>
    simp only [step, Option.map_eq_some_iff] at h
    obtain ⟨d, -, he⟩ := h
    cases he; exact ⟨hr, rfl⟩

theorem run_container (ops : List Op) : ∀ {s s' : Sys} {l : List Item} {as : List (Option Bool)} {r : Bool},
    AllowedRun s l ops → run s ops = some (s', as) → (r = true ↔ s.list.container ≠ s.list.frag) →
    (ops.foldl renderedNext r = true ↔ s'.list.container ≠ s'.list.frag) ∧ s'.list.frag = s.list.frag := by
  induction ops with
  | nil =>
    intro s s' l as r _ h hr
    cases h; exact ⟨hr, rfl⟩
  | cons op ops ih =>
    intro s s' l as r ha h hr
    simp only [run, Option.bind_eq_bind, Option.bind_eq_some_iff, pure, Option.some.injEq, Prod.mk.injEq] at h
    obtain ⟨⟨s1, a⟩, e1, ⟨s2, as'⟩, e2, rfl, -⟩ := h
    obtain ⟨h1, h2⟩ := step_container ha.1 e1 hr
    obtain ⟨h3, h4⟩ := ih (ha.2 s1 a e1) e2 h1
    exact ⟨h3, h4.trans h2⟩

/-- **C33, rendering twice.** After any allowed history that leaves the list rendered, rendering it in another place
(or in the same one) panics; a list that is not rendered can be rendered anywhere. -/
theorem second_render_panics {d : Dom} {frag ls le : NodeId} (hd : Proper d) (hf : d.kids frag = [])
    (hne : ls ≠ le) (ops : List Op) :
    ∃ d0 L0, new d frag ls le = some (d0, L0) ∧
      (AllowedRun ⟨d0, L0⟩ [] ops → ∃ s1, run ⟨d0, L0⟩ ops = some (s1, (specRun [] [] ops).2.2) ∧
        (renderedAfter ops = true → ∀ p a, step s1 (.render p a) = none) ∧
        (renderedAfter ops = false → ∀ p a, p ≠ frag → (∀ r, a = some r → r ∈ s1.dom.kids p) →
          (step s1 (.render p a)).isSome)) := by
  obtain ⟨d0, L0, h, hg⟩ := good_new hd hf hne
  refine ⟨d0, L0, h, fun ha => ?_⟩
  obtain ⟨s1, h1, g1⟩ := good_run ops hg ha
  simp only [new, Dom.insertBefore, Option.bind_eq_bind, Option.bind_some, pure, Option.some.injEq, Prod.mk.injEq] at h
  obtain ⟨hr, hfr⟩ := run_container (r := false) ops ha h1 (by rw [← h.2]; simp)
  have hfr : s1.list.frag = frag := by rw [hfr, ← h.2]
  refine ⟨s1, h1, fun hrd p a => ?_, fun hrd p a hp har => ?_⟩
  · have hc := hr.1 hrd
    simp only [step, render, if_neg hc, Option.bind_eq_bind, Option.bind_fun_none, Option.map_none]
  · have hc : s1.list.container = s1.list.frag := by
      apply Classical.byContradiction
      intro hne
      have := hr.2 hne
      unfold renderedAfter at hrd
      rw [hrd] at this
      cases this
    obtain ⟨s2, e2, -⟩ := good_step g1 (op := .render p a) ⟨hc, by rw [hfr]; exact hp, har⟩
    rw [e2]; rfl

/-! ## concrete histories -/

theorem twoItems_allowed : AllowedRun fresh [] twoItems := allowedRun_of twoItems within_fresh (by decide +kernel)

example : ∃ s1 s2, run fresh twoItems = some (s1, [some false, some false]) ∧ step s1 (.swap 7 8) = some (s2, none) ∧
    ∀ left, ¬ Shows s2.dom s2.list (specSwap 7 8 (specRun [] [] twoItems).1) left := by
  obtain ⟨d0, L0, h, hr⟩ := swap_directly_before_breaks (frag := 100) (ls := 1) (le := 2) proper_blank rfl (by decide) twoItems
  rw [new_blank] at h
  cases h
  obtain ⟨s1, h1, h2⟩ := hr twoItems_allowed
  obtain ⟨s2, h3, h4⟩ := h2 rfl 7 8 ⟨[], [], rfl⟩
  exact ⟨s1, s2, h1, h3, fun left => (h4 left).1⟩

example : ∃ s1 s2, run fresh sample = some (s1, (specRun [] [] sample).2.2) ∧
    step s1 (.moveBefore 9 (some 9)) = some (s2, none) ∧
    ∀ left, ¬ Shows s2.dom s2.list (specRun [] [] sample).1 left := by
  obtain ⟨d0, L0, h, hr⟩ := move_before_itself_breaks (frag := 100) (ls := 1) (le := 2) proper_blank rfl (by decide) sample
  rw [new_blank] at h
  cases h
  obtain ⟨s1, h1, h2⟩ := hr sample_allowed
  obtain ⟨s2, h3, h4⟩ := h2 9 ⟨⟨9, 15, 16, []⟩, by decide, rfl⟩
  exact ⟨s1, s2, h1, h3, h4⟩

/-- the sample ends with a rendered list; rendering it once more panics -/
example : ∃ s1, run fresh sample = some (s1, (specRun [] [] sample).2.2) ∧ ∀ p a, step s1 (.render p a) = none := by
  obtain ⟨d0, L0, h, hr⟩ := second_render_panics (frag := 100) (ls := 1) (le := 2) proper_blank rfl (by decide) sample
  rw [new_blank] at h
  cases h
  obtain ⟨s1, h1, h2, -⟩ := hr sample_allowed
  exact ⟨s1, h1, h2 rfl⟩

end Verif.Lists
