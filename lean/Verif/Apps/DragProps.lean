import Mathlib.Data.List.Forall2
import Verif.Apps.DragSpec

/-!
# Drag and drop: proofs
-/

namespace Verif.Drag

variable {Id : Type} [DecidableEq Id]

/-- Looking again at an unchanged state has no effect. -/
theorem pollMove_again (s : State Id) : pollMove (pollMove s) = pollMove s := by
  unfold pollMove
  rcases s with ⟨inner, after, items, phase, moves⟩
  cases phase <;> cases inner <;> simp only []
  · simp
  · rename_i d f z
    by_cases h : f = d <;> simp [h]

/-- No event waits. -/
def Clean (t : Item) : Prop := t.start = none ∧ t.stop = false ∧ t.over = none ∧ t.leave = none ∧ t.drop = false

theorem pollItem_clean {s : State Id} {j : Id} (h : Clean (s.items j)) : pollItem j s = s := by
  obtain ⟨h1, h2, h3, h4, h5⟩ := h
  have a1 : takeStart j s = s := by simp only [takeStart, h1]; split <;> simp_all
  have a2 : takeEnd j s = s := by simp only [takeEnd, h2]; split <;> simp_all
  simp [pollItem, pollStartEnd, a1, a2, pollOver, pollLeave, pollDrop, h3, h4, h5]

@[simp] theorem setItem_same (s : State Id) (i : Id) (t : Item) : (s.setItem i t).items i = t := by
  simp [State.setItem]

theorem setItem_other {s : State Id} {i j : Id} (t : Item) (h : j ≠ i) : (s.setItem i t).items j = s.items j := by
  simp [State.setItem, h]

theorem fire_other {s : State Id} {i j : Id} (e : Event) (h : j ≠ i) : (fire i e s).items j = s.items j := by
  unfold fire
  simp only []
  split
  · cases e <;> simp only [] <;> exact setItem_other _ h
  · rfl

theorem fire_inner (s : State Id) (i : Id) (e : Event) :
    (fire i e s).inner = s.inner ∧ (fire i e s).phase = s.phase ∧ (fire i e s).moves = s.moves ∧
      (fire i e s).after = s.after := by
  unfold fire
  simp only []
  split
  · cases e <;> exact ⟨rfl, rfl, rfl, rfl⟩
  · exact ⟨rfl, rfl, rfl, rfl⟩

/-- Nothing waits anywhere. -/
def Calm (s : State Id) : Prop := (∀ j, Clean (s.items j)) ∧ pollMove s = s

theorem pollMove_items (s : State Id) : (pollMove s).items = s.items := by
  unfold pollMove
  split <;> try rfl
  split <;> rfl

theorem pollMove_fixed_congr {s s' : State Id} (hi : s'.inner = s.inner) (hp : s'.phase = s.phase)
    (h : pollMove s = s) : pollMove s' = s' := by
  rcases s with ⟨inner, after, items, phase, moves⟩
  rcases s' with ⟨inner', after', items', phase', moves'⟩
  simp only at hi hp
  subst hi hp
  unfold pollMove at *
  cases phase' <;> cases inner' <;> simp_all
  rename_i d f z
  by_cases hf : f = d <;> simp_all

/-- Whatever the order of the polls, a single event has one effect. -/
theorem handled_eq {s s' : State Id} {i : Id} {e : Event} (hs : Calm s)
    (hc : ∀ j, Clean ((pollItem i (fire i e s)).items j)) (h : Handled s i e s') :
    s' = pollMove (pollItem i (fire i e s)) ∧ Calm s' := by
  obtain ⟨polls, hp, rfl, hset⟩ := h
  have f1 : pollMove (fire i e s) = fire i e s :=
    pollMove_fixed_congr (fire_inner s i e).1 (fire_inner s i e).2.1 hs.2
  have f2 : ∀ j, j ≠ i → pollItem j (fire i e s) = fire i e s := fun j hj =>
    pollItem_clean (by rw [fire_other e hj]; exact hs.1 j)
  have g2 : ∀ j, pollItem j (pollItem i (fire i e s)) = pollItem i (fire i e s) := fun j => pollItem_clean (hc j)
  have k2 : ∀ j, pollItem j (pollMove (pollItem i (fire i e s))) = pollMove (pollItem i (fire i e s)) := fun j =>
    pollItem_clean (by rw [pollMove_items]; exact hc j)
  have three : ∀ polls : List (Action Id), (∀ a ∈ polls, a.IsPoll) → ∀ x : State Id,
      (x = fire i e s ∨ x = pollItem i (fire i e s) ∨ x = pollMove (pollItem i (fire i e s))) →
      (run x polls = fire i e s ∨ run x polls = pollItem i (fire i e s) ∨
        run x polls = pollMove (pollItem i (fire i e s))) := by
    intro polls
    induction polls with
    | nil => intro _ x hx; exact hx
    | cons a as ih =>
      intro ha x hx
      have ha' := ha a (by simp)
      refine ih (fun b hb => ha b (by simp [hb])) (step x a) ?_
      cases a with
      | mount j => exact ha'.elim
      | unmount j => exact ha'.elim
      | fire j e' => exact ha'.elim
      | pollItem j =>
        rcases hx with rfl | rfl | rfl
        · by_cases hj : j = i
          · subst hj; exact Or.inr (Or.inl rfl)
          · exact Or.inl (f2 j hj)
        · exact Or.inr (Or.inl (g2 j))
        · exact Or.inr (Or.inr (k2 j))
      | pollMove =>
        rcases hx with rfl | rfl | rfl
        · exact Or.inl f1
        · exact Or.inr (Or.inr rfl)
        · exact Or.inr (Or.inr (pollMove_again _))
  have hend : run (fire i e s) polls = pollMove (pollItem i (fire i e s)) := by
    rcases three polls hp _ (Or.inl rfl) with h | h | h
    · have b1 : pollItem i (fire i e s) = fire i e s := by
        have := hset.1 i
        rwa [h] at this
      rw [h, b1, f1]
    · have b2 := hset.2
      rw [h] at b2
      rw [h, b2]
    · exact h
  refine ⟨hend, ?_⟩
  rw [hend]
  refine ⟨fun j => ?_, pollMove_again _⟩
  rw [pollMove_items]
  exact hc j

@[simp] theorem setItem_setItem (s : State Id) (i : Id) (t t' : Item) :
    (s.setItem i t).setItem i t' = s.setItem i t' := by
  simp only [State.setItem]
  congr 1
  funext j
  by_cases h : j = i <;> simp [h]

theorem item_eta {t : Item} (h : Clean t) (hm : t.mounted = true) :
    t = { Item.fresh with waitingEnd := t.waitingEnd, spacer := t.spacer, padding := t.padding } := by
  obtain ⟨h1, h2, h3, h4, h5⟩ := h
  cases t
  simp_all [Item.fresh]

theorem poll_start {s : State Id} {i : Id} {z : Int} (hc : Clean (s.items i)) (hm : (s.items i).mounted = true)
    (hw : (s.items i).waitingEnd = false) :
    pollItem i (fire i (.start z) s) =
      { s.setItem i { s.items i with waitingEnd := true } with inner := .dragStarted i z } := by
  obtain ⟨h1, h2, h3, h4, h5⟩ := hc
  simp [fire, hm, pollItem, pollStartEnd, takeStart, takeEnd, hw, h1, h2, pollOver, h3, pollLeave, h4, pollDrop, h5,
    State.setItem]
  funext j
  by_cases h : j = i <;> simp [h]

theorem poll_stop {s : State Id} {i : Id} (hc : Clean (s.items i)) (hm : (s.items i).mounted = true)
    (hw : (s.items i).waitingEnd = true) :
    pollItem i (fire i .stop s) =
      { s.setItem i { s.items i with waitingEnd := false } with
        inner := match s.inner with
          | .dragStarted _ _ => .notDragging
          | x => x } := by
  obtain ⟨h1, h2, h3, h4, h5⟩ := hc
  simp [fire, hm, pollItem, pollStartEnd, takeStart, takeEnd, hw, h1, h2, pollOver, h3, pollLeave, h4, pollDrop, h5,
    State.setItem]
  constructor
  · cases s.inner <;> rfl
  · funext j
    by_cases h : j = i <;> simp [h]

theorem setItem_self (s : State Id) (i : Id) : s.setItem i (s.items i) = s := by
  rcases s with ⟨inner, after, items, phase, moves⟩
  simp only [State.setItem]
  congr 1
  funext j
  by_cases h : j = i <;> simp [h]

theorem poll_startEnd_id {s : State Id} {i : Id} (h1 : (s.items i).start = none) (h2 : (s.items i).stop = false) :
    pollStartEnd i s = s := by
  have a1 : takeStart i s = s := by simp only [takeStart, h1]; split <;> simp_all
  have a2 : takeEnd i s = s := by simp only [takeEnd, h2]; split <;> simp_all
  simp [pollStartEnd, a1, a2]

theorem poll_over_self {s : State Id} {i : Id} {p b z : Int} (hc : Clean (s.items i))
    (hm : (s.items i).mounted = true) (hi : s.inner = .dragStarted i z) :
    pollItem i (fire i (.over p b) s) = s := by
  obtain ⟨h1, h2, h3, h4, h5⟩ := hc
  have hf : fire i (.over p b) s = s.setItem i { s.items i with over := some (p, b) } := by simp [fire, hm]
  have e : ({ s.items i with over := none } : Item) = s.items i := by
    have := h3
    cases hk : s.items i
    simp_all
  rw [hf, pollItem, setItem_same, if_pos hm, poll_startEnd_id (by simpa using h1) (by simpa using h2)]
  have ho : pollOver i (s.setItem i { s.items i with over := some (p, b) }) = s := by
    simp only [pollOver, setItem_same]
    rw [show (s.setItem i { s.items i with over := some (p, b) }).inner = .dragStarted i z from hi]
    simp only [if_true, setItem_setItem]
    rw [show ({ mounted := (s.items i).mounted, waitingEnd := (s.items i).waitingEnd, start := (s.items i).start, stop := (s.items i).stop, over := none, leave := (s.items i).leave, drop := (s.items i).drop, spacer := (s.items i).spacer, padding := (s.items i).padding } : Item) = s.items i from e]
    exact setItem_self s i
  rw [ho]
  simp [pollLeave, h4, pollDrop, h5]

/-- The paddings are those of the spacer for a dragged item of the given size. -/
def Room (size : Int) (sp : Spacer) (pd : Int × Int) : Prop :=
  match sp with
  | .none => pd = (0, 0)
  | .before => pd = (size, 0)
  | .after => pd = (0, size)

theorem poll_over_other {s : State Id} {i f : Id} {p b z : Int} (hc : Clean (s.items i))
    (hm : (s.items i).mounted = true) (hi : s.inner = .dragStarted f z) (hf : f ≠ i) :
    ∃ (sp : Spacer) (pd : Int × Int), pollItem i (fire i (.over p b) s) =
      { s.setItem i { s.items i with spacer := sp, padding := pd } with after := decide (2 * p > 2 * b + z) } ∧
      sp = (if 2 * p > 2 * b + z then .after else .before) ∧
      (Room z (s.items i).spacer (s.items i).padding → Room z sp pd) := by
  obtain ⟨h1, h2, h3, h4, h5⟩ := hc
  have hfi : fire i (.over p b) s = s.setItem i { s.items i with over := some (p, b) } := by simp [fire, hm]
  rw [hfi, pollItem, setItem_same, if_pos hm, poll_startEnd_id (by simpa using h1) (by simpa using h2)]
  have ho : ∃ (sp : Spacer) (pd : Int × Int), pollOver i (s.setItem i { s.items i with over := some (p, b) }) =
      { s.setItem i { s.items i with spacer := sp, padding := pd } with after := decide (2 * p > 2 * b + z) } ∧
      sp = (if 2 * p > 2 * b + z then .after else .before) ∧
      (Room z (s.items i).spacer (s.items i).padding → Room z sp pd) := by
    simp only [pollOver, setItem_same]
    rw [show (s.setItem i { s.items i with over := some (p, b) }).inner = .dragStarted f z from hi]
    simp only [if_neg hf, setItem_setItem]
    rcases hs : (s.items i) with ⟨m, w, st, so, ov, le, dr, sp, pd⟩
    have : ov = none := by rw [hs] at h3; exact h3
    subst this
    by_cases hd : 2 * p > 2 * b + z
    · simp only [hd, decide_true, if_true]
      cases sp <;> exact ⟨_, _, rfl, rfl, by simp [Room]⟩
    · simp only [hd, decide_false, Bool.false_eq_true, if_false]
      cases sp <;> exact ⟨_, _, rfl, rfl, by simp [Room]⟩
  obtain ⟨sp, pd, ho, hsp, hro⟩ := ho
  refine ⟨sp, pd, ?_, hsp, hro⟩
  rw [ho]
  have e4 : pollLeave i { s.setItem i { s.items i with spacer := sp, padding := pd } with
      after := decide (2 * p > 2 * b + z) } = { s.setItem i { s.items i with spacer := sp, padding := pd } with
      after := decide (2 * p > 2 * b + z) } := by
    simp [pollLeave, State.setItem, h4]
  rw [e4]
  simp [pollDrop, State.setItem, h5]

theorem poll_leave {s : State Id} {i : Id} {self : Bool} (hc : Clean (s.items i))
    (hm : (s.items i).mounted = true) :
    pollItem i (fire i (.leave self) s) =
      if self then s.setItem i { s.items i with spacer := .none, padding := (0, 0) } else s := by
  obtain ⟨h1, h2, h3, h4, h5⟩ := hc
  have hfi : fire i (.leave self) s = s.setItem i { s.items i with leave := some self } := by simp [fire, hm]
  rw [hfi, pollItem, setItem_same, if_pos hm, poll_startEnd_id (by simpa using h1) (by simpa using h2)]
  have ho : pollOver i (s.setItem i { s.items i with leave := some self }) =
      s.setItem i { s.items i with leave := some self } := by simp [pollOver, h3]
  rw [ho]
  cases self
  · have hl : pollLeave i (s.setItem i { s.items i with leave := some false }) = s := by
      simp only [pollLeave, setItem_same, setItem_setItem]
      rw [show ({ mounted := (s.items i).mounted, waitingEnd := (s.items i).waitingEnd, start := (s.items i).start, stop := (s.items i).stop, over := (s.items i).over, leave := none, drop := (s.items i).drop, spacer := (s.items i).spacer, padding := (s.items i).padding } : Item) = s.items i from by
        have := h4
        cases hk : s.items i
        simp_all]
      exact setItem_self s i
    rw [hl]
    simp [pollDrop, h5]
  · have hl : pollLeave i (s.setItem i { s.items i with leave := some true }) =
        s.setItem i { s.items i with spacer := .none, padding := (0, 0) } := by
      simp only [pollLeave, setItem_same, setItem_setItem]
      rcases hs : (s.items i) with ⟨m, w, st, so, ov, le, dr, sp, pd⟩
      rw [hs] at h4
      simp only at h4
      subst h4
      rfl
    rw [hl]
    simp [pollDrop, h5]

theorem poll_drop {s : State Id} {i : Id} (hc : Clean (s.items i)) (hm : (s.items i).mounted = true) :
    pollItem i (fire i .drop s) =
      { s.setItem i { s.items i with spacer := .none, padding := (0, 0) } with
        inner := match s.inner with
          | .dragStarted frm _ => .dropped frm i s.after
          | x => x } := by
  obtain ⟨h1, h2, h3, h4, h5⟩ := hc
  have hfi : fire i .drop s = s.setItem i { s.items i with drop := true } := by simp [fire, hm]
  rw [hfi, pollItem, setItem_same, if_pos hm, poll_startEnd_id (by simpa using h1) (by simpa using h2)]
  have ho : pollOver i (s.setItem i { s.items i with drop := true }) =
      s.setItem i { s.items i with drop := true } := by simp [pollOver, h3]
  have hl : pollLeave i (s.setItem i { s.items i with drop := true }) =
      s.setItem i { s.items i with drop := true } := by simp [pollLeave, h4]
  rw [ho, hl]
  simp only [pollDrop, setItem_same, if_true, setItem_setItem]
  rcases hs : (s.items i) with ⟨m, w, st, so, ov, le, dr, sp, pd⟩
  rw [hs] at h5
  simp only at h5
  subst h5
  rfl

/-- Between two drags. -/
def Rest (s : State Id) : Prop :=
  (∀ j, Clean (s.items j) ∧ (s.items j).waitingEnd = false) ∧ (∀ f z, s.inner ≠ .dragStarted f z) ∧ s.phase = none

theorem Rest.calm {s : State Id} (h : Rest s) : Calm s := by
  refine ⟨fun j => (h.1 j).1, ?_⟩
  rcases s with ⟨inner, after, items, phase, moves⟩
  obtain ⟨-, h2, h3⟩ := h
  simp only at h2 h3
  subst h3
  cases inner
  · rfl
  · exact absurd rfl (h2 _ _)
  · rfl

/-- While `item` is dragged and the pointer has gone the way `done`. -/
structure Mid (s0 s : State Id) (item : Id) (size : Int) (done : List (Way Id)) : Prop where
  inner : s.inner = .dragStarted item size
  phase : s.phase = some item
  moves : s.moves = s0.moves
  clean : ∀ j, Clean (s.items j)
  mounted : ∀ j, (s.items j).mounted = (s0.items j).mounted
  waiting : ∀ j, (s.items j).waitingEnd = decide (j = item)
  side : ∀ (pre post : List (Way Id)) (j : Id) (pointer begins : Int),
    done = pre ++ .over j pointer begins :: post → j ≠ item → (∀ w ∈ post, Way.overOther item w = false) →
    s.after = decide (2 * pointer > 2 * begins + size)
  gap : ∀ k, (s0.items k).padding = (0, 0) →
    (∀ (pre post : List (Way Id)) (p b : Int), done = pre ++ .over k p b :: post → Way.leave k true ∈ post) →
    (s.items k).padding = (0, 0)
  room : ∀ k, Room size (s0.items k).spacer (s0.items k).padding → Room size (s.items k).spacer (s.items k).padding
  shown : ∀ (pre : List (Way Id)) (k : Id) (pointer begins : Int), done = pre ++ [.over k pointer begins] →
    k ≠ item → (s.items k).spacer = if 2 * pointer > 2 * begins + size then .after else .before

theorem Mid.pollMove {s0 s : State Id} {item : Id} {size : Int} {done : List (Way Id)}
    (h : Mid s0 s item size done) : pollMove s = s := by
  simp [Drag.pollMove, h.inner, h.phase]

theorem Mid.calm {s0 s : State Id} {item : Id} {size : Int} {done : List (Way Id)}
    (h : Mid s0 s item size done) : Calm s := ⟨h.clean, h.pollMove⟩

theorem mid_start {s s' : State Id} {i : Id} {z : Int} (hs : Rest s) (hm : (s.items i).mounted = true)
    (h : Handled s i (.start z) s') : Mid s s' i z [] := by
  have hp := poll_start (z := z) (hs.1 i).1 hm (hs.1 i).2
  have hit : ∀ j, (pollItem i (fire i (.start z) s)).items j =
      if j = i then { s.items i with waitingEnd := true } else s.items j := fun j => by rw [hp]; rfl
  have hc : ∀ j, Clean ((pollItem i (fire i (.start z) s)).items j) := fun j => by
    rw [hit]; split
    · exact (hs.1 i).1
    · exact (hs.1 j).1
  obtain ⟨rfl, hcalm⟩ := handled_eq hs.calm hc h
  have hph : Drag.pollMove (pollItem i (fire i (.start z) s)) =
      { pollItem i (fire i (.start z) s) with phase := some i } := by
    have e1 : (pollItem i (fire i (.start z) s)).phase = none := by rw [hp]; exact hs.2.2
    have e2 : (pollItem i (fire i (.start z) s)).inner = .dragStarted i z := by rw [hp]
    simp only [Drag.pollMove, e1, e2]
  rw [hph]
  refine ⟨by rw [hp], rfl, by rw [hp]; rfl, hc, ?_, ?_, ?_, ?_, ?_, ?_⟩
  · intro j
    show ((pollItem i (fire i (.start z) s)).items j).mounted = _
    rw [hit]; split
    · rename_i e; subst e; rfl
    · rfl
  · intro j
    show ((pollItem i (fire i (.start z) s)).items j).waitingEnd = _
    rw [hit]; split
    · rename_i e; simp [e]
    · rename_i e; rw [(hs.1 j).2]; simp [e]
  · intro pre post j p b hnil
    simp at hnil
  · intro k h0 _
    show ((pollItem i (fire i (.start z) s)).items k).padding = _
    rw [hit]; split
    · rename_i e; subst e; exact h0
    · exact h0
  · intro k h0
    show Room z ((pollItem i (fire i (.start z) s)).items k).spacer ((pollItem i (fire i (.start z) s)).items k).padding
    rw [hit]; split
    · rename_i e; subst e; exact h0
    · exact h0
  · intro pre k p b e
    simp at e

omit [DecidableEq Id] in
theorem snoc_over {done pre post : List (Way Id)} {w : Way Id} {j : Id} {p b : Int}
    (h : done ++ [w] = pre ++ .over j p b :: post) :
    (post = [] ∧ w = .over j p b ∧ pre = done) ∨ ∃ post', post = post' ++ [w] ∧ done = pre ++ .over j p b :: post' := by
  rcases List.eq_nil_or_concat post with rfl | ⟨post', x, rfl⟩
  · left
    obtain ⟨h1, h2⟩ := List.append_inj' h rfl
    simp at h2
    exact ⟨rfl, h2, h1.symm⟩
  · right
    have h' : done ++ [w] = (pre ++ .over j p b :: post') ++ [x] := by simpa using h
    obtain ⟨h1, h2⟩ := List.append_inj' h' rfl
    simp at h2
    exact ⟨post', by simp [h2], h1⟩

theorem mid_way {s0 s s' : State Id} {item : Id} {size : Int} {done : List (Way Id)} {w : Way Id}
    (h : Mid s0 s item size done) (hm : (s.items w.event.1).mounted = true)
    (hh : Handled s w.event.1 w.event.2 s') : Mid s0 s' item size (done ++ [w]) := by
  cases w with
  | over j p b =>
    simp only [Way.event] at hh hm
    by_cases hj : j = item
    · subst hj
      have hp := poll_over_self (p := p) (b := b) (h.clean j) hm h.inner
      obtain ⟨rfl, -⟩ := handled_eq h.calm (by rw [hp]; exact h.clean) hh
      rw [hp, h.pollMove]
      refine ⟨h.inner, h.phase, h.moves, h.clean, h.mounted, h.waiting, ?_, ?_, h.room, ?_⟩
      · intro pre post k p' b' e hk hpost
        rcases snoc_over e with ⟨-, e1, -⟩ | ⟨post', e1, e2⟩
        · cases e1; exact absurd rfl hk
        · exact h.side pre post' k p' b' e2 hk (fun w hw => hpost w (by simp [e1, hw]))
      · intro k h0 hcl
        by_cases hk : k = j
        · subst hk
          have := hcl done [] p b (by simp)
          simp at this
        · refine h.gap k h0 (fun pre post p' b' e => ?_)
          have := hcl pre (post ++ [.over j p b]) p' b' (by simp [e])
          simpa using this
      · intro pre k p' b' e hk
        have e' := (List.append_inj' e rfl).2
        simp at e'
        exact absurd e'.1.symm hk
    · obtain ⟨sp, pd, hp, hsp, hro⟩ := poll_over_other (p := p) (b := b) (h.clean j) hm h.inner (Ne.symm hj)
      have hit : ∀ k, (pollItem j (fire j (.over p b) s)).items k =
          if k = j then { s.items j with spacer := sp, padding := pd } else s.items k := fun k => by rw [hp]; rfl
      have hc : ∀ k, Clean ((pollItem j (fire j (.over p b) s)).items k) := fun k => by
        rw [hit]; split
        · exact h.clean j
        · exact h.clean k
      obtain ⟨rfl, -⟩ := handled_eq h.calm hc hh
      have e1 : (pollItem j (fire j (.over p b) s)).inner = .dragStarted item size := by rw [hp]; exact h.inner
      have e2 : (pollItem j (fire j (.over p b) s)).phase = some item := by rw [hp]; exact h.phase
      have hpm : Drag.pollMove (pollItem j (fire j (.over p b) s)) = pollItem j (fire j (.over p b) s) := by
        simp [Drag.pollMove, e1, e2]
      rw [hpm]
      refine ⟨e1, e2, by rw [hp]; exact h.moves, hc, ?_, ?_, ?_, ?_, ?_, ?_⟩
      · intro k
        rw [hit]; split
        · rename_i e; subst e; exact h.mounted k
        · exact h.mounted k
      · intro k
        rw [hit]; split
        · rename_i e; subst e; exact h.waiting k
        · exact h.waiting k
      · intro pre post k p' b' e hk hpost
        rcases snoc_over e with ⟨-, e3, -⟩ | ⟨post', e3, e4⟩
        · cases e3; rw [hp]
        · have := hpost (.over j p b) (by simp [e3])
          simp [Way.overOther, hj] at this
      · intro k h0 hcl
        by_cases hk : k = j
        · subst hk
          have := hcl done [] p b (by simp)
          simp at this
        · rw [hit, if_neg hk]
          refine h.gap k h0 (fun pre post p' b' e => ?_)
          have := hcl pre (post ++ [.over j p b]) p' b' (by simp [e])
          simpa using this
      · intro k h0
        rw [hit]; split
        · rename_i e; subst e; exact hro (h.room k h0)
        · exact h.room k h0
      · intro pre k p' b' e hk
        have e' := (List.append_inj' e rfl).2
        simp at e'
        obtain ⟨rfl, rfl, rfl⟩ := e'
        rw [hit, if_pos rfl]
        exact hsp
  | leave j self =>
    simp only [Way.event] at hh hm
    have hp := poll_leave (self := self) (h.clean j) hm
    have hit : ∀ k, ∃ sp pd, (pollItem j (fire j (.leave self) s)).items k =
        { s.items k with spacer := sp, padding := pd } ∧
        (pd = (s.items k).padding ∨ pd = (0, 0)) ∧ (k = j → self = true → pd = (0, 0)) ∧
        (Room size (s.items k).spacer (s.items k).padding → Room size sp pd) := fun k => by
      rw [hp]
      cases self
      · exact ⟨_, _, rfl, Or.inl rfl, by simp, id⟩
      · by_cases hk : k = j
        · subst hk
          exact ⟨.none, (0, 0), by simp, Or.inr rfl, by simp, fun _ => rfl⟩
        · exact ⟨(s.items k).spacer, (s.items k).padding, by simp [setItem_other _ hk], Or.inl rfl,
            fun e => absurd e hk, id⟩
    have hc : ∀ k, Clean ((pollItem j (fire j (.leave self) s)).items k) := fun k => by
      obtain ⟨sp, pd, e, -⟩ := hit k
      rw [e]; exact h.clean k
    obtain ⟨rfl, -⟩ := handled_eq h.calm hc hh
    have e0 : (pollItem j (fire j (.leave self) s)).inner = s.inner ∧
        (pollItem j (fire j (.leave self) s)).phase = s.phase ∧
        (pollItem j (fire j (.leave self) s)).moves = s.moves ∧
        (pollItem j (fire j (.leave self) s)).after = s.after := by
      rw [hp]; cases self <;> exact ⟨rfl, rfl, rfl, rfl⟩
    rw [pollMove_fixed_congr e0.1 e0.2.1 h.pollMove]
    refine ⟨e0.1.trans h.inner, e0.2.1.trans h.phase, e0.2.2.1.trans h.moves, hc, ?_, ?_, ?_, ?_, ?_, ?_⟩
    · intro k
      obtain ⟨sp, pd, e, -⟩ := hit k
      rw [e]; exact h.mounted k
    · intro k
      obtain ⟨sp, pd, e, -⟩ := hit k
      rw [e]; exact h.waiting k
    · intro pre post k p' b' e hk hpost
      rcases snoc_over e with ⟨-, e3, -⟩ | ⟨post', e3, e4⟩
      · cases e3
      · rw [e0.2.2.2]
        exact h.side pre post' k p' b' e4 hk (fun w hw => hpost w (by simp [e3, hw]))
    · intro k h0 hcl
      obtain ⟨sp, pd, e, hpd, hj, -⟩ := hit k
      rw [e]
      show pd = (0, 0)
      by_cases hks : k = j ∧ self = true
      · exact hj hks.1 hks.2
      · rcases hpd with hpd | hpd
        · rw [hpd]
          refine h.gap k h0 (fun pre post p' b' e' => ?_)
          have := hcl pre (post ++ [.leave j self]) p' b' (by simp [e'])
          simp only [List.mem_append, List.mem_singleton, Way.leave.injEq] at this
          rcases this with this | ⟨q1, q2⟩
          · exact this
          · exact absurd ⟨q1, q2.symm⟩ hks
        · exact hpd
    · intro k h0
      obtain ⟨sp, pd, e, -, -, hro⟩ := hit k
      rw [e]
      exact hro (h.room k h0)
    · intro pre k p' b' e
      have e' := (List.append_inj' e rfl).2
      simp at e'

theorem mid_ways {s0 : State Id} {item : Id} {size : Int} (rest : List (Id × Event)) {s2 : State Id} :
    ∀ (ws done : List (Way Id)) {s : State Id}, Mid s0 s item size done →
      (∀ w ∈ ws, (s0.items (Way.event w).1).mounted = true) → Play s (ws.map Way.event ++ rest) s2 →
      ∃ s1, Mid s0 s1 item size (done ++ ws) ∧ Play s1 rest s2 := by
  intro ws
  induction ws with
  | nil => intro done s h _ hp; exact ⟨s, by simpa using h, hp⟩
  | cons w ws ih =>
    intro done s h hm hp
    simp only [List.map_cons, List.cons_append] at hp
    rcases hwe : w.event with ⟨i, e⟩
    rw [hwe] at hp
    cases hp with
    | cons hh hp =>
      have h1 := mid_way (w := w) h (by rw [h.mounted]; exact hm w (by simp)) (by rw [hwe]; exact hh)
      obtain ⟨s1, h2, h3⟩ := ih (done ++ [w]) h1 (fun w' hw' => hm w' (by simp [hw'])) hp
      exact ⟨s1, by simpa using h2, h3⟩

/-- The paddings of an item are closed again: whenever the pointer came over `k` it left it later. -/
def Closed (way : List (Way Id)) (k : Id) : Prop :=
  ∀ (pre post : List (Way Id)) (p b : Int), way = pre ++ .over k p b :: post → Way.leave k true ∈ post

/-- The end of a drag without a drop. -/
theorem end_none {s0 s s' : State Id} {item : Id} {size : Int} {way : List (Way Id)}
    (h : Mid s0 s item size way) (hm : (s0.items item).mounted = true) (hh : Handled s item .stop s') :
    Rest s' ∧ s'.moves = s0.moves ∧ (∀ j, (s'.items j).mounted = (s0.items j).mounted) ∧
      ∀ k, (s'.items k).padding = (s.items k).padding := by
  have hp := poll_stop (h.clean item) (by rw [h.mounted]; exact hm) (by rw [h.waiting]; simp)
  rw [h.inner] at hp
  simp only at hp
  have hit : ∀ k, (pollItem item (fire item .stop s)).items k =
      if k = item then { s.items item with waitingEnd := false } else s.items k := fun k => by rw [hp]; rfl
  have hc : ∀ k, Clean ((pollItem item (fire item .stop s)).items k) := fun k => by
    rw [hit]; split
    · exact h.clean item
    · exact h.clean k
  obtain ⟨rfl, -⟩ := handled_eq h.calm hc hh
  have hpm : Drag.pollMove (pollItem item (fire item .stop s)) =
      { pollItem item (fire item .stop s) with phase := none } := by
    have e1 : (pollItem item (fire item .stop s)).phase = some item := by rw [hp]; exact h.phase
    have e2 : (pollItem item (fire item .stop s)).inner = .notDragging := by rw [hp]
    simp only [Drag.pollMove, e1, e2]
  rw [hpm]
  refine ⟨⟨fun k => ⟨hc k, ?_⟩, ?_, rfl⟩, by rw [hp]; exact h.moves, fun k => ?_, fun k => ?_⟩
  · show ((pollItem item (fire item .stop s)).items k).waitingEnd = false
    rw [hit]; split
    · rfl
    · rename_i e; rw [h.waiting]; simp [e]
  · intro f z e
    rw [hp] at e
    cases e
  · show ((pollItem item (fire item .stop s)).items k).mounted = _
    rw [hit]; split
    · rename_i e; subst e; exact h.mounted k
    · exact h.mounted k
  · show ((pollItem item (fire item .stop s)).items k).padding = _
    rw [hit]; split
    · rename_i e; subst e; rfl
    · rfl

/-- A drop and the end of the drag. -/
theorem end_drop {s0 s s1 s' : State Id} {item j : Id} {size : Int} {way : List (Way Id)}
    (h : Mid s0 s item size way) (hm : (s0.items item).mounted = true) (hj : (s0.items j).mounted = true)
    (hd : Handled s j .drop s1) (hh : Handled s1 item .stop s') :
    Rest s' ∧ s'.moves = s0.moves ++ [⟨item, j, s.after⟩] ∧ (∀ k, (s'.items k).mounted = (s0.items k).mounted) ∧
      ∀ k, (s'.items k).padding = if k = j then (0, 0) else (s.items k).padding := by
  have hp := poll_drop (h.clean j) (by rw [h.mounted]; exact hj)
  rw [h.inner] at hp
  simp only at hp
  have hit : ∀ k, (pollItem j (fire j .drop s)).items k =
      if k = j then { s.items j with spacer := .none, padding := (0, 0) } else s.items k := fun k => by rw [hp]; rfl
  have hc : ∀ k, Clean ((pollItem j (fire j .drop s)).items k) := fun k => by
    rw [hit]; split
    · exact h.clean j
    · exact h.clean k
  obtain ⟨rfl, hcalm⟩ := handled_eq h.calm hc hd
  have hpm : Drag.pollMove (pollItem j (fire j .drop s)) =
      { pollItem j (fire j .drop s) with phase := none, moves := s0.moves ++ [⟨item, j, s.after⟩] } := by
    have e1 : (pollItem j (fire j .drop s)).phase = some item := by rw [hp]; exact h.phase
    have e2 : (pollItem j (fire j .drop s)).inner = .dropped item j s.after := by rw [hp]
    have e3 : (pollItem j (fire j .drop s)).moves = s0.moves := by rw [hp]; exact h.moves
    simp only [Drag.pollMove, e1, e2, e3]
  rw [hpm] at hh hcalm
  generalize hs1 : ({ pollItem j (fire j .drop s) with
      phase := none, moves := s0.moves ++ [⟨item, j, s.after⟩] } : State Id) = s1 at hh hcalm
  have i1 : ∀ k, s1.items k =
      if k = j then { s.items j with spacer := .none, padding := (0, 0) } else s.items k := fun k => by
    rw [← hs1]; exact hit k
  have m1 : ∀ k, (s1.items k).mounted = (s0.items k).mounted := fun k => by
    rw [i1]; split
    · rename_i e; subst e; exact h.mounted k
    · exact h.mounted k
  have w1 : ∀ k, (s1.items k).waitingEnd = decide (k = item) := fun k => by
    rw [i1]; split
    · rename_i e; subst e; exact h.waiting k
    · exact h.waiting k
  have n1 : s1.inner = .dropped item j s.after := by rw [← hs1]; show (pollItem j (fire j .drop s)).inner = _; rw [hp]
  have p1 : s1.phase = none := by rw [← hs1]
  have v1 : s1.moves = s0.moves ++ [⟨item, j, s.after⟩] := by rw [← hs1]
  have hp2 := poll_stop (hcalm.1 item) (by rw [m1]; exact hm) (by rw [w1]; simp)
  rw [n1] at hp2
  simp only at hp2
  have hit2 : ∀ k, (pollItem item (fire item .stop s1)).items k =
      if k = item then { s1.items item with waitingEnd := false } else s1.items k := fun k => by rw [hp2]; rfl
  have hc2 : ∀ k, Clean ((pollItem item (fire item .stop s1)).items k) := fun k => by
    rw [hit2]; split
    · exact hcalm.1 item
    · exact hcalm.1 k
  obtain ⟨rfl, -⟩ := handled_eq hcalm hc2 hh
  have hpm2 : Drag.pollMove (pollItem item (fire item .stop s1)) = pollItem item (fire item .stop s1) := by
    have e1 : (pollItem item (fire item .stop s1)).phase = none := by rw [hp2]; exact p1
    have e2 : (pollItem item (fire item .stop s1)).inner = .dropped item j s.after := by rw [hp2]
    simp only [Drag.pollMove, e1, e2]
  rw [hpm2]
  refine ⟨⟨fun k => ⟨hc2 k, ?_⟩, ?_, by rw [hp2]; exact p1⟩, by rw [hp2]; exact v1, fun k => ?_, fun k => ?_⟩
  · rw [hit2]; split
    · rfl
    · rename_i e; rw [w1]; simp [e]
  · intro f z e
    rw [hp2] at e
    cases e
  · rw [hit2]; split
    · rename_i e; subst e; exact m1 k
    · exact m1 k
  · have q : ((pollItem item (fire item .stop s1)).items k).padding = (s1.items k).padding := by
      rw [hit2]; split
      · rename_i e; subst e; rfl
      · rfl
    rw [q, i1]
    split <;> rfl

/-- One drag from rest to rest: what is reported, and where paddings are left. -/
theorem drag_gesture {s s' : State Id} {g : Gesture Id} (hs : Rest s)
    (hm : ∀ p ∈ g.events, (s.items p.1).mounted = true) (hp : Play s g.events s') :
    Rest s' ∧ (∀ j, (s'.items j).mounted = (s.items j).mounted) ∧
    (g.drop = none → s'.moves = s.moves) ∧
    (∀ j, g.drop = some j → ∃ m, s'.moves = s.moves ++ [m] ∧ Reports g m) ∧
    (∀ k, (s.items k).padding = (0, 0) → (g.drop = some k ∨ Closed g.way k) → (s'.items k).padding = (0, 0)) := by
  obtain ⟨item, size, way, drop⟩ := g
  have hmi : (s.items item).mounted = true := hm (item, .start size) (by simp [Gesture.events])
  have hmw : ∀ w ∈ way, (s.items (Way.event w).1).mounted = true := fun w hw =>
    hm w.event (by simp only [Gesture.events, List.mem_cons, List.mem_append, List.mem_map]; exact Or.inr (Or.inl (Or.inl ⟨w, hw, rfl⟩)))
  simp only [Gesture.events, List.append_assoc] at hp
  cases hp with
  | cons h1 hp =>
    obtain ⟨s2, h2, h3⟩ := mid_ways _ way [] (mid_start hs hmi h1) hmw hp
    simp only [List.nil_append] at h2
    cases drop with
    | none =>
      simp only [Option.toList_none, List.map_nil, List.nil_append] at h3
      cases h3 with
      | cons h4 h5 =>
        cases h5
        obtain ⟨r, v, m, q⟩ := end_none h2 hmi h4
        refine ⟨r, m, fun _ => v, fun j hj => (by cases hj), fun k h0 hk => ?_⟩
        rw [q]
        rcases hk with hk | hk
        · cases hk
        · exact h2.gap k h0 hk
    | some j =>
      simp only [Option.toList_some, List.map_cons, List.map_nil, List.cons_append, List.nil_append] at h3
      have hmj : (s.items j).mounted = true := hm (j, .drop) (by simp [Gesture.events])
      cases h3 with
      | cons h4 h5 =>
        cases h5 with
        | cons h5 h6 =>
          cases h6
          obtain ⟨r, v, m, q⟩ := end_drop h2 hmi hmj h4 h5
          refine ⟨r, m, fun e => (by cases e), fun j' hj' => ?_, fun k h0 hk => ?_⟩
          · exact ⟨_, v, rfl, rfl, fun pre post k p b e hk hpost => h2.side pre post k p b e hk hpost⟩
          · rw [q]
            split
            · rfl
            · rename_i hne
              rcases hk with hk | hk
              · cases hk; exact absurd rfl hne
              · exact h2.gap k h0 hk

omit [DecidableEq Id] in
theorem rest_init : Rest (init : State Id) :=
  ⟨fun _ => ⟨⟨rfl, rfl, rfl, rfl, rfl⟩, rfl⟩, fun _ _ h => (by cases h), rfl⟩

theorem rest_setItem {s : State Id} (hs : Rest s) {i : Id} {t : Item} (hc : Clean t) (hw : t.waitingEnd = false) :
    Rest (s.setItem i t) := by
  refine ⟨fun j => ?_, hs.2.1, hs.2.2⟩
  by_cases h : j = i
  · subst h; rw [setItem_same]; exact ⟨hc, hw⟩
  · rw [setItem_other _ h]; exact hs.1 j

theorem session_reports {s s' : State Id} {as : List (Act Id)} (h : Session s as s') : Rest s →
    ∃ ms, s'.moves = s.moves ++ ms ∧ List.Forall₂ Reports (drops as) ms := by
  induction h with
  | nil s => intro _; exact ⟨[], by simp, .nil⟩
  | mount h ih =>
    intro hs
    exact ih (rest_setItem hs ⟨rfl, rfl, rfl, rfl, rfl⟩ rfl)
  | unmount h ih =>
    intro hs
    exact ih (rest_setItem hs ⟨rfl, rfl, rfl, rfl, rfl⟩ rfl)
  | @drag s s1 s2 g as hm hp h ih =>
    intro hs
    obtain ⟨r, -, hn, hsome, -⟩ := drag_gesture hs hm hp
    obtain ⟨ms, e, f⟩ := ih r
    cases hd : g.drop with
    | none =>
      refine ⟨ms, by rw [e, hn hd], ?_⟩
      simpa [drops, hd] using f
    | some j =>
      obtain ⟨m, e', rm⟩ := hsome j hd
      refine ⟨m :: ms, by rw [e, e']; simp, ?_⟩
      simp only [drops, hd, Option.isSome_some, if_true]
      exact .cons rm f

/-- **C62.** In a session in which every event is handled before the next one, `until_move` reports exactly the
drags that end on an item, in order, each with the item, the target and the side. (Missing: the side when the
item is dropped without the pointer having been over another item, see `drag_self_stale`.) -/
theorem drag_reports_partial {s : State Id} {as : List (Act Id)} (h : Session init as s) :
    List.Forall₂ Reports (drops as) s.moves := by
  obtain ⟨ms, e, f⟩ := session_reports h rest_init
  simp only [init, List.nil_append] at e
  rw [e]
  exact f

/-- **C62.** Items come without paddings, and a drag leaves none behind at the item it is dropped on and at those
that the pointer has left. -/
theorem drag_no_gap {s s' : State Id} {g : Gesture Id} (hs : Rest s)
    (hm : ∀ p ∈ g.events, (s.items p.1).mounted = true) (hp : Play s g.events s') (k : Id)
    (h0 : (s.items k).padding = (0, 0)) (hk : g.drop = some k ∨ Closed g.way k) :
    (s'.items k).padding = (0, 0) := (drag_gesture hs hm hp).2.2.2.2 k h0 hk

/-- **C62.** While the pointer is over another item, there is room of the size of the dragged item on the side where
the pointer is, and none on the other side. -/
theorem drag_room {s s' : State Id} {item j : Id} {size pointer begins : Int} {way : List (Way Id)} (hs : Rest s)
    (hi : (s.items item).mounted = true) (hw : ∀ w ∈ way, (s.items (Way.event w).1).mounted = true)
    (hj : (s.items j).mounted = true) (hne : j ≠ item)
    (h0 : (s.items j).spacer = .none ∧ (s.items j).padding = (0, 0))
    (hp : Play s ((item, .start size) :: (way ++ [Way.over j pointer begins]).map Way.event) s') :
    (s'.items j).padding = if 2 * pointer > 2 * begins + size then (0, size) else (size, 0) := by
  cases hp with
  | cons h1 hp =>
    rw [← List.append_nil (List.map _ _)] at hp
    have hmw : ∀ w ∈ way ++ [Way.over j pointer begins], (s.items (Way.event w).1).mounted = true := by
      intro w hw'
      simp only [List.mem_append, List.mem_singleton] at hw'
      rcases hw' with hw' | rfl
      · exact hw w hw'
      · exact hj
    obtain ⟨s2, h2, h3⟩ := mid_ways _ (way ++ [.over j pointer begins]) [] (mid_start hs hi h1) hmw hp
    cases h3
    rw [List.nil_append] at h2
    have r := h2.room j (by rw [h0.1, h0.2]; rfl)
    rw [h2.shown way j pointer begins rfl hne] at r
    split at r
    · rename_i hd
      rw [if_pos hd]; exact r
    · rename_i hd
      rw [if_neg hd]; exact r

/-! ## Any order of events and polls -/

/-- How many `drop` events were sent to `j`. -/
def dropsSent (j : Id) : List (Action Id) → Nat
  | [] => 0
  | .fire i .drop :: as => dropsSent j as + if i = j then 1 else 0
  | _ :: as => dropsSent j as

/-- How many moves to `j` were reported. -/
def movesTo (j : Id) (ms : List (Move Id)) : Nat := (ms.filter fun m => decide (m.to = j)).length

/-- The paddings are those of the spacer: none, or room of some size on one side. -/
def Pad (t : Item) : Prop :=
  match t.spacer with
  | .none => t.padding = (0, 0)
  | .before => ∃ z, t.padding = (z, 0)
  | .after => ∃ z, t.padding = (0, z)

/-- A drop on `j` that `until_move` will report when it is polled. -/
def owed (j : Id) (s : State Id) : Nat :=
  match s.phase, s.inner with
  | some _, .dropped _ t _ => if t = j then 1 else 0
  | _, _ => 0

theorem owed_le (j : Id) (s : State Id) : owed j s ≤ 1 := by
  unfold owed
  split
  · split <;> omega
  · omega

/-- What holds after any actions. -/
structure Inv (as : List (Action Id)) (s : State Id) : Prop where
  start : ∀ i z, (s.items i).start = some z → Action.fire i (.start z) ∈ as
  started : ∀ i z, s.inner = .dragStarted i z → Action.fire i (.start z) ∈ as
  drop : ∀ j, (s.items j).drop = true → Action.fire j .drop ∈ as
  dropped : ∀ i j b, s.inner = .dropped i j b → (∃ z, Action.fire i (.start z) ∈ as) ∧ Action.fire j .drop ∈ as
  moves : ∀ m ∈ s.moves, (∃ z, Action.fire m.frm (.start z) ∈ as) ∧ Action.fire m.to .drop ∈ as
  count : ∀ j, movesTo j s.moves + owed j s + (if (s.items j).drop then 1 else 0) ≤ dropsSent j as
  pad : ∀ j, Pad (s.items j)

theorem inv_item {as : List (Action Id)} {s : State Id} {i : Id} {t : Item} (h : Inv as s)
    (h1 : ∀ z, t.start = some z → Action.fire i (.start z) ∈ as) (h2 : t.drop = true → (s.items i).drop = true)
    (h3 : Pad t) : Inv as (s.setItem i t) := by
  refine ⟨fun j z e => ?_, h.started, fun j e => ?_, h.dropped, h.moves, fun j => ?_, fun j => ?_⟩
  · by_cases hj : j = i
    · subst hj; rw [setItem_same] at e; exact h1 z e
    · rw [setItem_other _ hj] at e; exact h.start j z e
  · by_cases hj : j = i
    · subst hj; rw [setItem_same] at e; exact h.drop j (h2 e)
    · rw [setItem_other _ hj] at e; exact h.drop j e
  · have c := h.count j
    by_cases hj : j = i
    · subst hj
      rw [setItem_same]
      change movesTo j s.moves + owed j s + _ ≤ _
      by_cases ht : t.drop = true
      · rw [h2 ht] at c; rw [ht]; exact c
      · simp only [ht]
        refine Nat.le_trans ?_ c
        simp
    · rw [setItem_other _ hj]
      exact c
  · by_cases hj : j = i
    · subst hj; rw [setItem_same]; exact h3
    · rw [setItem_other _ hj]; exact h.pad j

/-- The state of the `Dragger` changes, but no new drop is recorded. -/
theorem inv_inner {as : List (Action Id)} {s : State Id} {x : Inner Id} (h : Inv as s)
    (h1 : ∀ i z, x = .dragStarted i z → Action.fire i (.start z) ∈ as)
    (h2 : ∀ i j b, x = .dropped i j b → s.inner = x) : Inv as { s with inner := x } := by
  refine ⟨h.start, h1, h.drop, fun i j b e => h.dropped i j b ((h2 i j b e).trans e), h.moves, fun j => ?_, h.pad⟩
  refine Nat.le_trans ?_ (h.count j)
  have : owed j { s with inner := x } ≤ owed j s := by
    cases x with
    | notDragging => simp [owed]
    | dragStarted f z => simp [owed]
    | dropped f t b =>
      have := h2 f t b rfl
      simp only [owed, this]
      exact Nat.le_refl _
  exact Nat.add_le_add_right (Nat.add_le_add_left this _) _

theorem inv_takeStart {as : List (Action Id)} {s : State Id} (i : Id) (h : Inv as s) : Inv as (takeStart i s) := by
  unfold takeStart
  simp only []
  split
  · rename_i z hw hz
    refine inv_inner (inv_item h (fun z' e => (by cases e)) (fun e => e) (h.pad i)) (fun j z' e => ?_)
      (fun a b c e => (by cases e))
    cases e
    exact h.start i z hz
  · exact h

theorem inv_takeEnd {as : List (Action Id)} {s : State Id} (i : Id) (h : Inv as s) : Inv as (takeEnd i s) := by
  unfold takeEnd
  simp only []
  split
  · refine inv_inner (inv_item h (fun z' e => h.start i z' e) (fun e => e) (h.pad i)) (fun j z' e => ?_)
      (fun a b c e => ?_)
    · cases hi : s.inner <;> simp [hi] at e
    · change s.inner = _
      cases hi : s.inner <;> simp [hi] at e ⊢
  · exact h

theorem inv_pollOver {as : List (Action Id)} {s : State Id} (i : Id) (h : Inv as s) : Inv as (pollOver i s) := by
  have keep : ∀ t : Item, t.start = (s.items i).start → t.drop = (s.items i).drop → Pad t →
      Inv as (s.setItem i t) := fun t a b c =>
    inv_item h (fun z e => h.start i z (by rw [← a]; exact e)) (fun e => by rw [← b]; exact e) c
  have keep' : ∀ (t : Item) (b : Bool), t.start = (s.items i).start → t.drop = (s.items i).drop → Pad t →
      Inv as { s.setItem i t with after := b } := fun t b p q r =>
    ⟨(keep t p q r).start, (keep t p q r).started, (keep t p q r).drop, (keep t p q r).dropped, (keep t p q r).moves,
      (keep t p q r).count, (keep t p q r).pad⟩
  have hp := h.pad i
  unfold pollOver
  simp only []
  split
  · exact h
  · rename_i p b hov
    split
    · rename_i f z hin
      split
      · exact keep _ rfl rfl hp
      · cases hd : decide (2 * p > 2 * b + z) <;> cases hs : (s.items i).spacer <;>
          refine keep' _ _ rfl rfl ?_ <;> simp_all [Pad]
    · exact keep _ rfl rfl hp

theorem inv_pollLeave {as : List (Action Id)} {s : State Id} (i : Id) (h : Inv as s) : Inv as (pollLeave i s) := by
  unfold pollLeave
  simp only []
  split
  · exact h
  · exact inv_item h (fun z e => h.start i z e) (fun e => e) rfl
  · exact inv_item h (fun z e => h.start i z e) (fun e => e) (h.pad i)

theorem inv_pollDrop {as : List (Action Id)} {s : State Id} (i : Id) (h : Inv as s) : Inv as (pollDrop i s) := by
  unfold pollDrop
  simp only []
  split
  · rename_i hd
    have h' := inv_item (t := { s.items i with drop := false, spacer := .none, padding := (0, 0) }) h
      (fun z e => h.start i z e) (fun e => (by cases e)) rfl
    cases hi : s.inner with
    | notDragging => exact inv_inner h' (fun _ _ e => (by cases e)) (fun _ _ _ e => (by cases e))
    | dropped f t b => exact inv_inner h' (fun _ _ e => (by cases e)) (fun _ _ _ e => hi)
    | dragStarted f z =>
      refine ⟨h'.start, fun _ _ e => (by cases e), h'.drop, fun a c b e => ?_, h'.moves, fun j => ?_, h'.pad⟩
      · cases e
        exact ⟨⟨z, h.started f z hi⟩, h.drop i hd⟩
      · have c := h.count j
        by_cases hj : j = i
        · subst hj
          rw [hd] at c
          have o : owed j s = 0 := by simp [owed, hi]
          change movesTo j s.moves + _ + (if ((s.setItem j _).items j).drop then 1 else 0) ≤ _
          rw [setItem_same]
          simp only [o, if_true] at c
          refine Nat.le_trans (Nat.add_le_add (Nat.add_le_add_left (owed_le j _) _) (Nat.le_refl _)) ?_
          simp
          omega
        · change movesTo j s.moves + _ + (if ((s.setItem i _).items j).drop then 1 else 0) ≤ _
          rw [setItem_other _ hj]
          have : owed j ({ s.setItem i { s.items i with drop := false, spacer := .none, padding := (0, 0) } with
              inner := .dropped f i s.after }) = 0 := by
            simp only [owed]
            split
            · rename_i e; cases e; simp [Ne.symm hj]
            · rfl
          simp only [this]
          omega
  · exact h

theorem inv_pollItem {as : List (Action Id)} {s : State Id} (i : Id) (h : Inv as s) : Inv as (pollItem i s) := by
  unfold pollItem
  split
  · exact inv_pollDrop i (inv_pollLeave i (inv_pollOver i (inv_takeStart i (inv_takeEnd i (inv_takeStart i h)))))
  · exact h

theorem inv_pollMove {as : List (Action Id)} {s : State Id} (h : Inv as s) : Inv as (pollMove s) := by
  unfold pollMove
  have none' : ∀ p, (p = none ∨ ∃ f z, s.inner = .dragStarted f z) → Inv as { s with phase := p } := fun p hp =>
    ⟨h.start, h.started, h.drop, h.dropped, h.moves, fun j => by
      refine Nat.le_trans ?_ (h.count j)
      have : owed j { s with phase := p } = 0 := by
        rcases hp with rfl | ⟨f, z, e⟩
        · rfl
        · simp [owed, e]
      simp only [this]
      omega, h.pad⟩
  split
  · rename_i e; exact none' _ (Or.inr ⟨_, _, e⟩)
  · exact h
  · split
    · exact h
    · rename_i e _; exact none' _ (Or.inr ⟨_, _, e⟩)
  · rename_i d f t b hp hi
    have hd := h.dropped f t b hi
    refine ⟨h.start, h.started, h.drop, h.dropped, fun m hm => ?_, fun j => ?_, h.pad⟩
    · simp only [List.mem_append, List.mem_singleton] at hm
      rcases hm with hm | rfl
      · exact h.moves m hm
      · exact hd
    · have c := h.count j
      simp only [owed, hp, hi] at c
      have e : movesTo j (s.moves ++ [⟨f, t, b⟩]) = movesTo j s.moves + if t = j then 1 else 0 := by
        simp only [movesTo, List.filter_append, List.length_append]
        by_cases ht : t = j <;> simp [ht]
      simp only [e, owed]
      omega
  · exact none' _ (Or.inl rfl)

theorem dropsSent_append (j : Id) (as bs : List (Action Id)) :
    dropsSent j (as ++ bs) = dropsSent j as + dropsSent j bs := by
  induction as with
  | nil => simp [dropsSent]
  | cons a as ih =>
    cases a with
    | fire i e => cases e <;> simp [dropsSent, ih]; omega
    | _ => simp [dropsSent, ih]

theorem inv_mono {as : List (Action Id)} {s : State Id} (h : Inv as s) (a : Action Id) : Inv (as ++ [a]) s := by
  refine ⟨fun i z e => by simp [h.start i z e], fun i z e => by simp [h.started i z e],
    fun j e => by simp [h.drop j e], fun i j b e => ?_, fun m hm => ?_, fun j => ?_, h.pad⟩
  · obtain ⟨⟨z, hz⟩, hd⟩ := h.dropped i j b e
    exact ⟨⟨z, by simp [hz]⟩, by simp [hd]⟩
  · obtain ⟨⟨z, hz⟩, hd⟩ := h.moves m hm
    exact ⟨⟨z, by simp [hz]⟩, by simp [hd]⟩
  · rw [dropsSent_append]
    have := h.count j
    omega

theorem inv_fire {as : List (Action Id)} {s : State Id} (h : Inv as s) (i : Id) (e : Event) :
    Inv (as ++ [.fire i e]) (fire i e s) := by
  have h' := inv_mono h (.fire i e)
  unfold fire
  simp only []
  split
  · cases e with
    | start z =>
      refine inv_item h' (fun z' e => ?_) (fun e => e) (h.pad i)
      cases e
      simp
    | stop => exact inv_item h' (h'.start i) (fun e => e) (h.pad i)
    | over p b => exact inv_item h' (h'.start i) (fun e => e) (h.pad i)
    | leave self => exact inv_item h' (h'.start i) (fun e => e) (h.pad i)
    | drop =>
      refine ⟨fun j z e => ?_, h'.started, fun j e => ?_, h'.dropped, h'.moves, fun j => ?_, fun j => ?_⟩
      · by_cases hj : j = i
        · subst hj; rw [setItem_same] at e; exact h'.start j z e
        · rw [setItem_other _ hj] at e; exact h'.start j z e
      · by_cases hj : j = i
        · subst hj; simp
        · rw [setItem_other _ hj] at e; exact h'.drop j e
      · have c := h.count j
        rw [dropsSent_append]
        by_cases hj : j = i
        · subst hj
          rw [setItem_same]
          change movesTo j s.moves + owed j s + _ ≤ _
          simp [dropsSent]
          omega
        · rw [setItem_other _ hj]
          change movesTo j s.moves + owed j s + _ ≤ _
          simp only [dropsSent]
          omega
      · by_cases hj : j = i
        · subst hj; rw [setItem_same]; exact h.pad j
        · rw [setItem_other _ hj]; exact h.pad j
  · exact h'

theorem inv_step {as : List (Action Id)} {s : State Id} (h : Inv as s) (a : Action Id) :
    Inv (as ++ [a]) (step s a) := by
  cases a with
  | mount i => exact inv_item (inv_mono h _) (fun z e => (by cases e)) (fun e => (by cases e)) rfl
  | unmount i => exact inv_item (inv_mono h _) (fun z e => (by cases e)) (fun e => (by cases e)) rfl
  | fire i e => exact inv_fire h i e
  | pollItem i => exact inv_pollItem i (inv_mono h _)
  | pollMove => exact inv_pollMove (inv_mono h _)

theorem inv_run (as bs : List (Action Id)) {s : State Id} (h : Inv as s) : Inv (as ++ bs) (run s bs) := by
  induction bs generalizing as s with
  | nil => rw [List.append_nil]; exact h
  | cons b bs ih =>
    have := ih (as ++ [b]) (inv_step h b)
    rw [List.append_assoc] at this
    exact this

theorem inv_init : Inv [] (init : State Id) :=
  ⟨fun _ _ e => (by cases e), fun _ _ e => (by cases e), fun _ e => (by cases e), fun _ _ _ e => (by cases e),
    fun _ hm => (by cases hm), fun _ => Nat.le_refl _, fun _ => rfl⟩

/-- **C62.** Whatever happens in whatever order, nothing is made up: the item of a report was taken up, something was
dropped on its target, and there are no more reports about a target than drops on it. -/
theorem drag_sound (as : List (Action Id)) :
    (∀ m ∈ (run init as).moves, (∃ z, Action.fire m.frm (.start z) ∈ as) ∧ Action.fire m.to .drop ∈ as) ∧
    ∀ j, movesTo j (run init as).moves ≤ dropsSent j as := by
  have h := inv_run [] as inv_init
  simp only [List.nil_append] at h
  refine ⟨h.moves, fun j => ?_⟩
  have := h.count j
  omega

/-- **C62.** Whatever happens in whatever order, an item has room made on at most one side, and none when its spacer
says so. -/
theorem drag_paddings (as : List (Action Id)) (j : Id) : Pad ((run init as).items j) := by
  have h := inv_run [] as inv_init
  exact h.pad j

end Verif.Drag
