import Verif.Events.Props
/-!
# Streams that yield every event

The events of several streams together, for example of the streams that a loop makes one after the other.
-/
namespace Verif.Events

/-- The events that the browser delivered to the streams of `P`, in order. -/
def deliveredTo (P : Nat → Bool) : History → List Op → List Ev
  | _, [] => []
  | H, op :: ops =>
      (match op with
        | .deliver l e =>
          match H.order[l.callback]? with
          | some i => if P i then [e] else []
          | none => []
        | _ => []) ++ deliveredTo P (H.next op) ops

/-- The events that polls of the streams of `P` returned, in order. -/
def yieldedBy (P : Nat → Bool) : List Op → List Obs → List Ev
  | .poll j _ :: ops, o :: os => (if P j then (o.polled.join).toList else []) ++ yieldedBy P ops os
  | _ :: ops, _ :: os => yieldedBy P ops os
  | _, _ => []

/-- The stream has been polled and not dropped. -/
def History.listening (H : History) (i : Nat) : Prop := (H.view i).waker ≠ none ∧ (H.view i).dropped = false

/-- For one stream these are the definitions of C40. -/
theorem deliveredTo_one (i : Nat) (H : History) (ops : List Op) : deliveredTo (· == i) H ops = delivered i H ops := by
  induction ops generalizing H with
  | nil => rfl
  | cons op ops ih =>
    simp only [deliveredTo, delivered, ih]
    cases op with
    | deliver l e =>
      cases h : H.order[l.callback]? with
      | none => simp only [h]; simp
      | some k => simp only [h]; simp
    | _ => rfl

theorem yieldedBy_one (i : Nat) (ops : List Op) (os : List Obs) : yieldedBy (· == i) ops os = yielded i ops os := by
  induction ops generalizing os with
  | nil => rfl
  | cons op ops ih =>
    cases os with
    | nil => cases op <;> rfl
    | cons o os => cases op <;> simp [yieldedBy, yielded, ih]

/-- What is known after any history: only streams that were polled have a listener or unread events. -/
structure Known (H : History) : Prop where
  order : ∀ i ∈ H.order, (H.view i).waker ≠ none
  unread : ∀ i, (H.view i).unread ≠ none → (H.view i).waker ≠ none

theorem known_nil : Known {} := ⟨by simp, by simp⟩

theorem known_next {H : History} (h : Known H) (op : Op) : Known (H.next op) := by
  have same : ∀ (i : Nat) (f : View → View), (∀ v, (f v).waker = v.waker) → (∀ v, (f v).unread = v.unread) →
      Known (H.upd i f) := by
    intro i f h1 h2
    refine ⟨fun j hj => ?_, fun j hj => ?_⟩
    · simp only [History.upd]
      split
      · rw [h1]; exact h.order j hj
      · exact h.order j hj
    · simp only [History.upd] at hj ⊢
      split at hj
      · next he => rw [if_pos he, h1]; rw [h2] at hj; exact h.unread j hj
      · next he => rw [if_neg he]; exact h.unread j hj
  cases op with
  | new t y => exact ⟨h.order, h.unread⟩
  | setCapture i b =>
    exact same i (fun v => if v.waker = none then { v with capture := b } else v)
      (fun v => by split <;> rfl) (fun v => by split <;> rfl)
  | setPassive i b =>
    exact same i (fun v => if v.waker = none then { v with passive := b } else v)
      (fun v => by split <;> rfl) (fun v => by split <;> rfl)
  | drop i => exact same i (fun v => { v with dropped := true }) (fun _ => rfl) (fun _ => rfl)
  | poll i w =>
    refine ⟨fun j hj => ?_, fun j hj => ?_⟩
    · simp only [History.next, History.upd] at hj ⊢
      by_cases hji : j = i
      · simp [hji]
      · rw [if_neg hji]
        split at hj
        · rcases List.mem_append.1 hj with hj | hj
          · exact h.order j hj
          · exact absurd (List.mem_singleton.1 hj) hji
        · exact h.order j hj
    · simp only [History.next, History.upd] at hj ⊢
      by_cases hji : j = i
      · simp [hji]
      · rw [if_neg hji] at hj ⊢
        exact h.unread j hj
  | deliver l e =>
    simp only [History.next]
    cases ho : H.order[l.callback]? with
    | none => exact h
    | some i =>
      refine ⟨fun j hj => ?_, fun j hj => ?_⟩
      · simp only [History.upd]
        split
        · exact h.order j hj
        · exact h.order j hj
      · simp only [History.upd] at hj ⊢
        split
        · next he => subst he; exact h.order _ (List.mem_of_getElem? ho)
        · next he => rw [if_neg he] at hj; exact h.unread j hj

/-- At most one stream of `P` has an unread event, `pend`. -/
def Pending (P : Nat → Bool) (H : History) (pend : Option Ev) : Prop :=
  (pend = none ∧ ∀ j, P j = true → (H.view j).unread = none) ∨
  ∃ i e, pend = some e ∧ P i = true ∧ (H.view i).unread = some e ∧ ∀ j, P j = true → j ≠ i → (H.view j).unread = none

theorem pending_congr {P : Nat → Bool} {H H' : History} {pend : Option Ev}
    (h : ∀ j, P j = true → (H'.view j).unread = (H.view j).unread) (hp : Pending P H pend) : Pending P H' pend := by
  rcases hp with ⟨h1, h2⟩ | ⟨i, e, h1, h2, h3, h4⟩
  · exact .inl ⟨h1, fun j hj => (h j hj).trans (h2 j hj)⟩
  · exact .inr ⟨i, e, h1, h2, (h i h2).trans h3, fun j hj hne => (h j hj).trans (h4 j hj hne)⟩

/-- Streams that have read everything whenever one of them receives something or is dropped: what they have
yielded is what they were given, except for an event that is still unread. -/
theorem yieldedBy_eq {P : Nat → Bool} {ops : List Op} {H : History} {pend : Option Ev} (hk : Known H)
    (hp : Pending P H pend) (hgone : ∀ j, P j = true → (H.view j).dropped = true → (H.view j).unread = none)
    (hd : ∀ a l e b, ops = a ++ .deliver l e :: b → ∀ i, (a.foldl History.next H).order[l.callback]? = some i → P i = true →
      ((a.foldl History.next H).view i).dropped = false ∧
      ∀ j, P j = true → (a.foldl History.next H).listening j → ((a.foldl History.next H).view j).unread = none)
    (hx : ∀ a j b, ops = a ++ .drop j :: b → P j = true → ((a.foldl History.next H).view j).unread = none) :
    ∃ pend', Pending P (ops.foldl History.next H) pend' ∧
      (∀ j, P j = true → ((ops.foldl History.next H).view j).dropped = true →
        ((ops.foldl History.next H).view j).unread = none) ∧
      pend.toList ++ deliveredTo P H ops = yieldedBy P ops (observed H ops) ++ pend'.toList := by
  induction ops generalizing H pend with
  | nil => exact ⟨pend, hp, hgone, by simp [deliveredTo, yieldedBy]⟩
  | cons op ops ih =>
    have hd' : ∀ a l e b, ops = a ++ .deliver l e :: b → ∀ i, (a.foldl History.next (H.next op)).order[l.callback]? = some i →
        P i = true → ((a.foldl History.next (H.next op)).view i).dropped = false ∧
        ∀ j, P j = true → (a.foldl History.next (H.next op)).listening j →
          ((a.foldl History.next (H.next op)).view j).unread = none :=
      fun a l e b hab => hd (op :: a) l e b (by rw [hab]; rfl)
    have hx' : ∀ a j b, ops = a ++ .drop j :: b → P j = true → ((a.foldl History.next (H.next op)).view j).unread = none :=
      fun a j b hab => hx (op :: a) j b (by rw [hab]; rfl)
    have hk' := known_next hk op
    -- operations that change nothing about events
    have same : (∀ j, ((H.next op).view j).unread = (H.view j).unread) →
        (∀ j, P j = true → ((H.next op).view j).dropped = true → ((H.next op).view j).unread = none) →
        deliveredTo P H (op :: ops) = deliveredTo P (H.next op) ops →
        yieldedBy P (op :: ops) (observed H (op :: ops)) = yieldedBy P ops (observed (H.next op) ops) →
        ∃ pend', Pending P ((op :: ops).foldl History.next H) pend' ∧
          (∀ j, P j = true → (((op :: ops).foldl History.next H).view j).dropped = true →
            (((op :: ops).foldl History.next H).view j).unread = none) ∧
          pend.toList ++ deliveredTo P H (op :: ops) =
            yieldedBy P (op :: ops) (observed H (op :: ops)) ++ pend'.toList := by
      intro h1 h2 h3 h4
      obtain ⟨pend', p1, p2, p3⟩ := ih hk' (pending_congr (fun j _ => h1 j) hp) h2 hd' hx'
      exact ⟨pend', p1, p2, by rw [h3, h4]; exact p3⟩
    cases op with
    | new t y => exact same (fun _ => rfl) hgone rfl rfl
    | setCapture i b =>
      have h1 : ∀ j, ((H.next (.setCapture i b)).view j).unread = (H.view j).unread ∧
          ((H.next (.setCapture i b)).view j).dropped = (H.view j).dropped := by
        intro j
        simp only [History.next, History.upd]
        split
        · split <;> exact ⟨rfl, rfl⟩
        · exact ⟨rfl, rfl⟩
      exact same (fun j => (h1 j).1) (fun j hj hdr => by rw [(h1 j).1]; exact hgone j hj ((h1 j).2 ▸ hdr)) rfl rfl
    | setPassive i b =>
      have h1 : ∀ j, ((H.next (.setPassive i b)).view j).unread = (H.view j).unread ∧
          ((H.next (.setPassive i b)).view j).dropped = (H.view j).dropped := by
        intro j
        simp only [History.next, History.upd]
        split
        · split <;> exact ⟨rfl, rfl⟩
        · exact ⟨rfl, rfl⟩
      exact same (fun j => (h1 j).1) (fun j hj hdr => by rw [(h1 j).1]; exact hgone j hj ((h1 j).2 ▸ hdr)) rfl rfl
    | drop i =>
      have h1 : ∀ j, ((H.next (.drop i)).view j).unread = (H.view j).unread := by
        intro j
        simp only [History.next, History.upd]
        split <;> rfl
      refine same h1 (fun j hj hdr => ?_) rfl rfl
      rw [h1]
      by_cases hji : j = i
      · subst hji; exact hx [] j ops rfl hj
      · refine hgone j hj ?_
        simpa [History.next, History.upd, hji] using hdr
    | poll i wk =>
      by_cases hi : P i = true
      · have hu : ((H.next (.poll i wk)).view i).unread = none := by simp [History.next, History.upd]
        have ho : ∀ j, j ≠ i → (H.next (.poll i wk)).view j = H.view j := by
          intro j hj; simp [History.next, History.upd, hj]
        have hgone' : ∀ j, P j = true → ((H.next (.poll i wk)).view j).dropped = true →
            ((H.next (.poll i wk)).view j).unread = none := by
          intro j hj hdr
          by_cases hji : j = i
          · subst hji; exact hu
          · rw [ho j hji] at hdr ⊢; exact hgone j hj hdr
        have hy : yieldedBy P (.poll i wk :: ops) (observed H (.poll i wk :: ops)) =
            (H.view i).unread.toList ++ yieldedBy P ops (observed (H.next (.poll i wk)) ops) := by
          simp [observed, yieldedBy, hi, History.obs]
        have hdv : deliveredTo P H (.poll i wk :: ops) = deliveredTo P (H.next (.poll i wk)) ops := rfl
        by_cases hui : (H.view i).unread = none
        · have hp' : Pending P (H.next (.poll i wk)) pend := by
            refine pending_congr (fun j _ => ?_) hp
            by_cases hji : j = i
            · subst hji; rw [hu, hui]
            · rw [ho j hji]
          obtain ⟨pend', p1, p2, p3⟩ := ih hk' hp' hgone' hd' hx'
          refine ⟨pend', p1, p2, ?_⟩
          rw [hdv, hy, hui]; exact p3
        · rcases hp with ⟨-, h2⟩ | ⟨i', e, h1, h2, h3, h4⟩
          · exact absurd (h2 i hi) hui
          · have hii : i = i' := Decidable.byContradiction fun hne => hui (h4 i hi hne)
            subst hii
            have hp' : Pending P (H.next (.poll i wk)) none := by
              refine .inl ⟨rfl, fun j hj => ?_⟩
              by_cases hji : j = i
              · subst hji; exact hu
              · rw [ho j hji]; exact h4 j hj hji
            obtain ⟨pend', p1, p2, p3⟩ := ih hk' hp' hgone' hd' hx'
            refine ⟨pend', p1, p2, ?_⟩
            rw [hdv, hy, h1, h3, List.append_assoc, ← p3]; rfl
      · have ho : ∀ j, P j = true → (H.next (.poll i wk)).view j = H.view j := by
          intro j hj
          have hji : j ≠ i := fun e => hi (e ▸ hj)
          simp [History.next, History.upd, hji]
        obtain ⟨pend', p1, p2, p3⟩ := ih hk' (pending_congr (fun j hj => by rw [ho j hj]) hp)
          (fun j hj hdr => by rw [ho j hj] at hdr ⊢; exact hgone j hj hdr) hd' hx'
        refine ⟨pend', p1, p2, ?_⟩
        have hy : yieldedBy P (.poll i wk :: ops) (observed H (.poll i wk :: ops)) =
            yieldedBy P ops (observed (H.next (.poll i wk)) ops) := by
          simp [observed, yieldedBy, hi]
        rw [hy]; exact p3
    | deliver l e =>
      cases hol : H.order[l.callback]? with
      | none =>
        have hn : H.next (.deliver l e) = H := by simp [History.next, hol]
        refine same (fun j => by rw [hn]) (fun j hj hdr => by rw [hn] at hdr ⊢; exact hgone j hj hdr) ?_ rfl
        simp [deliveredTo, hol]
      | some i =>
        have hn : H.next (.deliver l e) = H.upd i fun v => { v with unread := some e } := by simp [History.next, hol]
        by_cases hi : P i = true
        · obtain ⟨hal, hread⟩ := hd [] l e ops rfl i hol hi
          have hnone : ∀ j, P j = true → (H.view j).unread = none := by
            intro j hj
            refine Decidable.byContradiction fun hne => ?_
            cases hdr : (H.view j).dropped with
            | true => exact hne (hgone j hj hdr)
            | false => exact hne (hread j hj ⟨hk.unread j hne, hdr⟩)
          have hpend : pend = none := by
            rcases hp with ⟨h1, -⟩ | ⟨i', e', -, h2, h3, -⟩
            · exact h1
            · rw [hnone i' h2] at h3; cases h3
          have ho : ∀ j, j ≠ i → (H.next (.deliver l e)).view j = H.view j := by
            intro j hj; rw [hn]; simp [History.upd, hj]
          have hp' : Pending P (H.next (.deliver l e)) (some e) :=
            .inr ⟨i, e, rfl, hi, by rw [hn]; simp [History.upd], fun j hj hji => by rw [ho j hji]; exact hnone j hj⟩
          have hgone' : ∀ j, P j = true → ((H.next (.deliver l e)).view j).dropped = true →
              ((H.next (.deliver l e)).view j).unread = none := by
            intro j hj hdr
            by_cases hji : j = i
            · subst hji
              rw [hn] at hdr
              have hdr' : (H.view j).dropped = true := by simpa [History.upd] using hdr
              rw [show (H.view j).dropped = false from hal] at hdr'; cases hdr'
            · rw [ho j hji] at hdr ⊢; exact hgone j hj hdr
          obtain ⟨pend', p1, p2, p3⟩ := ih hk' hp' hgone' hd' hx'
          refine ⟨pend', p1, p2, ?_⟩
          have hy : yieldedBy P (.deliver l e :: ops) (observed H (.deliver l e :: ops)) =
            yieldedBy P ops (observed (H.next (.deliver l e)) ops) := rfl
          rw [hpend, hy, ← p3]
          simp [deliveredTo, hol, hi]
        · have ho : ∀ j, P j = true → (H.next (.deliver l e)).view j = H.view j := by
            intro j hj
            have hji : j ≠ i := fun e => hi (e ▸ hj)
            rw [hn]; simp [History.upd, hji]
          obtain ⟨pend', p1, p2, p3⟩ := ih hk' (pending_congr (fun j hj => by rw [ho j hj]) hp)
            (fun j hj hdr => by rw [ho j hj] at hdr ⊢; exact hgone j hj hdr) hd' hx'
          refine ⟨pend', p1, p2, ?_⟩
          have hy : yieldedBy P (.deliver l e :: ops) (observed H (.deliver l e :: ops)) =
            yieldedBy P ops (observed (H.next (.deliver l e)) ops) := rfl
          rw [hy, ← p3]
          simp [deliveredTo, hol, hi]

end Verif.Events
