import Verif.Flow.Lang
import Mathlib.Data.List.Induction
/-!
# Polling when nothing has happened

For all programs: a poll fires nothing, and a future that is pending stays exactly as it is when it is polled again before
anything has fired. So it does not matter that the combinators of the library poll only those subfutures that were woken.
-/
namespace Verif.Flow

/-- Numbers that have not been used are not in use; nothing is a listener and a timer. -/
structure Fresh (w : World) : Prop where
  fired : ∀ h, w.next ≤ h → w.fired h = false
  listens : ∀ h, w.next ≤ h → w.listens h = none
  due : ∀ h, w.next ≤ h → w.due h = none
  apart : ∀ h n, w.listens h = some n → w.due h = none

/-- With a new timer. -/
theorem Fresh.timer {w : World} (h : Fresh w) (t : Nat) : Fresh { w with
    next := w.next + 1, due := fun i => if i = w.next then some t else w.due i } := by
  refine ⟨fun i hi => h.fired i (Nat.le_of_succ_le hi), fun i hi => h.listens i (Nat.le_of_succ_le hi), fun i hi => ?_,
    fun i n hi => ?_⟩
  · exact (if_neg (Nat.ne_of_gt hi)).trans (h.due i (Nat.le_of_succ_le hi))
  · have hne : i ≠ w.next := fun he => by
      have := h.listens i (Nat.le_of_eq he.symm)
      exact absurd (hi.symm.trans this) (by simp)
    exact (if_neg hne).trans (h.apart i n hi)

/-- With a new listener. -/
theorem Fresh.listener {w : World} (h : Fresh w) (n : Nat) : Fresh { w with
    next := w.next + 1, listens := fun i => if i = w.next then some n else w.listens i } := by
  refine ⟨fun i hi => h.fired i (Nat.le_of_succ_le hi), fun i hi => ?_, fun i hi => h.due i (Nat.le_of_succ_le hi), fun i m hi => ?_⟩
  · exact (if_neg (Nat.ne_of_gt hi)).trans (h.listens i (Nat.le_of_succ_le hi))
  · by_cases he : i = w.next
    · exact h.due i (Nat.le_of_eq he.symm)
    · exact h.apart i m ((if_neg he).symm.trans hi)

/-- With a new element. -/
theorem Fresh.element {w : World} (h : Fresh w) (p : Nat → Key → String) : Fresh { w with next := w.next + 1, prop := p } :=
  ⟨fun i hi => h.fired i (Nat.le_of_succ_le hi), fun i hi => h.listens i (Nat.le_of_succ_le hi),
    fun i hi => h.due i (Nat.le_of_succ_le hi), h.apart⟩

theorem Fresh.prop {w : World} (h : Fresh w) (p : Nat → Key → String) : Fresh { w with prop := p } :=
  ⟨h.fired, h.listens, h.due, h.apart⟩

/-- What a poll does to the world: it creates things. -/
structure Grows (w w' : World) : Prop where
  fired : w'.fired = w.fired
  now : w'.now = w.now
  next : w.next ≤ w'.next
  listens : ∀ h, h < w.next → w'.listens h = w.listens h
  due : ∀ h, h < w.next → w'.due h = w.due h
  fresh : Fresh w → Fresh w'

theorem Grows.refl (w : World) : Grows w w := ⟨rfl, rfl, Nat.le_refl _, fun _ _ => rfl, fun _ _ => rfl, id⟩

theorem Grows.trans {a b c : World} (h : Grows a b) (k : Grows b c) : Grows a c :=
  ⟨k.fired.trans h.fired, k.now.trans h.now, Nat.le_trans h.next k.next,
    fun i hi => (k.listens i (Nat.lt_of_lt_of_le hi h.next)).trans (h.listens i hi),
    fun i hi => (k.due i (Nat.lt_of_lt_of_le hi h.next)).trans (h.due i hi), fun f => k.fresh (h.fresh f)⟩

theorem poll_grows {α : Type} (f : Fut α) (w : World) : Grows w (poll f w).2.1 := by
  induction f generalizing w with
  | pure a => exact .refl w
  | bind f rest ihf ihr =>
    have h := ihf w
    simp only [poll]
    split
    · rename_i a he
      rw [he] at h
      have k := ihr a ‹World›
      split
      · rename_i he'
        rw [he'] at k; exact h.trans k
      · rename_i he'
        rw [he'] at k; exact h.trans k
    · rename_i he; rw [he] at h; exact h
    · rename_i he; rw [he] at h; exact h
  | create rest ih =>
    simp only [poll]
    refine Grows.trans ?_ (ih _ _)
    exact ⟨rfl, rfl, Nat.le_succ _, fun _ _ => rfl, fun _ _ => rfl,
      fun h => h.element _⟩
  | put n k s rest ih =>
    simp only [poll]
    refine Grows.trans ?_ (ih _)
    exact ⟨rfl, rfl, Nat.le_refl _, fun _ _ => rfl, fun _ _ => rfl, fun h => h.prop _⟩
  | get n k rest ih => exact ih _ w
  | timeout ms rest ih =>
    simp only [poll]
    refine Grows.trans ?_ (ih _ _)
    exact ⟨rfl, rfl, Nat.le_succ _, fun _ _ => rfl, fun i hi => if_neg (Nat.ne_of_lt hi), fun h => h.timer _⟩
  | loop body now ihb ihn =>
    have h := ihn w
    simp only [poll]
    split
    · rename_i he; rw [he] at h; exact h
    · rename_i he
      rw [he] at h
      have k := ihb ‹World›
      split <;> rename_i he' <;> rw [he'] at k <;> exact h.trans k
    · rename_i he; rw [he] at h; exact h
    · rename_i he; rw [he] at h; exact h
  | pending => exact .refl w
  | elapsed => exact .refl w
  | click n l =>
    cases l with
    | some => exact .refl w
    | none =>
      exact ⟨rfl, rfl, Nat.le_succ _, fun i hi => if_neg (Nat.ne_of_lt hi), fun _ _ => rfl, fun h => h.listener n⟩
  | text => exact .refl w
  | node t n a child ih => exact ih w
  | race l r ihl ihr =>
    have h := ihl w
    simp only [poll]
    split
    · rename_i he; rw [he] at h; exact h
    · rename_i he; rw [he] at h; exact h
    · rename_i he; rw [he] at h; exact h.trans (ihr _)
  | join l a r b ihl ihr =>
    cases a with
    | some a =>
      cases b with
      | some b => exact .refl w
      | none =>
        have h := ihr w
        simp only [poll]
        split <;> rename_i he <;> rw [he] at h <;> exact h
    | none =>
      have h := ihl w
      cases b with
      | some b =>
        simp only [poll]
        split <;> rename_i he <;> rw [he] at h <;> exact h
      | none =>
        simp only [poll]
        split
        · rename_i he
          rw [he] at h
          have k := ihr ‹World›
          split <;> rename_i he' <;> rw [he'] at k <;> exact h.trans k
        · rename_i he; rw [he] at h; exact h
        · rename_i he
          rw [he] at h
          have k := ihr ‹World›
          split <;> rename_i he' <;> rw [he'] at k <;> exact h.trans k
  | pendAfter f ih =>
    have h := ih w
    simp only [poll]
    split <;> rename_i he <;> rw [he] at h <;> exact h

/-- A pending future stays as it is until something fires. -/
theorem poll_again {α : Type} (f : Fut α) (w : World) (hw : Fresh w) (hp : (poll f w).2.2 = .pend) (w' : World)
    (hf : w'.fired = w.fired) : poll (poll f w).1 w' = ((poll f w).1, w', .pend) := by
  induction f generalizing w with
  | pure a => simp [poll] at hp
  | bind f rest ihf ihr =>
    have g := poll_grows f w
    have h := ihf w hw
    simp only [poll] at hp ⊢
    split at hp
    · rename_i w1 a he
      rw [he] at g
      have k := ihr a w1 (g.fresh hw)
      split at hp
      · simp at hp
      · rename_i g' w2 o hn he'
        rw [he'] at k
        simp only at hp
        cases o with
        | ready b => exact absurd hp (by simp)
        | pend => exact k rfl (hf.trans g.fired.symm)
        | hang => exact absurd hp (by simp)
    · rename_i f1 w1 he
      rw [he] at h
      simp only [poll, h rfl hf]
    · exact absurd hp (by simp)
  | create rest ih =>
    simp only [poll] at hp ⊢
    exact ih _ _ (hw.element _) hp hf
  | put n k s rest ih =>
    simp only [poll] at hp ⊢
    exact ih _ (hw.prop _) hp hf
  | get n k rest ih => exact ih _ w hw hp hf
  | timeout ms rest ih =>
    simp only [poll] at hp ⊢
    exact ih _ _ (hw.timer _) hp hf
  | loop body now ihb ihn =>
    have g := poll_grows now w
    have h := ihn w hw
    simp only [poll] at hp ⊢
    split at hp
    · exact absurd hp (by simp)
    · rename_i w1 he
      rw [he] at g
      have k := ihb w1 (g.fresh hw)
      split at hp
      · exact absurd hp (by simp)
      · exact absurd hp (by simp)
      · rename_i he'
        rw [he'] at k
        simp only [poll, k rfl (hf.trans g.fired.symm)]
      · exact absurd hp (by simp)
    · rename_i he
      rw [he] at h
      simp only [poll, h rfl hf]
    · exact absurd hp (by simp)
  | pending => rfl
  | elapsed h =>
    simp only [poll] at hp ⊢
    rw [hf, hp]
  | click n l =>
    cases l with
    | some h =>
      simp only [poll] at hp ⊢
      rw [hf, hp]
    | none =>
      simp only [poll, hf, hw.fired _ (Nat.le_refl _)]
      rfl
  | text => rfl
  | node t n a child ih =>
    simp only [poll] at hp ⊢
    rw [ih w hw hp hf]
  | race l r ihl ihr =>
    have g := poll_grows l w
    have h := ihl w hw
    simp only [poll] at hp ⊢
    split at hp
    · exact absurd hp (by simp)
    · exact absurd hp (by simp)
    · rename_i w1 he
      rw [he] at g h
      have k := ihr w1 (g.fresh hw) hp (hf.trans g.fired.symm)
      simp only [poll, h rfl hf, k]
  | join l a r b ihl ihr =>
    have g := poll_grows l w
    have h := ihl w hw
    have k := ihr w hw
    cases a with
    | some a =>
      cases b with
      | some b => simp [poll] at hp
      | none =>
        simp only [poll] at hp ⊢
        split at hp
        · exact absurd hp (by simp)
        · rename_i he; rw [he] at k; simp only [poll, k rfl hf]
        · exact absurd hp (by simp)
    | none =>
      cases b with
      | some b =>
        simp only [poll] at hp ⊢
        split at hp
        · exact absurd hp (by simp)
        · rename_i he; rw [he] at h; simp only [poll, h rfl hf]
        · exact absurd hp (by simp)
      | none =>
        simp only [poll] at hp ⊢
        split at hp
        · rename_i w1 _ he
          rw [he] at g
          have k := ihr w1 (g.fresh hw)
          split at hp
          · exact absurd hp (by simp)
          · rename_i he'
            rw [he'] at k
            simp only [poll, k rfl (hf.trans g.fired.symm)]
          · exact absurd hp (by simp)
        · exact absurd hp (by simp)
        · rename_i w1 he
          rw [he] at g h
          have k := ihr w1 (g.fresh hw)
          split at hp
          · rename_i he'
            simp only [poll, h rfl hf]
          · rename_i he'
            rw [he'] at k
            simp only [poll, h rfl hf, k rfl (hf.trans g.fired.symm)]
          · exact absurd hp (by simp)
  | pendAfter f ih =>
    have h := ih w hw
    simp only [poll] at hp ⊢
    split at hp
    · rename_i he; rfl
    · rename_i he; rw [he] at h; simp only [poll, h rfl hf]
    · exact absurd hp (by simp)

/-- Every world that an app gets to is fresh. -/
theorem step_fresh {α : Type} (A : App α) (e : Event) (h : Fresh A.world) : Fresh (A.step e).world := by
  have hp : ∀ A : App α, Fresh A.world → Fresh A.poll.world := by
    intro A h
    have g := (poll_grows A.fut A.world).fresh h
    unfold App.poll
    split
    · split
      · rename_i he; rw [he] at g; exact g
      · rename_i he; rw [he] at g; exact g
    · exact h
  cases e with
  | type i s =>
    simp only [App.step]
    split
    · exact h.prop _
    · exact h
  | click i =>
    simp only [App.step]
    split
    · refine hp _ ⟨fun j hj => ?_, h.listens, h.due, h.apart⟩
      simp [h.fired j hj, h.listens j hj]
    · exact h
  | advance ms =>
    refine ⟨fun j hj => ?_, h.listens, h.due, h.apart⟩
    simp [App.step, h.fired j hj, h.due j hj]
  | poll => exact hp A h

theorem run_fresh {α : Type} (f : Fut α) (es : List Event) : Fresh ((App.mount f).run es).world := by
  unfold App.run
  induction es using List.reverseRecOn with
  | nil => exact ⟨fun _ _ => rfl, fun _ _ => rfl, fun _ _ => rfl, fun _ _ _ => rfl⟩
  | append_singleton es e ih =>
    rw [List.foldl_append]
    exact step_fresh _ e ih

/-- **C77, idle.** When the executor has run, running it once more before anything happens changes nothing: not the app, not the
page, not the listeners, not the timers. For every program and every history. -/
theorem poll_idle {α : Type} (f : Fut α) (es : List Event) :
    (App.mount f).run (es ++ [.poll, .poll]) = (App.mount f).run (es ++ [.poll]) := by
  have hw := run_fresh f es
  simp only [App.run, List.foldl_append, List.foldl_cons, List.foldl_nil] at hw ⊢
  generalize List.foldl App.step (App.mount f) es = A at hw
  have g := poll_grows A.fut A.world
  have k := poll_again A.fut A.world hw
  simp only [App.step]
  cases ho : A.out with
  | ready a => simp only [App.poll, ho]
  | hang => simp only [App.poll, ho]
  | pend =>
    rcases hr : poll A.fut A.world with ⟨f', w', o⟩
    rw [hr] at g k
    cases o with
    | ready a => simp only [App.poll, ho, hr]
    | hang => simp only [App.poll, ho, hr]
    | pend => simp only [App.poll, ho, hr, k rfl w' g.fired]

/-! ## Time -/

theorem fresh_now {w : World} (h : Fresh w) : w.fired w.next = false := h.fired _ (Nat.le_refl _)

/-- The timer `t` has `left` milliseconds left. -/
def Left (w : World) (t left : Nat) : Prop := ∃ d, w.due t = some d ∧ left = d - w.now ∧ w.fired t = decide (d ≤ w.now)

theorem Left.zero {w : World} {t : Nat} (h : Left w t 0) : w.fired t = true := by
  obtain ⟨d, -, h2, h3⟩ := h
  rw [h3, decide_eq_true_eq]; omega

theorem Left.pos {w : World} {t n : Nat} (h : Left w t (n + 1)) : w.fired t = false := by
  obtain ⟨d, -, h2, h3⟩ := h
  rw [h3, decide_eq_false_iff_not]; omega

/-- The world after some time. -/
def later (w : World) (ms : Nat) : World :=
  { w with now := w.now + ms, fired := fun h => w.fired h || (w.due h).any (· ≤ w.now + ms) }

theorem Left.advance {w : World} {t left : Nat} (h : Left w t left) (ms : Nat) : Left (later w ms) t (left - ms) := by
  obtain ⟨d, h1, h2, h3⟩ := h
  refine ⟨d, h1, ?_, ?_⟩
  · simp only [later]; omega
  · simp only [later, h1, h3, Option.any_some]
    rw [← Bool.decide_or]
    exact decide_eq_decide.2 (by omega)

/-- The time that passes during some events. -/
def time : List Event → Nat
  | [] => 0
  | .advance ms :: es => ms + time es
  | _ :: es => time es

theorem time_append (es es' : List Event) : time (es ++ es') = time es + time es' := by
  induction es with
  | nil => simp [time]
  | cons e es ih => cases e <;> simp [time, ih, Nat.add_assoc]

end Verif.Flow
