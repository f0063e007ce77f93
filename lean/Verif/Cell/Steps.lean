import Verif.Cell.Inv
/-!
# Every operation keeps the invariant
-/
namespace Verif.Cell
variable {V : Type}

theorem init_wf (v : V) : ∃ s, init v = some s ∧ WF s [] ∧ s.cell.data = v ∧ s.forEach = .start ∧
    s.listeners = [] ∧ s.seen = [] ∧ s.cell.free = true := by
  obtain ⟨a, e, hg⟩ := good_new
  refine ⟨⟨⟨v, a, 1, false, 0⟩, [], .start, []⟩, ?_, ⟨hg, ?_, ?_, ?_, ?_⟩, rfl, rfl, rfl, rfl, rfl⟩
  · simp only [init, Inner.new, e, bind, Option.bind, pure, Option.map_some]
  · intro x; simp [own, feSlots]
  · simp
  · intro i l h; simp at h
  · intro l h; cases h

/-- What a program that respects the borrow rules and the lifetimes of the listeners may do. -/
def allowed (s : Sys V) : Op V → Prop
  | .borrowMut => s.cell.free = true
  | .write _ => s.cell.writing = true
  | .dropGuard => s.cell.writing = true
  | .borrow => s.cell.writing = false
  | .dropRef => 0 < s.cell.readers
  | .listen => s.cell.free = true
  | .poll i _ => s.cell.free = true ∧ ∃ l, s.listeners[i]? = some (some l)
  | .dropListener i => s.cell.free = true ∧ ∃ l, s.listeners[i]? = some (some l)
  | .forEachPoll _ => s.cell.free = true ∧ s.forEach ≠ .dropped
  | .forEachDrop => s.forEach ≠ .dropped ∧ (s.forEach ≠ .start → s.cell.free = true)

/-- Only the arena differs. -/
def Same (c c' : Inner V) : Prop :=
  ∃ a, c' = ⟨c.data, a, c.version, c.writing, c.readers⟩

/-- Details of the effect, per operation. -/
def Detail (s : Sys V) (s' : Sys V) (slots slots' : List (Nat × Waker)) : Op V → Out → Prop
  | .dropGuard, o => o = .woken (slots.map (·.2)) ∧ s'.cell.data = s.cell.data
  | .write v, _ => s.cell.writing = true ∧ s'.cell = { s.cell with data := v }
  | .borrowMut, _ => s'.cell = { s.cell with writing := true }
  | .borrow, _ => s'.cell = { s.cell with readers := s.cell.readers + 1 }
  | .dropRef, _ => s'.cell = { s.cell with readers := s.cell.readers - 1 }
  | .listen, _ => Same s.cell s'.cell ∧ ∃ l, s'.listeners = s.listeners ++ [some l] ∧ l.lastVersion = 0
  | .poll i w, o => Same s.cell s'.cell ∧ ∃ l, s.listeners[i]? = some (some l) ∧
      s'.listeners[i]? = some (some (pollResult s.cell.version l).1) ∧
      o = .polled (pollResult s.cell.version l).2 ∧ (l.slot, w) ∈ slots'
  | .forEachPoll w, _ => (∃ l, s'.forEach = .awaiting l ∧ l.lastVersion = s.cell.version ∧
      (l.slot, w) ∈ slots') ∧
      s'.seen = s.seen ++ (match s.forEach with
        | .awaiting l => if l.lastVersion < s.cell.version then [s.cell.data] else []
        | _ => [s.cell.data]) ∧ Same s.cell s'.cell
  | .dropListener _, _ => Same s.cell s'.cell
  | .forEachDrop, _ => Same s.cell s'.cell

theorem count_own_append {s : Sys V} {x : Nat} (o : Option Listener) (c : Inner V) :
    (own { s with cell := c, listeners := s.listeners ++ [o] }).count x =
      (own s).count x + (o.map (·.slot)).toList.count x := by
  cases o with
  | none => simp [own, List.filterMap_append]
  | some l => simp [own, List.filterMap_append, List.count_append, List.count_cons]; omega

theorem count_own_set {s : Sys V} {x i : Nat} {o : Option Listener} (o' : Option Listener)
    (h : s.listeners[i]? = some o) (c : Inner V) :
    (own { s with cell := c, listeners := s.listeners.set i o' }).count x +
      (o.map (·.slot)).toList.count x = (own s).count x + (o'.map (·.slot)).toList.count x := by
  have := filterMap_set (f := (·.map (·.slot))) s.listeners i o o' h x
  simp only [own, List.count_append]
  omega

theorem count_slots_append (slots : List (Nat × Waker)) (x y : Nat) (w : Waker) :
    ((slots ++ [(x, w)]).map (·.1)).count y = (slots.map (·.1)).count y + [x].count y := by
  simp [List.count_append]

/-- `for_each`'s loop, as seen from the invariant. -/
theorem fe_loop_wf {s : Sys V} {slots : List (Nat × Waker)} (hg : Good s.cell.listeners slots)
    (hf : s.cell.free = true) (w : Waker)
    (ho : ∀ x, (s.listeners.filterMap (·.map (·.slot))).count x = (slots.map (·.1)).count x)
    (hv : 1 ≤ s.cell.version)
    (hle : ∀ (i : Nat) (l : Listener), s.listeners[i]? = some (some l) → l.lastVersion ≤ s.cell.version) :
    ∃ a x slots', forEachLoop w 2 s.cell s.seen =
        some (⟨s.cell.data, a, s.cell.version, s.cell.writing, s.cell.readers⟩, ⟨s.cell.version, x⟩, s.seen ++ [s.cell.data]) ∧
      WF { s with cell := ⟨s.cell.data, a, s.cell.version, s.cell.writing, s.cell.readers⟩, forEach := .awaiting ⟨s.cell.version, x⟩,
                  seen := s.seen ++ [s.cell.data] } slots' ∧
      (x, w) ∈ slots' ∧ ∀ y ∈ slots, y ∈ slots' := by
  obtain ⟨a, x, e, hx, hg'⟩ := forEachLoop_ok hg hf w s.seen
  refine ⟨a, x, _, e, ⟨hg', ?_, hv, hle, ?_⟩, ?_, ?_⟩
  · intro y
    rw [putWaker_map, count_slots_append]
    simp only [own, feSlots, List.count_append, ho]
  · intro l hl; simp only [ForEach.awaiting.injEq] at hl; subst hl; exact ⟨hv, Nat.le_refl _⟩
  · apply putWaker_mem; simp
  · intro y hy
    apply putWaker_other
    · simp [hy]
    · rintro rfl; exact hx (List.mem_map.2 ⟨y, hy, rfl⟩)

theorem step_wf {s : Sys V} {slots : List (Nat × Waker)} (h : WF s slots) (op : Op V)
    (ha : allowed s op) : ∃ s' o slots', step s op = some (s', o) ∧ WF s' slots' ∧
      Eff s op s' slots slots' ∧ Detail s s' slots slots' op o := by
  cases op with
  | borrowMut =>
    simp only [allowed] at ha
    have := wf_plain h .borrowMut { s.cell with writing := true } rfl rfl
    exact ⟨_, _, slots, if_pos ha, this.1, this.2, rfl⟩
  | write v =>
    simp only [allowed] at ha
    have := wf_plain h (.write v) { s.cell with data := v } rfl rfl
    exact ⟨_, _, slots, if_pos ha, this.1, this.2, ha, rfl⟩
  | dropGuard =>
    simp only [allowed] at ha
    have := wf_plain h .dropGuard
      { s.cell with version := s.cell.version + 1, writing := false } rfl rfl
    exact ⟨_, _, slots, by
      simp only [step, ha, if_true, dropGuard, h.good.iter, bind, Option.bind, pure],
      this.1, this.2, rfl, rfl⟩
  | borrow =>
    simp only [allowed] at ha
    have := wf_plain h .borrow { s.cell with readers := s.cell.readers + 1 } rfl rfl
    exact ⟨_, _, slots, if_neg (by simp [ha]), this.1, this.2, rfl⟩
  | dropRef =>
    simp only [allowed] at ha
    have := wf_plain h .dropRef { s.cell with readers := s.cell.readers - 1 } rfl rfl
    exact ⟨_, _, slots, if_neg (show ¬ s.cell.readers = 0 by omega),
      this.1, this.2, rfl⟩
  | listen =>
    simp only [allowed] at ha
    obtain ⟨a, x, e, hx, hg⟩ := untilChange_ok h.good ha
    refine ⟨{ s with cell := ⟨s.cell.data, a, s.cell.version, s.cell.writing, s.cell.readers⟩, listeners := s.listeners ++ [some ⟨0, x⟩] },
      .unit, slots ++ [(x, none)], by
      simp only [step, e, bind, Option.bind, pure], ⟨hg, ?_, h.ver, ?_, h.fe⟩, ⟨rfl, ?_, fun _ => ⟨rfl, rfl⟩, ?_⟩, ?_⟩
    · intro y
      rw [count_own_append, count_slots_append, h.owned]; simp
    · intro i l hl
      rcases Nat.lt_or_ge i s.listeners.length with hi | hi
      · rw [List.getElem?_append_left hi] at hl; exact h.le i l hl
      · rw [List.getElem?_append_right hi] at hl
        rcases Nat.eq_zero_or_pos (i - s.listeners.length) with e0 | e0
        · rw [e0] at hl; simp only [List.getElem?_cons_zero, Option.some.injEq] at hl; subst hl; simp
        · rw [List.getElem?_eq_none (by simp only [List.length_singleton]; omega)] at hl; cases hl
    · intro i l _ hl
      refine ⟨?_, fun w hw => by simp [hw]⟩
      have hi : i < s.listeners.length := by
        rcases Nat.lt_or_ge i s.listeners.length with hi | hi
        · exact hi
        · rw [List.getElem?_eq_none hi] at hl; cases hl
      show (s.listeners ++ [some _])[i]? = _
      rw [List.getElem?_append_left hi]; exact hl
    · intro l _ _ w hw; simp [hw]
    · exact ⟨⟨_, rfl⟩, _, rfl, rfl⟩
  | poll i w =>
    obtain ⟨hf, l, hl⟩ := ha
    have hm : l.slot ∈ slots.map (·.1) := h.mem.1 (own_get hl)
    obtain ⟨a, e, hg⟩ := pollNext_ok h.good hf hm w
    have hi : i < s.listeners.length := (List.getElem?_eq_some_iff.1 hl).1
    refine ⟨{ s with cell := ⟨s.cell.data, a, s.cell.version, s.cell.writing, s.cell.readers⟩,
                     listeners := s.listeners.set i (some (pollResult s.cell.version l).1) },
      .polled (pollResult s.cell.version l).2, putWaker slots l.slot w, by
      simp only [step, hl, e, bind, Option.bind, pure], ⟨hg, ?_, h.ver, ?_, h.fe⟩, ⟨rfl, ?_, fun _ => ⟨rfl, rfl⟩, ?_⟩, ?_⟩
    · intro y
      have := count_own_set (x := y) (some (pollResult s.cell.version l).1) hl ⟨s.cell.data, a, s.cell.version, s.cell.writing, s.cell.readers⟩
      rw [putWaker_map, ← h.owned]
      simp only [Option.map_some, pollResult_slot] at this
      omega
    · intro j m hm'
      rw [List.getElem?_set] at hm'
      by_cases hij : i = j
      · simp only [hij, if_true] at hm'
        split at hm'
        · simp only [Option.some.injEq] at hm'; subst hm'
          simp only [pollResult]
          split
          · simp
          · split
            · simp
            · exact h.le i l hl
        · cases hm'
      · rw [if_neg hij] at hm'; exact h.le j m hm'
    · intro j m ht hj
      have hne : i ≠ j := by simpa [Op.touches] using ht
      refine ⟨?_, fun w' hw' => putWaker_other w hw' (fun c => slot_ne h hl hj hne c.symm)⟩
      show (s.listeners.set i _)[j]? = _
      rw [List.getElem?_set_ne hne]; exact hj
    · intro m _ hfe w' hw'
      exact putWaker_other w hw' (fun c => slot_ne_fe h hl hfe c.symm)
    · refine ⟨⟨_, rfl⟩, l, hl, ?_, rfl, putWaker_mem w hm⟩
      show (s.listeners.set i _)[i]? = _
      rw [List.getElem?_set_self hi]
  | dropListener i =>
    obtain ⟨hf, l, hl⟩ := ha
    have hm : l.slot ∈ slots.map (·.1) := h.mem.1 (own_get hl)
    obtain ⟨a, e, hg⟩ := dropListener_ok h.good hf hm
    refine ⟨{ s with cell := ⟨s.cell.data, a, s.cell.version, s.cell.writing, s.cell.readers⟩, listeners := s.listeners.set i none },
      .unit, slots.filter fun y => decide (y.1 ≠ l.slot), by
      simp only [step, hl, e, bind, Option.bind, pure], ⟨hg, ?_, h.ver, ?_, h.fe⟩, ⟨rfl, ?_, fun _ => ⟨rfl, rfl⟩, ?_⟩, ⟨_, rfl⟩⟩
    · intro y
      have := count_own_set (x := y) none hl ⟨s.cell.data, a, s.cell.version, s.cell.writing, s.cell.readers⟩
      have hc := h.count_le y
      rw [count_filter_ne, ← h.owned]
      simp only [Option.map_some, Option.map_none, Option.toList, List.count_cons, List.count_nil, beq_iff_eq] at this
      split
      · rename_i e; subst e; simp only [if_true] at this; omega
      · rename_i e; rw [if_neg (fun c => e c.symm)] at this; omega
    · intro j m hm'
      rw [List.getElem?_set] at hm'
      split at hm'
      · split at hm' <;> simp at hm'
      · exact h.le j m hm'
    · intro j m ht hj
      have hne : i ≠ j := by simpa [Op.touches] using ht
      refine ⟨?_, fun w' hw' => filter_keep hw' (fun c => slot_ne h hl hj hne c.symm)⟩
      show (s.listeners.set i _)[j]? = _
      rw [List.getElem?_set_ne hne]; exact hj
    · intro m _ hfe w' hw'
      exact filter_keep hw' (fun c => slot_ne_fe h hl hfe c.symm)
  | forEachPoll w =>
    obtain ⟨hf, hd⟩ := ha
    match hfe : s.forEach with
    | .dropped => exact (hd hfe).elim
    | .start =>
      obtain ⟨a, x, slots', e, hwf, hx, hk⟩ := fe_loop_wf h.good hf w
        (fun x => by have := h.owned x; simpa [own, hfe, feSlots] using this) h.ver h.le
      refine ⟨_, _, slots', by
        simp only [step, forEachPoll, hfe, e, bind, Option.bind, pure]; rfl, hwf,
        ⟨rfl, fun i l _ hl => ⟨hl, fun w' hw' => hk _ hw'⟩, fun c => (by cases c), fun l c => (by cases c)⟩,
        ⟨_, rfl, rfl, hx⟩, by simp only [hfe], ⟨_, rfl⟩⟩
    | .awaiting l =>
      have hm : l.slot ∈ slots.map (·.1) := h.mem.1 (own_fe hfe)
      obtain ⟨a, e, hg⟩ := pollNext_ok h.good hf hm w
      obtain ⟨hv1, hv2⟩ := h.fe l hfe
      by_cases hlt : l.lastVersion < s.cell.version
      · -- changed
        have hr : pollResult s.cell.version l = ({ l with lastVersion := s.cell.version }, true) := by
          simp only [pollResult, if_neg (show ¬ l.lastVersion = 0 by omega), if_pos hlt]
        rw [hr] at e
        obtain ⟨a2, e2, hg2⟩ := dropListener_ok (c := ⟨s.cell.data, a, s.cell.version, s.cell.writing, s.cell.readers⟩)
          (l := { l with lastVersion := s.cell.version }) hg hf (by rw [putWaker_map]; exact hm)
        obtain ⟨a3, x, slots', e3, hwf, hx, hk⟩ := fe_loop_wf
          (s := { s with cell := ⟨s.cell.data, a2, s.cell.version, s.cell.writing, s.cell.readers⟩, forEach := .start }) hg2 hf w
          (fun x => by
            have := h.owned x
            have hc := h.count_le x
            rw [count_filter_ne, putWaker_map]
            simp only [own, hfe, feSlots, List.count_append, List.count_cons, List.count_nil, beq_iff_eq] at this hc
            split
            · rename_i e
              simp only [e, if_true] at this hc
              simp only [e]; omega
            · rename_i e; rw [if_neg (fun c => e c.symm)] at this; omega)
          h.ver h.le
        refine ⟨_, _, slots', by
          simp only [step, forEachPoll, hfe, e, e2, bind, Option.bind, pure, if_true]
          simp only [] at e3
          rw [e3], hwf,
          ⟨rfl, fun i m _ hi => ⟨hi, fun w' hw' => ?_⟩, fun c => (by cases c), fun l c => (by cases c)⟩,
          ⟨_, rfl, rfl, hx⟩, ?_, ⟨_, rfl⟩⟩
        · have hne := slot_ne_fe h hi hfe
          exact hk _ (filter_keep (putWaker_other w hw' hne) hne)
        · simp only [hfe, if_pos hlt]
      · have hr : pollResult s.cell.version l = (l, false) := by
          simp only [pollResult, if_neg (show ¬ l.lastVersion = 0 by omega), if_neg hlt]
        rw [hr] at e
        refine ⟨{ s with cell := ⟨s.cell.data, a, s.cell.version, s.cell.writing, s.cell.readers⟩, forEach := .awaiting l }, .unit,
          putWaker slots l.slot w, by
          simp only [step, forEachPoll, hfe, e, bind, Option.bind, pure, Bool.false_eq_true, if_false],
          ⟨hg, ?_, h.ver, h.le, ?_⟩,
          ⟨rfl, fun i m _ hi => ⟨hi, fun w' hw' => ?_⟩, fun c => (by cases c), fun l c => (by cases c)⟩,
          ⟨l, rfl, by omega, putWaker_mem w hm⟩, ?_, ⟨_, rfl⟩⟩
        · intro y; rw [putWaker_map, ← h.owned]; simp only [own, hfe]
        · intro m hm'; simp only [ForEach.awaiting.injEq] at hm'; subst hm'; exact ⟨hv1, hv2⟩
        · exact putWaker_other w hw' (slot_ne_fe h hi hfe)
        · simp only [hfe, if_neg hlt, List.append_nil]
  | forEachDrop =>
    obtain ⟨hd, hf⟩ := ha
    match hfe : s.forEach with
    | .dropped => exact (hd hfe).elim
    | .start =>
      refine ⟨{ s with forEach := .dropped }, .unit, slots, by simp only [step, hfe], ⟨h.good, ?_, h.ver, h.le, ?_⟩,
        ⟨rfl, fun i l _ hl => ⟨hl, fun _ hw => hw⟩, fun c => (by cases c), fun l c => (by cases c)⟩, ⟨_, rfl⟩⟩
      · intro x; have := h.owned x; simpa [own, hfe, feSlots] using this
      · intro l hl; cases hl
    | .awaiting l =>
      have hf := hf (by simp [hfe])
      have hm : l.slot ∈ slots.map (·.1) := h.mem.1 (own_fe hfe)
      obtain ⟨a, e, hg⟩ := dropListener_ok h.good hf hm
      refine ⟨{ s with cell := ⟨s.cell.data, a, s.cell.version, s.cell.writing, s.cell.readers⟩, forEach := .dropped }, .unit,
        slots.filter fun y => decide (y.1 ≠ l.slot), by
        simp only [step, hfe, e, bind, Option.bind, pure], ⟨hg, ?_, h.ver, h.le, ?_⟩,
        ⟨rfl, fun i m _ hi => ⟨hi, fun w' hw' => ?_⟩, fun c => (by cases c), fun l c => (by cases c)⟩, ⟨_, rfl⟩⟩
      · intro x
        have := h.owned x
        have hc := h.count_le x
        rw [count_filter_ne]
        simp only [own, hfe, feSlots, List.count_append, List.count_cons, List.count_nil, beq_iff_eq] at this hc ⊢
        split
        · rename_i e; subst e; simp only [if_true] at this hc; omega
        · rename_i e; rw [if_neg (fun c => e c.symm)] at this; omega
      · intro m hm'; cases hm'
      · exact filter_keep hw' (slot_ne_fe h hi hfe)

theorem allowed_of_step {s s' : Sys V} {op : Op V} {o : Out} (e : step s op = some (s', o)) :
    allowed s op := by
  cases op with
  | borrowMut => simp only [step] at e; split at e; assumption; cases e
  | write v => simp only [step] at e; split at e; assumption; cases e
  | dropGuard => simp only [step] at e; split at e; assumption; cases e
  | borrow => simp only [step] at e; split at e; cases e; rename_i h; simpa [allowed] using h
  | dropRef => simp only [step] at e; split at e; cases e; rename_i h; simp only [allowed]; omega
  | listen =>
    simp only [step, untilChange, bind, Option.bind] at e
    split at e
    · cases e
    · rename_i h
      split at h
      · assumption
      · cases h
  | poll i w =>
    simp only [step] at e
    split at e
    · rename_i l hl
      simp only [pollNext, bind, Option.bind] at e
      split at e
      · cases e
      · rename_i h
        split at h
        · exact ⟨by assumption, l, hl⟩
        · cases h
    · cases e
  | dropListener i =>
    simp only [step] at e
    split at e
    · rename_i l hl
      simp only [dropListener, bind, Option.bind] at e
      split at e
      · cases e
      · rename_i h
        split at h
        · exact ⟨by assumption, l, hl⟩
        · cases h
    · cases e
  | forEachPoll w =>
    simp only [step, forEachPoll] at e
    match hfe : s.forEach with
    | .dropped => simp [hfe, bind, Option.bind] at e
    | .start =>
      refine ⟨?_, by simp [hfe]⟩
      cases hf : s.cell.free with
      | true => rfl
      | false =>
        simp only [hfe, forEachLoop, untilChange, hf, bind, Option.bind, Bool.false_eq_true, if_false] at e
        split at e
        · cases e
        · rename_i h1; split at h1
          · cases h1
          · rename_i h2; split at h2 <;> cases h2
    | .awaiting l =>
      refine ⟨?_, by simp [hfe]⟩
      cases hf : s.cell.free with
      | true => rfl
      | false =>
        simp [hfe, pollNext, hf, bind, Option.bind] at e
  | forEachDrop =>
    simp only [step] at e
    match hfe : s.forEach with
    | .dropped => simp [hfe] at e
    | .start => exact ⟨by simp [hfe], by simp [hfe]⟩
    | .awaiting l =>
      refine ⟨by simp [hfe], fun _ => ?_⟩
      cases hf : s.cell.free with
      | true => rfl
      | false => simp [hfe, dropListener, hf, bind, Option.bind] at e

end Verif.Cell
