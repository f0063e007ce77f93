import Verif.Nested.Inv2
/-! What has been polled exists; what awaits something has been polled. -/
namespace Verif.Nested
open Verif.Comb
variable {V S O : Type}

structure Known (s : Sys V S O) : Prop where
  stk : ∀ q ∈ places s.stack, .polled q ∈ s.log
  par : ∀ q c, s.child q = some c → .polled q ∈ s.log
  seen : ∀ c i, .polled (.sub c i) ∈ s.log → ∃ o, s.objs[c]? = some o ∧ i < o.size

/-- Nothing shrinks. -/
def Grows (objs objs' : List (Obj V S O)) : Prop :=
  ∀ (c : Nat) (o : Obj V S O), objs[c]? = some o → ∃ o' : Obj V S O, objs'[c]? = some o' ∧ o.size ≤ o'.size

theorem Grows.rfl {objs : List (Obj V S O)} : Grows objs objs := fun _ o h => ⟨o, h, Nat.le_refl _⟩

theorem Grows.trans {a b c : List (Obj V S O)} (h : Grows a b) (h' : Grows b c) : Grows a c := by
  intro i o ho
  obtain ⟨o', h1, h2⟩ := h i o ho
  obtain ⟨o'', h3, h4⟩ := h' i o' h1
  exact ⟨o'', h3, Nat.le_trans h2 h4⟩

theorem Grows.append {objs new : List (Obj V S O)} : Grows objs (objs ++ new) := by
  intro i o ho
  have hid : i < objs.length := (List.getElem?_eq_some_iff.1 ho).1
  exact ⟨o, by rw [List.getElem?_append_left hid]; exact ho, Nat.le_refl _⟩

theorem Grows.set {objs : List (Obj V S O)} {c : Nat} {o o' : Obj V S O} (ho : objs[c]? = some o) (hs : o.size ≤ o'.size) :
    Grows objs (objs.set c o') := by
  intro i oi hi
  by_cases he : c = i
  · subst he
    rw [ho] at hi; cases hi
    exact ⟨o', get_set ho, hs⟩
  · exact ⟨oi, by rw [List.getElem?_set_ne he]; exact hi, Nat.le_refl _⟩

theorem stepObj_grows {s s' : Sys V S O} {id : Nat} {e : Ask V} {r : Reply} (h : stepObj s id e = some (s', r)) :
    Grows s.objs s'.objs := by
  obtain ⟨o, o', ho, hs, rfl⟩ := stepObj_some h
  exact .set ho (Nat.le_of_eq (step_size hs).symm)

theorem answer_objs {s : Sys V S O} {id : Nat} {r : Reply} : (answer s id r).objs = s.objs := by
  simp only [answer]
  split
  · rfl
  · split
    · split
      · rfl
      · split <;> rfl
    · rfl

theorem step_grows {s s' : Sys V S O} {e : Event V S O} (hs : step s e = some s') : Grows s.objs s'.objs := by
  cases e with
  | pollTask t =>
    simp only [step] at hs
    split at hs
    · cases hs; exact .rfl
    · cases hs
  | create g n =>
    simp only [step] at hs
    split at hs
    · cases hs; exact .append
    · cases hs
  | cancel =>
    simp only [step] at hs
    split at hs
    · cases hs; exact .rfl
    · cases hs
  | await =>
    simp only [step] at hs
    split at hs
    · split at hs
      · split at hs
        · next s1 r h1 => cases hs; rw [answer_objs]; have := stepObj_grows h1; exact this
        · cases hs
      · cases hs
    · cases hs
  | ret x =>
    simp only [step] at hs
    split at hs
    · split at hs
      · next f fs hst hw hc =>
        generalize hs0 : (if x.isSome = true then
          { s with child := update s.child f.place none, log := .returned f.place :: s.log } else s) = s0 at hs
        have hobjs : s0.objs = s.objs := by subst hs0; cases x.isSome <;> rfl
        split at hs
        · split at hs
          · next s1 r h1 =>
            cases hs
            rw [answer_objs, ← hobjs]
            have := stepObj_grows h1; exact this
          · cases hs
        · cases hs
        · cases hs; rw [← hobjs]; exact .rfl
      · cases hs
    · cases hs
  | newList limit =>
    simp only [step] at hs
    split at hs
    · cases hs; exact .append
    · cases hs
  | insert c =>
    simp only [step] at hs
    split at hs
    · next l ho hw => cases hs; exact .set ho (Nat.le_succ _)
    · cases hs
  | remove c i =>
    simp only [step] at hs
    split at hs
    · next l ho hw =>
      split at hs
      · split at hs
        · cases hs; exact .set ho (Nat.le_refl _)
        · cases hs; exact .set ho (Nat.le_refl _)
      · cases hs
    · cases hs
  | render c =>
    simp only [step] at hs
    split at hs
    · next f fs l hst hw ho =>
      split at hs
      · cases hs; exact .set ho (Nat.le_refl _)
      · cases hs
    · cases hs
  | wake p =>
    simp only [step] at hs
    split at hs
    · cases hs; exact .rfl
    · cases hs
  | propagate =>
    simp only [step] at hs
    split at hs
    · cases hs
    · cases hs; exact .rfl
    · split at hs
      · next s1 r h1 =>
        cases hs
        have := stepObj_grows h1; exact this
      · cases hs

theorem Known.grow {s : Sys V S O} (h : Known s) {s' : Sys V S O} (hg : Grows s.objs s'.objs)
    (hs : ∀ q ∈ places s'.stack, q ∈ places s.stack) (hc : ∀ q c, s'.child q = some c → (∃ c, s.child q = some c) ∨ q ∈ places s.stack)
    (hl : ∀ q, .polled q ∈ s'.log ↔ .polled q ∈ s.log) : Known s' := by
  refine ⟨fun q hq => (hl q).2 (h.stk q (hs q hq)), fun q c hq => ?_, fun c i hm => ?_⟩
  · rcases hc q c hq with ⟨c', h1⟩ | h1
    · exact (hl q).2 (h.par q c' h1)
    · exact (hl q).2 (h.stk q h1)
  · obtain ⟨o, h1, h2⟩ := h.seen c i ((hl _).1 hm)
    obtain ⟨o', h3, h4⟩ := hg c o h1
    exact ⟨o', h3, Nat.lt_of_lt_of_le h2 h4⟩

theorem answer_known {s : Sys V S O} (h : Known s) {id : Nat} {r : Reply} (hI : Inv (answer s id r)) :
    Known (answer s id r) := by
  simp only [answer] at hI ⊢
  split
  · next i hp =>
    simp only [hp] at hI
    refine ⟨?_, ?_, ?_⟩
    · intro q hq
      simp only [places, List.map_cons, List.mem_cons] at hq
      rcases hq with rfl | hq
      · exact .head _
      · exact .tail _ (h.stk q hq)
    · intro q c hq; exact .tail _ (h.par q c hq)
    · intro c j hm
      rcases List.mem_cons.1 hm with hm | hm
      · cases hm
        have hl := hI.links
        cases hst : s.stack with
        | nil =>
          simp only [hst] at hl
          obtain ⟨t, ht⟩ := hl.1
          cases ht
        | cons f fs =>
          simp only [hst] at hl
          obtain ⟨id', i', o, a1, a2, a3, a4, a5⟩ := hl.1
          cases a1
          exact ⟨o, a3, (hI.own a2 a3 (by simp)).ok.busy_lt a4⟩
      · exact h.seen c j hm
  · split
    · split
      · refine h.grow .rfl (fun _ h => h) ?_ (fun _ => .rfl)
        intro q c hq
        simp only [update_eq] at hq
        split at hq
        · cases hq
        · exact .inl ⟨c, hq⟩
      · split
        · exact h.grow .rfl (fun _ h => h) (fun q c hq => .inl ⟨c, hq⟩) (fun _ => by simp)
        · exact h
    · exact h

theorem step_known {s s' : Sys V S O} (hI : Inv s) (h : Known s) {e : Event V S O} (hs : step s e = some s') :
    Known s' := by
  have hg := step_grows hs
  have hI' := step_inv hI hs
  cases e with
  | pollTask t =>
    simp only [step] at hs
    split at hs
    · cases hs
      refine ⟨?_, fun q c hq => .tail _ (h.par q c hq), fun c i hm => h.seen c i (by simpa using hm)⟩
      intro q hq
      simp only [places, List.map_cons, List.map_nil, List.mem_singleton] at hq
      subst hq; exact .head _
    · cases hs
  | create g n =>
    simp only [step] at hs
    split at hs
    · next f fs hst hw =>
      cases hs
      refine h.grow hg (by simp [hst, places]) ?_ (fun _ => .rfl)
      intro q c hq
      simp only [update_eq] at hq
      split at hq
      · next he => subst he; exact .inr (by simp [hst, places])
      · exact .inl ⟨c, hq⟩
    · cases hs
  | cancel =>
    simp only [step] at hs
    split at hs
    · next f fs hst hw =>
      cases hs
      refine h.grow hg (fun _ h => h) ?_ (fun _ => .rfl)
      intro q c hq
      simp only [update_eq] at hq
      split at hq
      · cases hq
      · exact .inl ⟨c, hq⟩
    · cases hs
  | await =>
    simp only [step] at hs
    split at hs
    · next f fs hst hw =>
      split at hs
      · split at hs
        · next s1 r h1 =>
          cases hs
          have hg := stepObj_grows h1
          obtain ⟨o, o', ho, hs, rfl⟩ := stepObj_some h1
          refine answer_known ?_ hI'
          exact h.grow hg (by simp [hst, places]) (fun q c hq => .inl ⟨c, hq⟩) (fun _ => .rfl)
        · cases hs
      · cases hs
    · cases hs
  | ret x =>
    simp only [step] at hs
    split at hs
    · split at hs
      · next f fs hst hw hc =>
        generalize hs0 : (if x.isSome = true then
          { s with child := update s.child f.place none, log := .returned f.place :: s.log } else s) = s0 at hs
        have hobjs : s0.objs = s.objs := by subst hs0; cases x.isSome <;> rfl
        have h0 : ∀ fs', (∀ q ∈ places fs', q ∈ places s.stack) → Known { s0 with stack := fs' } := by
          intro fs' hfs
          refine h.grow (by simp only [hobjs]; exact .rfl) hfs ?_ ?_
          · intro q c hq
            subst hs0
            split at hq
            · simp only [update_eq] at hq
              split at hq
              · cases hq
              · exact .inl ⟨c, hq⟩
            · exact .inl ⟨c, hq⟩
          · intro q; subst hs0; split <;> simp
        split at hs
        · next id i f' fs' hf =>
          split at hs
          · next s1 r h1 =>
            cases hs
            have hg := stepObj_grows h1
            obtain ⟨o, o', ho, hs, rfl⟩ := stepObj_some h1
            refine answer_known ?_ hI'
            exact (h0 (f' :: fs') (fun q hq => by rw [hst]; exact .tail _ hq)).grow hg (fun _ h => h)
              (fun q c hq => .inl ⟨c, hq⟩) (fun _ => .rfl)
          · cases hs
        · cases hs
        · cases hs
          exact h0 _ (fun q hq => by rw [hst]; exact .tail _ hq)
      · cases hs
    · cases hs
  | newList limit =>
    simp only [step] at hs
    split at hs
    · cases hs; exact h.grow hg (fun _ h => h) (fun q c hq => .inl ⟨c, hq⟩) (fun _ => .rfl)
    · cases hs
  | insert c =>
    simp only [step] at hs
    split at hs
    · cases hs; exact h.grow hg (fun _ h => h) (fun q c hq => .inl ⟨c, hq⟩) (fun _ => by simp)
    · cases hs
  | remove c i =>
    simp only [step] at hs
    split at hs
    · split at hs
      · split at hs
        · cases hs; exact h.grow hg (fun _ h => h) (fun q c hq => .inl ⟨c, hq⟩) (fun _ => .rfl)
        · cases hs; exact h.grow hg (fun _ h => h) (fun q c hq => .inl ⟨c, hq⟩) (fun _ => .rfl)
      · cases hs
    · cases hs
  | render c =>
    simp only [step] at hs
    split at hs
    · next f fs l hst hw ho =>
      split at hs
      · cases hs
        refine h.grow hg (by simp [hst, places]) ?_ (fun _ => .rfl)
        intro q c hq
        simp only at hq
        split at hq
        · next he => subst he; exact .inr (by simp [hst, places])
        · split at hq
          · cases hq
          · exact .inl ⟨c, hq⟩
      · cases hs
    · cases hs
  | wake p =>
    simp only [step] at hs
    split at hs
    · cases hs; exact h.grow hg (fun _ h => h) (fun q c hq => .inl ⟨c, hq⟩) (fun _ => .rfl)
    · cases hs
  | propagate =>
    simp only [step] at hs
    split at hs
    · cases hs
    · cases hs; exact h.grow hg (fun _ h => h) (fun q c hq => .inl ⟨c, hq⟩) (fun _ => by simp)
    · split at hs
      · next s1 r h1 =>
        cases hs
        obtain ⟨o, o', ho, hs, rfl⟩ := stepObj_some h1
        exact h.grow hg (fun _ h => h) (fun q c hq => .inl ⟨c, hq⟩) (fun _ => by simp)
      · cases hs

theorem init_known : Known (init : Sys V S O) := by
  refine ⟨?_, ?_, ?_⟩ <;> simp [init, places]

theorem run_known {s s' : Sys V S O} (hI : Inv s) (h : Known s) {es : List (Event V S O)} (hs : run s es = some s') :
    Known s' := by
  induction es generalizing s with
  | nil => cases hs; exact h
  | cons e es ih =>
    simp only [run] at hs
    split at hs
    · next s1 h1 => exact ih (step_inv hI h1) (step_known hI h h1) hs
    · cases hs

end Verif.Nested
