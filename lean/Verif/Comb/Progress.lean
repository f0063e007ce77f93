import Verif.Comb.Props
/-!
# Progress of the combinators (C12, C14, C15, C16)

Every poll of a combinator, and every return of a subfuture inside of it, has a visible
consequence, and the machine is never stuck.
-/
namespace Verif.Comb
variable {V S O W : Type}

/-- What can follow directly on a poll or on the return of a subfuture: another subfuture is
polled, or the poll of the combinator ends. -/
def Effect.isAnswer : Effect S O W → Bool
  | .subPoll _ => true
  | .retPending => true
  | .retReady _ _ => true
  | .panicked => true
  | _ => false

/-- The subfuture polled in the effects. -/
def polledIn : List (Effect S O W) → Option Nat
  | [] => none
  | .subPoll i :: _ => some i
  | _ :: xs => polledIn xs

/-- The subfuture that is being polled after the trace. -/
def inSub : List (Entry V S O W) → Option Nat
  | [] => none
  | (.wake _, _) :: tr => inSub tr
  | (_, out) :: _ => polledIn out

theorem polledIn_dropped (ss : List S) : polledIn (O := O) (W := W) (ss.map .droppedItem) = none := by
  induction ss with
  | nil => rfl
  | cons s ss ih => simpa [polledIn] using ih

/-- A poll, and the return of a subfuture, is answered by exactly one of: the poll of a subfuture,
`Pending`, `Ready`, a panic; nothing but drops of stored items comes with it. -/
theorem answered (g : Cfg V S O) (n : Nat) (tr : List (Entry V S O W)) (e : Event V W)
    (out : List (Effect S O W)) (c : Comb g.kind.impl.σ S W) (h : Run g n ((e, out) :: tr) c)
    (he : (∃ w, e = .poll w) ∨ ∃ i r, e = .sub i r) :
    ∃ (x : Effect S O W) (ss : List S), x.isAnswer = true ∧ out = x :: ss.map .droppedItem := by
  obtain ⟨c0, hr, hs⟩ := run_cons_inv h
  have hg := (run_good g n tr c0 hr).1
  have key : ∀ (c1 : Comb g.kind.impl.σ S W) l, Pre g c1 l → advance g c1 l = (c, out) →
      ∃ (x : Effect S O W) (ss : List S), x.isAnswer = true ∧ out = x :: ss.map .droppedItem := by
    intro c1 l hp ha
    have := advance_out g c1 l hp
    rw [ha] at this
    simp only at this
    rcases this with ⟨j, -, -, -, rfl⟩ | ⟨-, rfl | ⟨o, ss, rfl⟩ | ⟨ss, rfl⟩⟩
    · exact ⟨.subPoll j, [], rfl, rfl⟩
    · exact ⟨.retPending, [], rfl, rfl⟩
    · exact ⟨.retReady o ss, [], rfl, rfl⟩
    · exact ⟨.panicked, ss, rfl, rfl⟩
  rcases step_forms g c0 c e out hg hs with ⟨w, rfl, hph, hx⟩ | ⟨j, rest, ro, rfl, -, -, hx⟩ | ⟨j, rfl, -, -, hx⟩ | ⟨rfl, -, -, hx⟩
  · rcases hx with ⟨-, rfl, rfl⟩ | ⟨-, -, rfl⟩ | ⟨r, hp, -, ha⟩
    · exact ⟨.retPending, [], rfl, rfl⟩
    · exact ⟨.panicked, [], rfl, rfl⟩
    · exact key _ _ hp ha
  · rcases hx with ⟨-, hp, ha⟩ | ⟨-, -, rfl⟩ | ⟨v, o, -, -, -, rfl⟩ | ⟨v, s, -, -, -, -, -, rfl⟩ | ⟨v, s, -, -, -, -, hp, ha⟩
    · exact key _ _ hp ha
    · exact ⟨.panicked, [], rfl, rfl⟩
    · exact ⟨.retReady o [], [], rfl, rfl⟩
    · exact ⟨.panicked, [s], rfl, rfl⟩
    · exact key _ _ hp ha
  · rcases he with ⟨w, he⟩ | ⟨i, r, he⟩ <;> cases he
  · rcases he with ⟨w, he⟩ | ⟨i, r, he⟩ <;> cases he

theorem phase_inSub (g : Cfg V S O) (n : Nat) (tr : List (Entry V S O W))
    (c : Comb g.kind.impl.σ S W) (h : Run g n tr c) :
    (∀ i, inSub tr = some i → ∃ rest, c.phase = .polling i rest) ∧
    (inSub tr = none → c.phase = .idle ∨ c.phase = .dropped) ∧
    (c.phase = .dropped → ∃ e ∈ tr, e.1 = .drop) := by
  induction h with
  | nil => simp [inSub, Comb.new]
  | @cons tr c e c' out hr hs ih =>
    obtain ⟨ih1, ih2, ih3⟩ := ih
    have hg := (run_good g n tr c hr).1
    have key : ∀ (c1 : Comb g.kind.impl.σ S W) l, Pre g c1 l → advance g c1 l = (c', out) →
        (∀ i, polledIn out = some i → ∃ rest, c'.phase = .polling i rest) ∧
        (polledIn out = none → c'.phase = .idle) ∧ c'.phase ≠ .dropped := by
      intro c1 l hp ha
      have := advance_out g c1 l hp
      rw [ha] at this
      simp only at this
      rcases this with ⟨j, rest, h1, -, rfl⟩ | ⟨h1, rfl | ⟨o, ss, rfl⟩ | ⟨ss, rfl⟩⟩
      · simp [polledIn, h1]
      · simp [polledIn, h1]
      · simp [polledIn, h1]
      · simp [polledIn, h1, polledIn_dropped]
    have conv : ∀ (h : (∀ i, polledIn out = some i → ∃ rest, c'.phase = .polling i rest) ∧
        (polledIn out = none → c'.phase = .idle) ∧ c'.phase ≠ .dropped)
        (_ : inSub ((e, out) :: tr) = polledIn out),
        (∀ i, inSub ((e, out) :: tr) = some i → ∃ rest, c'.phase = .polling i rest) ∧
        (inSub ((e, out) :: tr) = none → c'.phase = .idle ∨ c'.phase = .dropped) ∧
        (c'.phase = .dropped → ∃ x ∈ (e, out) :: tr, x.1 = .drop) := by
      rintro ⟨h1, h2, h3⟩ he
      rw [he]
      exact ⟨h1, fun h => .inl (h2 h), fun h => absurd h h3⟩
    rcases step_forms g c c' e out hg hs with ⟨w, rfl, hph, hx⟩ | ⟨j, rest, ro, rfl, -, -, hx⟩ | ⟨j, rfl, -, hph, hx⟩ | ⟨rfl, -, hph, hx⟩
    · refine conv ?_ rfl
      rcases hx with ⟨-, rfl, rfl⟩ | ⟨-, rfl, rfl⟩ | ⟨r, hp, -, ha⟩
      · simp [polledIn, hph]
      · simp [polledIn, hph]
      · exact key _ _ hp ha
    · refine conv ?_ rfl
      rcases hx with ⟨-, hp, ha⟩ | ⟨-, rfl, rfl⟩ | ⟨v, o, -, -, rfl, rfl⟩ | ⟨v, s, -, -, -, -, rfl, rfl⟩ | ⟨v, s, -, -, -, -, hp, ha⟩
      · exact key _ _ hp ha
      · simp [polledIn]
      · simp [polledIn]
      · simp [polledIn]
      · exact key _ _ hp ha
    · simp only [inSub, hph]
      exact ⟨ih1, ih2, fun h => by obtain ⟨e, he, h1⟩ := ih3 h; exact ⟨e, by simp [he], h1⟩⟩
    · subst hx
      simp only [inSub, polledIn_dropped, hph]
      simp

/-- The machine is never stuck: until it is dropped, a combinator can be polled and dropped unless
one of its subfutures is being polled, and then that subfuture can return whatever it likes.
Wakers can be woken at any time. -/
theorem never_stuck (g : Cfg V S O) (n : Nat) (tr : List (Entry V S O W))
    (c : Comb g.kind.impl.σ S W) (h : Run g n tr c) (hd : ∀ e ∈ tr, e.1 ≠ .drop) :
    (inSub tr = none → (∀ w, (step g c (.poll w)).isSome) ∧ (step g c .drop).isSome) ∧
    (∀ i, inSub tr = some i → ∀ r, (step g c (.sub i r)).isSome) ∧
    (∀ i, i < n → (step g c (.wake i)).isSome) := by
  obtain ⟨h1, h2, h3⟩ := phase_inSub g n tr c h
  obtain ⟨-, hn⟩ := run_good g n tr c h
  have hnd : c.phase ≠ .dropped := by
    intro hp
    obtain ⟨e, he, h4⟩ := h3 hp
    exact hd e he h4
  refine ⟨fun hi => ?_, fun i hi r => ?_, fun i hi => ?_⟩
  · have hp := (h2 hi).resolve_right hnd
    simp [step, hp]
  · obtain ⟨rest, hp⟩ := h1 i hi
    simp [step, hp]
  · simp only [step, hn, hi, if_true]
    cases g.kind.impl.wake c.ready i <;> simp

/-- An event after which the poll goes on: it is not a panic of a subfuture. -/
def Drives : Event V W → Prop
  | .poll _ => True
  | .sub _ .panics => False
  | .sub _ _ => True
  | _ => False

theorem drives_event {e : Event V W} (h : Drives e) :
    ((∃ w, e = .poll w) ∨ ∃ i r, e = .sub i r) ∧ ∀ i, e ≠ .sub i .panics := by
  cases e with
  | poll w => exact ⟨.inl ⟨w, rfl⟩, by simp⟩
  | sub i r =>
    refine ⟨.inr ⟨i, r, rfl⟩, ?_⟩
    rintro j hj
    cases hj
    exact h
  | wake i => exact h.elim
  | drop => exact h.elim

theorem completes_core (g : Cfg V S O) (n : Nat) (tr : List (Entry V S O W)) (e : Event V W)
    (out : List (Effect S O W)) (c : Comb g.kind.impl.σ S W) (h : Run g n ((e, out) :: tr) c)
    (ha : Active tr) (he : Drives e) (hall : ∀ i, i < n → Finished ((e, out) :: tr) i)
    (hp : .retPending ∈ out → ∃ i, i < n ∧ ¬ Finished ((e, out) :: tr) i)
    (hno : .panicked ∈ out → ∃ i, e = .sub i .panics) : ∃ o ss, .retReady o ss ∈ out := by
  obtain ⟨he1, he2⟩ := drives_event he
  obtain ⟨x, ss, hx, rfl⟩ := answered g n tr e out c h he1
  cases x with
  | subPoll i =>
    have := (poll_justified_partial g n tr e _ c h ha i (by simp)).1
    exact absurd (hall i (run_polled_lt g n _ c h i ⟨_, List.mem_cons_self, List.mem_cons_self⟩)) this
  | retPending =>
    obtain ⟨i, hi, hf⟩ := hp (by simp)
    exact absurd (hall i hi) hf
  | retReady o ss' => exact ⟨o, ss', by simp⟩
  | panicked =>
    obtain ⟨i, hi⟩ := hno (by simp)
    exact absurd hi (he2 i)
  | taskWoken w => simp [Effect.isAnswer] at hx
  | droppedItem s => simp [Effect.isAnswer] at hx
  | leaked s => simp [Effect.isAnswer] at hx
  | ub => simp [Effect.isAnswer] at hx

/-- C14. `join` completes in the very step in which its last subfuture completes. -/
theorem join_completes (k : Kind) (dbg : Bool) (n : Nat) (tr : List (Entry V V (List V) W)) (e : Event V W)
    (out : List (Effect V (List V) W)) (c : Comb k.impl.σ V W)
    (hk : k = .tuple → 0 < n) (h : Run (joinCfg k dbg V) n ((e, out) :: tr) c) (ha : Active tr)
    (he : Drives e) (hall : ∀ i, i < n → Finished ((e, out) :: tr) i) : ∃ o ss, .retReady o ss ∈ out :=
  completes_core (joinCfg k dbg V) n tr e out c h ha he hall (join_pending k dbg n tr e out c hk h ha)
    (join_no_panic k dbg n tr e out c hk h ha)

/-- C16. `try_join` completes at the latest when its last subfuture completes. -/
theorem tryJoin_completes (k : Kind) (dbg : Bool) {E T : Type} (n : Nat)
    (tr : List (Entry (Except E T) T (Except E (List T)) W)) (e : Event (Except E T) W)
    (out : List (Effect T (Except E (List T)) W)) (c : Comb k.impl.σ T W)
    (hk : k = .tuple → 0 < n) (h : Run (tryJoinCfg k dbg E T) n ((e, out) :: tr) c) (ha : Active tr)
    (he : Drives e) (hall : ∀ i, i < n → Finished ((e, out) :: tr) i) : ∃ o ss, .retReady o ss ∈ out :=
  completes_core (tryJoinCfg k dbg E T) n tr e out c h ha he hall
    (tryJoin_pending k dbg n tr e out c hk h ha) (tryJoin_no_panic k dbg n tr e out c hk h ha)

/-- C16. `race_ok` completes at the latest when its last subfuture completes. -/
theorem raceOk_completes (k : Kind) (dbg : Bool) {E T : Type} (n : Nat)
    (tr : List (Entry (Except E T) E (Except (List E) T) W)) (e : Event (Except E T) W)
    (out : List (Effect E (Except (List E) T) W)) (c : Comb k.impl.σ E W)
    (hk : k = .tuple → 0 < n) (h : Run (raceOkCfg k dbg E T) n ((e, out) :: tr) c) (ha : Active tr)
    (he : Drives e) (hall : ∀ i, i < n → Finished ((e, out) :: tr) i) : ∃ o ss, .retReady o ss ∈ out :=
  completes_core (raceOkCfg k dbg E T) n tr e out c h ha he hall
    (raceOk_pending k dbg n tr e out c hk h ha) (raceOk_no_panic k dbg n tr e out c hk h ha)

example : ∃ tr e out c, Run (W := Nat) (joinCfg .tuple true Nat) 2 ((e, out) :: tr) c ∧ Active tr ∧
    Drives e ∧ ∀ i, i < 2 → Finished ((e, out) :: tr) i := by
  obtain ⟨c, h⟩ := run_of_trace (W := Nat) (joinCfg .tuple true Nat) 2
    [.poll 0, .sub 0 .pending, .sub 1 (.ready 7), .wake 0, .poll 1, .sub 0 (.ready 5)] _ rfl
  refine ⟨_, _, _, c, h, active_of_isActive (by decide), trivial, ?_⟩
  intro i hi
  rw [finished_iff]
  have : i = 0 ∨ i = 1 := by omega
  rcases this with rfl | rfl <;> decide

example : ∃ tr c, Run (W := Nat) (raceCfg .vec false Nat) 2 tr c ∧ inSub tr = some 1 := by
  obtain ⟨c, h⟩ := run_of_trace (W := Nat) (raceCfg .vec false Nat) 2
    [.poll 0, .sub 0 .pending, .wake 0] _ rfl
  exact ⟨_, c, h, rfl⟩

end Verif.Comb
