import Verif.Comb.Spec
/-! Running the combinator machine on a list of events, for concrete examples. -/
namespace Verif.Comb
variable {V S O W : Type}

/-- Apply the events, oldest first, to a state reached with trace `tr`. -/
def execFrom (g : Cfg V S O) (tr : List (Entry V S O W)) (c : Comb g.kind.impl.σ S W) :
    List (Event V W) → Option (List (Entry V S O W) × Comb g.kind.impl.σ S W)
  | [] => some (tr, c)
  | e :: es =>
    match step g c e with
    | none => none
    | some (c', out) => execFrom g ((e, out) :: tr) c' es

def exec (g : Cfg V S O) (n : Nat) (es : List (Event V W)) :
    Option (List (Entry V S O W) × Comb g.kind.impl.σ S W) :=
  execFrom g [] (Comb.new g.kind.impl S W n) es

/-- The trace that the events lead to. -/
def traceOf (g : Cfg V S O) (n : Nat) (es : List (Event V W)) : Option (List (Entry V S O W)) :=
  (exec g n es).map Prod.fst

theorem execFrom_run (g : Cfg V S O) (n : Nat) (es : List (Event V W)) (tr tr' : List (Entry V S O W))
    (c c' : Comb g.kind.impl.σ S W) (h : Run g n tr c) (he : execFrom g tr c es = some (tr', c')) :
    Run g n tr' c' := by
  induction es generalizing tr c with
  | nil => simp only [execFrom, Option.some.injEq, Prod.mk.injEq] at he; obtain ⟨rfl, rfl⟩ := he; exact h
  | cons e es ih =>
    simp only [execFrom] at he
    split at he
    · cases he
    · next c1 out hs => exact ih _ _ (Run.cons h hs) he

theorem run_of_trace (g : Cfg V S O) (n : Nat) (es : List (Event V W)) (tr : List (Entry V S O W))
    (h : traceOf g n es = some tr) : ∃ c, Run g n tr c := by
  simp only [traceOf, Option.map_eq_some_iff] at h
  obtain ⟨⟨tr', c⟩, h1, rfl⟩ := h
  exact ⟨c, execFrom_run g n es _ _ _ _ Run.nil h1⟩

instance (tr : List (Entry V S O W)) (i : Nat) [DecidableEq S] [DecidableEq O] [DecidableEq W] :
    Decidable (Polled tr i) := by unfold Polled; infer_instance

instance (tr : List (Entry V S O W)) (i : Nat) [DecidableEq V] [DecidableEq W] :
    Decidable (Woken tr i) := by unfold Woken; infer_instance

instance decWoken (i : Nat) [DecidableEq V] [DecidableEq S] [DecidableEq O] [DecidableEq W] :
    (tr : List (Entry V S O W)) → Decidable (WokenSincePolled i tr)
  | [] => isFalse id
  | e :: tr =>
    have := decWoken i tr
    inferInstanceAs (Decidable (.subPoll i ∉ e.2 ∧ (e.1 = .wake i ∨ WokenSincePolled i tr)))

instance (tr : List (Entry V S O W)) (i : Nat) (v : V) [DecidableEq V] [DecidableEq W] :
    Decidable (Output tr i v) := by unfold Output; infer_instance

/-- A decidable form of `Finished`. -/
def isFinished (tr : List (Entry V S O W)) (i : Nat) : Bool :=
  tr.any fun e => match e.1 with
    | .sub j (.ready _) => i == j
    | _ => false

theorem finished_iff (tr : List (Entry V S O W)) (i : Nat) : Finished tr i ↔ isFinished tr i = true := by
  simp only [Finished, Output, isFinished, List.any_eq_true]
  constructor
  · rintro ⟨v, e, he, h⟩; exact ⟨e, he, by rw [h]; simp⟩
  · rintro ⟨e, he, h⟩
    split at h
    · next j v hv => exact ⟨v, e, he, by rw [hv]; simp at h; rw [h]⟩
    · cases h

instance (tr : List (Entry V S O W)) (i : Nat) : Decidable (Finished tr i) :=
  decidable_of_iff _ (finished_iff tr i).symm

instance decSuspended [DecidableEq S] [DecidableEq O] [DecidableEq W] :
    (tr : List (Entry V S O W)) → Decidable (Suspended tr)
  | [] => isFalse id
  | (.wake _, _) :: tr => decSuspended tr
  | (.poll _, out) :: _ => inferInstanceAs (Decidable (Effect.retPending ∈ out))
  | (.sub _ _, out) :: _ => inferInstanceAs (Decidable (Effect.retPending ∈ out))
  | (.drop, out) :: _ => inferInstanceAs (Decidable (Effect.retPending ∈ out))

/-- A decidable form of `Active`. -/
def isActive (tr : List (Entry V S O W)) : Bool :=
  tr.all fun e => (match e.1 with | .drop => false | _ => true) && e.2.all fun
    | .panicked => false
    | .retReady _ _ => false
    | _ => true

theorem active_of_isActive {tr : List (Entry V S O W)} (h : isActive tr = true) : Active tr := by
  intro e he
  have h1 := List.all_eq_true.1 h e he
  simp only [Bool.and_eq_true] at h1
  refine ⟨?_, ?_, ?_⟩
  · intro hd; rw [hd] at h1; simp at h1
  · intro hp; have := List.all_eq_true.1 h1.2 _ hp; simp at this
  · intro o ss hp; have := List.all_eq_true.1 h1.2 _ hp; simp at this

end Verif.Comb
