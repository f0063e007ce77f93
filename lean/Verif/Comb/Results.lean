import Verif.Comb.Inv
/-! What one step of the combinator machine can return. -/
namespace Verif.Comb
variable {V S O W : Type}

/-- The effects of `advance`. -/
theorem advance_out (g : Cfg V S O) (c : Comb g.kind.impl.σ S W) (l : List Nat) (h : Pre g c l) :
    ((∃ i rest, (advance g c l).1.phase = .polling i rest ∧ c.filled[i]? = some false ∧
      (advance g c l).2 = [.subPoll i]) ∨
    ((advance g c l).1.phase = .idle ∧
      ((advance g c l).2 = [.retPending] ∨ (∃ o ss, (advance g c l).2 = [.retReady o ss]) ∨
       (∃ ss : List S, (advance g c l).2 = .panicked :: ss.map .droppedItem)))) := by
  rcases advance_cases g c l h.bound h.flen with ⟨pre, i, rest, h1, h2, h3, h4⟩ | ⟨h1, h2⟩
  · left; exact ⟨i, rest, by rw [h4], h3, by rw [h4]⟩
  · right
    rw [h2]
    rcases h.mode with hm | ⟨hm, hk⟩
    · rcases finish_regular g c hm h.flen with ⟨-, e⟩ | ⟨h0, ss, e1, ⟨o, -, e⟩ | ⟨-, e⟩⟩
      · rw [e]; exact ⟨rfl, .inl rfl⟩
      · rw [e]; exact ⟨rfl, .inr (.inl ⟨o, ss, rfl⟩)⟩
      · rw [e]; exact ⟨rfl, .inr (.inr ⟨ss, rfl⟩)⟩
    · rcases finish_spent g c hm hk with e | e | ⟨o, -, e⟩
      · rw [e]; exact ⟨rfl, .inr (.inr ⟨[], rfl⟩)⟩
      · rw [e]; exact ⟨rfl, .inr (.inr ⟨[], rfl⟩)⟩
      · rw [e]; exact ⟨rfl, .inr (.inl ⟨o, [], rfl⟩)⟩

/-- Every step either runs `advance` or has one of a few fixed outcomes. -/
theorem step_forms (g : Cfg V S O) (c c' : Comb g.kind.impl.σ S W) (e : Event V W)
    (out : List (Effect S O W)) (h : Good g c) (hs : step g c e = some (c', out)) :
    (∃ w, e = .poll w ∧ c.phase = .idle ∧
      ((gate g.kind g.beh.pendIfEmpty c.n c.pending c.items.isEmpty = .pend ∧ c' = c ∧ out = [.retPending]) ∨
       (gate g.kind g.beh.pendIfEmpty c.n c.pending c.items.isEmpty = .panic ∧ c' = c ∧ out = [.panicked]) ∨
       ∃ r, Pre g ({ c with parent := some w, ready := r } : Comb g.kind.impl.σ S W) (awake g c) ∧
         gate g.kind g.beh.pendIfEmpty c.n c.pending c.items.isEmpty = .enter ∧
         advance g { c with parent := some w, ready := r } (awake g c) = (c', out))) ∨
    (∃ i rest ro, e = .sub i ro ∧ c.phase = .polling i rest ∧ i < c.n ∧
      ((ro = .pending ∧ Pre g c rest ∧ advance g c rest = (c', out)) ∨
       (ro = .panics ∧ c' = { c with phase := .idle } ∧ out = [.panicked]) ∨
       (∃ v o, ro = .ready v ∧ g.beh.maybeReturn v = .inr o ∧ c' = { c with phase := .idle } ∧ out = [.retReady o []]) ∨
       (∃ v s, ro = .ready v ∧ g.beh.maybeReturn v = .inl s ∧ Spent g.kind c ∧ g.kind = .vec ∧
         c' = { c with phase := .idle } ∧ out = [.panicked, .droppedItem s]) ∨
       (∃ v s, ro = .ready v ∧ g.beh.maybeReturn v = .inl s ∧ Regular c ∧
         Regular ({ c with items := c.items.set i (some s), filled := c.filled.set i true,
                           pending := c.pending - 1 } : Comb g.kind.impl.σ S W) ∧
         Pre g { c with items := c.items.set i (some s), filled := c.filled.set i true,
                        pending := c.pending - 1 } rest ∧
         advance g { c with items := c.items.set i (some s), filled := c.filled.set i true,
                            pending := c.pending - 1 } rest = (c', out)))) ∨
    (∃ i, e = .wake i ∧ i < c.n ∧ c'.phase = c.phase ∧ (out = [] ∨ out = [.taskWoken c.parent])) ∨
    (e = .drop ∧ c.phase = .idle ∧ c'.phase = .dropped ∧ out = (live c).map .droppedItem) := by
  cases e with
  | poll w =>
    left
    simp only [step] at hs
    split at hs
    · next hp =>
      simp only [Option.some.injEq] at hs
      refine ⟨w, rfl, hp, ?_⟩
      rcases beginPoll_cases g c h w with ⟨hg, e⟩ | ⟨hg, e⟩ | ⟨hg, r, h1, h2, e⟩
      · rw [e] at hs; cases hs; exact .inl ⟨hg, rfl, rfl⟩
      · rw [e] at hs; cases hs; exact .inr (.inl ⟨hg, rfl, rfl⟩)
      · rw [e] at hs; exact .inr (.inr ⟨r, begin_pre g c h w hp h1 hg, hg, hs⟩)
    · cases hs
  | wake i =>
    right; right; left
    simp only [step] at hs
    split at hs
    · next hi =>
      obtain ⟨r, woke, h1, h2, -⟩ := wake_good g c h.rel i hi
      rw [h1] at hs
      simp only [Option.some.injEq, Prod.mk.injEq] at hs
      obtain ⟨rfl, rfl⟩ := hs
      refine ⟨i, rfl, hi, rfl, ?_⟩
      split
      · exact .inr rfl
      · exact .inl rfl
    · cases hs
  | drop =>
    right; right; right
    have hs0 := hs
    simp only [step] at hs
    split at hs
    · next hp =>
      simp only [Option.some.injEq, Prod.mk.injEq] at hs
      obtain ⟨rfl, rfl⟩ := hs
      refine ⟨rfl, hp, rfl, ?_⟩
      rcases h.mode with hm | ⟨-, hm | ⟨hm, hk⟩⟩
      · have := hm.phase; rw [hp] at this; cases this
      · exact dropItems_spec _ _ (.inl (by rw [hm.len, h.flen])) (fun i _ => hm.iff i)
      · apply dropItems_spec
        · by_cases hv : g.kind = .vec
          · exact .inr (hm.vec hv)
          · exact .inl (by rw [hm.other hv, h.flen])
        · intro i hi
          constructor
          · intro he
            have := hm.filled _ (List.mem_of_getElem? he)
            simp at this
          · rintro ⟨s, he⟩
            have := hm.items _ (List.mem_of_getElem? he)
            simp at this
    · cases hs
  | sub i r =>
    right; left
    simp only [step] at hs
    split at hs
    · next j rest hp =>
      split at hs
      · next hij =>
        subst hij
        simp only [Option.some.injEq] at hs
        obtain ⟨hi, hfi, hir, hrn, hrb⟩ := h.phase.cur i rest hp
        have hmode : Regular c ∨ (Spent g.kind c ∧ g.kind = .vec) := by
          rcases h.mode with hm | ⟨-, hm | ⟨hm, hk | hk⟩⟩
          · have := hm.phase; rw [hp] at this; cases this
          · exact .inl hm
          · exact .inr ⟨hm, hk⟩
          · rw [hp] at hk; cases hk
        have hpre : Pre g c rest := ⟨h.flen, h.rel, hmode, hrb, hrn⟩
        refine ⟨i, rest, r, rfl, hp, hi, ?_⟩
        cases r with
        | pending => exact .inl ⟨rfl, hpre, hs⟩
        | panics =>
          simp only [subReturns] at hs
          cases hs
          exact .inr (.inl ⟨rfl, rfl, rfl⟩)
        | ready v =>
          right; right
          simp only [subReturns] at hs
          cases hb : g.beh.maybeReturn v with
          | inr o =>
            rw [hb] at hs
            cases hs
            exact .inl ⟨v, o, rfl, hb, rfl, rfl⟩
          | inl s =>
            right
            rw [hb] at hs
            rcases hmode with hm | ⟨hm, hk⟩
            · right
              have hnone : c.items[i]? = some none := by
                have hlt : i < c.items.length := by rw [hm.len]; exact hi
                rw [List.getElem?_eq_getElem hlt]
                cases hx : c.items[i] with
                | none => rfl
                | some s =>
                  have := (hm.iff i).2 ⟨s, by rw [List.getElem?_eq_getElem hlt, hx]⟩
                  rw [hfi] at this; cases this
              have hc := count_set_true c.filled i hfi
              have hpn : c.pending ≠ 0 := by rw [hm.pend]; omega
              simp only [hnone, hpn, if_false, Option.toList_none, List.map_nil, List.nil_append] at hs
              have hlt : i < c.items.length := by rw [hm.len]; exact hi
              have hlt2 : i < c.filled.length := by rw [h.flen]; exact hi
              have hreg' : Regular ({ c with
                  items := c.items.set i (some s)
                  filled := c.filled.set i true
                  pending := c.pending - 1 } : Comb g.kind.impl.σ S W) := by
                refine ⟨by simp [hm.len], ?_, ?_⟩
                · intro j
                  simp only [List.getElem?_set]
                  by_cases hij : i = j
                  · subst hij; simp [hlt, hlt2]
                  · simp only [hij, if_false]; exact hm.iff j
                · simp only; rw [hm.pend]; omega
              exact ⟨v, s, rfl, hb, hm, hreg', ⟨by simp [h.flen], h.rel, .inl hreg', hrb, hrn⟩, hs⟩
            · left
              have : c.items[i]? = none := by rw [hm.vec hk]; rfl
              rw [this] at hs
              cases hs
              exact ⟨v, s, rfl, hb, hm, hk, rfl, rfl⟩
      · cases hs
    · cases hs

/-- A step that polls a subfuture does nothing else. -/
theorem step_subPoll (g : Cfg V S O) (c c' : Comb g.kind.impl.σ S W) (e : Event V W)
    (out : List (Effect S O W)) (h : Good g c) (hs : step g c e = some (c', out)) (i : Nat)
    (hi : .subPoll i ∈ out) : out = [.subPoll i] ∧ e ≠ .drop ∧ i < c.n ∧ c'.filled[i]? = some false := by
  suffices hsuff : out = [.subPoll i] ∧ e ≠ .drop ∧ ∃ rest, c'.phase = .polling i rest by
    obtain ⟨h1, h2, rest, h3⟩ := hsuff
    have hg := (step_good g c c' e out h hs).1
    have hn := step_n g c c' e out hs
    obtain ⟨h4, h5, -⟩ := hg.phase.cur i rest h3
    exact ⟨h1, h2, by omega, h5⟩
  have key : ∀ (c1 : Comb g.kind.impl.σ S W) l, Pre g c1 l → advance g c1 l = (c', out) →
      out = [.subPoll i] ∧ ∃ rest, c'.phase = .polling i rest := by
    intro c1 l hp ha
    have := advance_out g c1 l hp
    rw [ha] at this
    rcases this with ⟨j, rest, hph, -, hj⟩ | ⟨-, hj | ⟨o, ss, hj⟩ | ⟨ss, hj⟩⟩
    · simp only at hj hph
      rw [hj] at hi ⊢
      simp at hi; rw [hi]; exact ⟨rfl, rest, hph⟩
    · simp only at hj; rw [hj] at hi; simp at hi
    · simp only at hj; rw [hj] at hi; simp at hi
    · simp only at hj; rw [hj] at hi; simp at hi
  rcases step_forms g c c' e out h hs with ⟨w, rfl, -, hx⟩ | ⟨j, rest, ro, rfl, -, -, hx⟩ | ⟨j, rfl, -, -, hx⟩ | ⟨-, -, -, hx⟩
  · refine and_left_comm.1 ⟨by simp, ?_⟩
    rcases hx with ⟨-, -, rfl⟩ | ⟨-, -, rfl⟩ | ⟨r, hp, -, ha⟩
    · simp at hi
    · simp at hi
    · exact key _ _ hp ha
  · refine and_left_comm.1 ⟨by simp, ?_⟩
    rcases hx with ⟨-, hp, ha⟩ | ⟨-, -, rfl⟩ | ⟨v, o, -, -, -, rfl⟩ | ⟨v, s, -, -, -, -, -, rfl⟩ | ⟨v, s, -, -, -, -, hp, ha⟩
    · exact key _ _ hp ha
    · simp at hi
    · simp at hi
    · simp at hi
    · exact key _ _ hp ha
  · rcases hx with rfl | rfl <;> simp at hi
  · rw [hx] at hi; simp at hi

/-- A step that returns `Pending` leaves the combinator idle. -/
theorem step_pending_idle (g : Cfg V S O) (c c' : Comb g.kind.impl.σ S W) (e : Event V W)
    (out : List (Effect S O W)) (h : Good g c) (hs : step g c e = some (c', out))
    (hi : .retPending ∈ out) : c'.phase = .idle := by
  have key : ∀ (c1 : Comb g.kind.impl.σ S W) l, Pre g c1 l → advance g c1 l = (c', out) → c'.phase = .idle := by
    intro c1 l hp ha
    have := advance_out g c1 l hp
    rw [ha] at this
    rcases this with ⟨j, rest, -, -, hj⟩ | ⟨hph, -⟩
    · simp only at hj; rw [hj] at hi; simp at hi
    · exact hph
  rcases step_forms g c c' e out h hs with ⟨w, rfl, hph, hx⟩ | ⟨j, rest, ro, rfl, -, -, hx⟩ | ⟨j, rfl, -, -, hx⟩ | ⟨-, -, -, hx⟩
  · rcases hx with ⟨-, rfl, rfl⟩ | ⟨-, -, rfl⟩ | ⟨r, hp, -, ha⟩
    · exact hph
    · simp at hi
    · exact key _ _ hp ha
  · rcases hx with ⟨-, hp, ha⟩ | ⟨-, -, rfl⟩ | ⟨v, o, -, -, -, rfl⟩ | ⟨v, s, -, -, -, -, -, rfl⟩ | ⟨v, s, -, -, -, -, hp, ha⟩
    · exact key _ _ hp ha
    · simp at hi
    · simp at hi
    · simp at hi
    · exact key _ _ hp ha
  · rcases hx with rfl | rfl <;> simp at hi
  · rw [hx] at hi; simp at hi

theorem run_polled_lt (g : Cfg V S O) (n : Nat) (tr : List (Entry V S O W))
    (c : Comb g.kind.impl.σ S W) (h : Run g n tr c) (i : Nat) (hp : Polled tr i) : i < n := by
  induction h with
  | nil => simp [Polled] at hp
  | @cons tr c e c' out hr hs ih =>
    obtain ⟨hg, hn⟩ := run_good g n tr c hr
    rw [polled_cons] at hp
    rcases hp with hp | hp
    · have := (step_subPoll g c c' e out hg hs i hp).2.2.1; omega
    · exact ih hp

theorem mem_of_mem_current (t : List (Entry V S O W)) : ∀ e ∈ current t, e ∈ t := by
  induction t with
  | nil => simp [current]
  | cons a t ih =>
    intro e he
    obtain ⟨a, o⟩ := a
    cases a <;> simp only [current, List.mem_cons, List.not_mem_nil, or_false] at he ⊢ <;>
      first
      | exact .inl he
      | (rcases he with he | he
         · exact .inl he
         · exact .inr (ih e he))

theorem suspended_idle (g : Cfg V S O) (n : Nat) (tr : List (Entry V S O W))
    (c : Comb g.kind.impl.σ S W) (h : Run g n tr c) (hs : Suspended tr) : c.phase = .idle := by
  induction h with
  | nil => exact hs.elim
  | @cons tr c e c' out hr hst ih =>
    have hg := (run_good g n tr c hr).1
    cases e with
    | wake i =>
      rcases step_forms g c c' _ out hg hst with ⟨w, he, -⟩ | ⟨j, rest, ro, he, -⟩ | ⟨j, -, -, hp, -⟩ | ⟨he, -⟩
      · cases he
      · cases he
      · rw [hp]; exact ih hs
      · cases he
    | poll w => exact step_pending_idle g c c' _ out hg hst hs
    | sub i r => exact step_pending_idle g c c' _ out hg hst hs
    | drop => exact step_pending_idle g c c' _ out hg hst hs

theorem polling_polled (g : Cfg V S O) (n : Nat) (tr : List (Entry V S O W))
    (c : Comb g.kind.impl.σ S W) (h : Run g n tr c) : ∀ i rest, c.phase = .polling i rest →
    lastWaker tr ≠ none := by
  induction h with
  | nil => intro i rest hp; simp [Comb.new] at hp
  | @cons tr c e c' out hr hst ih =>
    intro i rest hp
    have hg' := (run_good g n tr c hr).1
    rcases step_forms g c c' _ out hg' hst with ⟨w, rfl, -⟩ | ⟨j', rest', ro, rfl, hph, -⟩ | ⟨j', rfl, -, hp', -⟩ | ⟨rfl, -, hp', -⟩
    · simp [lastWaker]
    · exact ih _ _ hph
    · rw [hp'] at hp; exact ih _ _ hp
    · rw [hp'] at hp; cases hp

theorem suspended_polled (g : Cfg V S O) (n : Nat) (tr : List (Entry V S O W))
    (c : Comb g.kind.impl.σ S W) (h : Run g n tr c) (hs : Suspended tr) : lastWaker tr ≠ none := by
  induction h with
  | nil => exact hs.elim
  | @cons tr c e c' out hr hst ih =>
    have hg := (run_good g n tr c hr).1
    rcases step_forms g c c' _ out hg hst with ⟨w, rfl, -⟩ | ⟨j, rest, ro, rfl, hp, -⟩ | ⟨j, rfl, -⟩ | ⟨rfl, -, -, ho⟩
    · simp [lastWaker]
    · exact polling_polled g n tr c hr _ _ hp
    · exact ih hs
    · simp only [Suspended] at hs; rw [ho] at hs; simp at hs

theorem run_output_lt (g : Cfg V S O) (n : Nat) (tr : List (Entry V S O W))
    (c : Comb g.kind.impl.σ S W) (h : Run g n tr c) (i : Nat) (v : V) (ho : Output tr i v) : i < n := by
  induction h with
  | nil => simp [Output] at ho
  | @cons tr c e c' out hr hst ih =>
    obtain ⟨hg, hn⟩ := run_good g n tr c hr
    rw [output_cons] at ho
    rcases ho with ho | ho
    · simp only at ho
      subst ho
      rcases step_forms g c c' _ out hg hst with ⟨w, he, -⟩ | ⟨j, rest, ro, he, -, hj, -⟩ | ⟨j, he, -⟩ | ⟨he, -⟩
      · cases he
      · cases he; omega
      · cases he
      · cases he
    · exact ih ho

/-- The three ways in which a poll of a combinator with at least one subfuture ends. -/
structure Result (g : Cfg V S O) (n : Nat) (tr : List (Entry V S O W)) (e : Event V W)
    (out : List (Effect S O W)) : Prop where
  ready : ∀ o ss, .retReady o ss ∈ out →
    (∃ i v, e = .sub i (.ready v) ∧ g.beh.maybeReturn v = .inr o ∧ out = [.retReady o []]) ∨
    (g.beh.whenCompleted ss = some o ∧ ss.length = n ∧ out = [.retReady o ss] ∧
      (∀ i v, Output ((e, out) :: tr) i v → ∃ s, g.beh.maybeReturn v = .inl s ∧ ss[i]? = some s) ∧
      ∀ i, i < n → Finished ((e, out) :: tr) i)
  pending : .retPending ∈ out → ∃ i, i < n ∧ ¬ Finished ((e, out) :: tr) i
  panicked : .panicked ∈ out → (∃ i, e = .sub i .panics) ∨ ∃ ss, g.beh.whenCompleted ss = none ∧ ss.length = n

theorem result_of_advance (g : Cfg V S O) (n : Nat) (tr : List (Entry V S O W)) (e : Event V W)
    (out : List (Effect S O W)) (c1 c' : Comb g.kind.impl.σ S W) (l : List Nat)
    (hpre : Pre g c1 l) (hreg : Regular c1) (hn : c1.n = n) 
    (hfin : ∀ j, j < n → (c1.filled[j]? = some true ↔ Finished ((e, out) :: tr) j))
    (hout : ∀ j v, Output ((e, out) :: tr) j v → j < n ∧
      ∃ s, g.beh.maybeReturn v = .inl s ∧ c1.items[j]? = some (some s))
    (hs : advance g c1 l = (c', out)) : Result g n tr e out := by
  rcases advance_cases g c1 l hpre.bound hpre.flen with ⟨pre, i, rest, h1, h2, h3, h4⟩ | ⟨h1, h2⟩
  · rw [h4] at hs
    cases hs
    exact ⟨by simp, by simp, by simp⟩
  · rw [h2] at hs
    rcases finish_regular g c1 hreg hpre.flen with ⟨hp, e'⟩ | ⟨h0, ss, e1, ⟨o, hw, e'⟩ | ⟨hw, e'⟩⟩
    · rw [e'] at hs
      cases hs
      refine ⟨by simp, fun _ => ?_, by simp⟩
      have hc := hreg.pend
      have : 0 < c1.filled.count false := by omega
      have hm := List.count_pos_iff.1 this
      obtain ⟨i, hi, he⟩ := List.mem_iff_getElem.1 hm
      have hin : i < n := by rw [← hn, ← hpre.flen]; exact hi
      refine ⟨i, hin, fun hx => ?_⟩
      have := (hfin i hin).2 hx
      rw [List.getElem?_eq_getElem hi, he] at this
      cases this
    · rw [e'] at hs
      cases hs
      have hlen : ss.length = n := by
        have := hreg.len
        rw [e1] at this
        simpa [hn] using this
      refine ⟨?_, by simp, by simp⟩
      intro o' ss' hm
      simp only [List.mem_singleton, Effect.retReady.injEq] at hm
      obtain ⟨rfl, rfl⟩ := hm
      right
      refine ⟨hw, hlen, rfl, ?_, ?_⟩
      · intro i v hv
        obtain ⟨-, s, h5, h6⟩ := hout i v hv
        refine ⟨s, h5, ?_⟩
        rw [e1] at h6
        simpa using h6
      · intro i hi
        apply (hfin i hi).1
        have hall := hreg.allFilled h0
        have hi2 : i < c1.filled.length := by rw [hpre.flen, hn]; exact hi
        rw [List.getElem?_eq_getElem hi2]
        have := List.all_eq_true.1 hall _ (List.getElem_mem hi2)
        simpa using this
    · rw [e'] at hs
      cases hs
      have hlen : ss.length = n := by
        have := hreg.len
        rw [e1] at this
        simpa [hn] using this
      refine ⟨by simp, by simp, fun _ => .inr ⟨ss, hw, hlen⟩⟩

theorem gate_regular (k : Kind) (p : Bool) (n pend : Nat) (b : Bool) (hp : 0 < pend) :
    gate k p n pend b ≠ .panic := by
  have : pend ≠ 0 := by omega
  cases k <;> simp [gate, hp, this]
  split <;> simp

theorem step_result (g : Cfg V S O) (n : Nat) (hn : 0 < n) (tr : List (Entry V S O W))
    (c c' : Comb g.kind.impl.σ S W) (e : Event V W) (out : List (Effect S O W))
    (h : Run g n tr c) (ha : Active tr) (hs : step g c e = some (c', out)) : Result g n tr e out := by
  obtain ⟨hg, hcn⟩ := run_good g n tr c h
  have hi := run_inv g n hn tr c h ha
  rcases step_forms g c c' e out hg hs with ⟨w, rfl, hph, hx⟩ | ⟨j, rest, ro, rfl, hph, hj, hx⟩ | ⟨j, rfl, -, -, hx⟩ | ⟨-, -, -, hx⟩
  · rcases hx with ⟨hgt, rfl, rfl⟩ | ⟨hgt, rfl, rfl⟩ | ⟨r, hpre, -, hadv⟩
    · have := gate_pend _ _ _ _ _ hgt
      have := hi.idlePend hph
      omega
    · exact absurd hgt (gate_regular _ _ _ _ _ (hi.idlePend hph))
    · refine result_of_advance g n tr _ out _ c' _ hpre (hi.reg.congr rfl rfl rfl rfl) hcn ?_ ?_ hadv
      · intro j hj
        rw [finished_cons]; simp only [reduceCtorEq, exists_false, false_or]
        exact hi.fin j hj
      · intro j v
        rw [output_cons]; simp only [reduceCtorEq, false_or]
        exact hi.out j v
  · obtain ⟨-, hfi, -⟩ := hg.phase.cur j rest hph
    rcases hx with ⟨rfl, hpre, hadv⟩ | ⟨rfl, -, rfl⟩ | ⟨v, o, rfl, hb, -, rfl⟩ | ⟨v, s, -, -, hsp, -⟩ | ⟨v, s, rfl, hb, hm, hreg', hpre, hadv⟩
    · refine result_of_advance g n tr _ out _ c' _ hpre hi.reg hcn ?_ ?_ hadv
      · intro k hk
        rw [finished_cons]; simp only [Event.sub.injEq, reduceCtorEq, and_false, exists_false, false_or]
        exact hi.fin k hk
      · intro k v
        rw [output_cons]; simp only [Event.sub.injEq, reduceCtorEq, and_false, false_or]
        exact hi.out k v
    · exact ⟨by simp, by simp, fun _ => .inl ⟨j, rfl⟩⟩
    · refine ⟨?_, by simp, by simp⟩
      intro o' ss hm
      simp only [List.mem_singleton, Effect.retReady.injEq] at hm
      obtain ⟨rfl, rfl⟩ := hm
      exact .inl ⟨j, v, rfl, hb, rfl⟩
    · have h1 := hsp.filled false (List.mem_of_getElem? hfi)
      have h2 := hi.reg.pend
      rw [hsp.pend] at h2
      exact absurd (List.mem_of_getElem? hfi) (List.count_eq_zero.1 h2.symm)
    · have hlt : j < c.items.length := by rw [hm.len]; exact hj
      have hlt2 : j < c.filled.length := by rw [hg.flen]; exact hj
      refine result_of_advance g n tr _ out _ c' _ hpre hreg' hcn ?_ ?_ hadv
      · intro k hk
        rw [finished_cons]
        simp only [Event.sub.injEq, Outcome.ready.injEq, List.getElem?_set]
        by_cases hij : j = k
        · subst hij; simp [hlt2]
        · simp only [hij, if_false, false_and, exists_false, false_or]; exact hi.fin k hk
      · intro k v'
        rw [output_cons]
        simp only [Event.sub.injEq, Outcome.ready.injEq, List.getElem?_set]
        rintro (⟨rfl, rfl⟩ | hx)
        · exact ⟨by omega, s, hb, by simp [hlt]⟩
        · obtain ⟨h1, s', h2, h3⟩ := hi.out k v' hx
          refine ⟨h1, s', h2, ?_⟩
          by_cases hij : j = k
          · subst hij
            have := (hm.iff j).2 ⟨s', h3⟩
            rw [hfi] at this; cases this
          · simp only [hij, if_false]; exact h3
  · rcases hx with rfl | rfl <;> exact ⟨by simp, by simp, by simp⟩
  · subst hx; exact ⟨by simp, by simp, by simp⟩

/-- Without subfutures only polls and the drop can happen. -/
theorem step_empty (g : Cfg V S O) (hk : g.kind ≠ .tuple) (c c' : Comb g.kind.impl.σ S W) (e : Event V W)
    (out : List (Effect S O W)) (hg : Good g c) (hn : c.n = 0) (hs : step g c e = some (c', out)) :
    ((∃ w, e = .poll w) ∧
      ((g.beh.pendIfEmpty = true ∧ out = [.retPending]) ∨
       (g.beh.pendIfEmpty = false ∧ ((∃ o, g.beh.whenCompleted [] = some o ∧ out = [.retReady o []]) ∨
         (g.beh.whenCompleted [] = none ∧ out = [.panicked]))))) ∨
    (e = .drop ∧ out = []) := by
  have hfn : c.filled = [] := List.length_eq_zero_iff.1 (by rw [hg.flen, hn])
  rcases step_forms g c c' e out hg hs with ⟨w, rfl, hph, hx⟩ | ⟨j, rest, ro, rfl, hph, hj, hx⟩ | ⟨j, rfl, hj, -⟩ | ⟨rfl, hph, -, hx⟩
  · left
    refine ⟨⟨w, rfl⟩, ?_⟩
    have hmode : c.pending = 0 ∧ c.items = [] := by
      rcases hg.mode with hm | ⟨-, hm | ⟨hm, -⟩⟩
      · have := hm.phase; rw [hph] at this; cases this
      · have := hm.pend; rw [hfn] at this
        exact ⟨by simpa using this, List.length_eq_zero_iff.1 (by rw [hm.len, hn])⟩
      · refine ⟨hm.pend, ?_⟩
        by_cases hv : g.kind = .vec
        · exact hm.vec hv
        · exact List.length_eq_zero_iff.1 (by rw [hm.other hv, hn])
    have hgate : gate g.kind g.beh.pendIfEmpty c.n c.pending c.items.isEmpty =
        if g.beh.pendIfEmpty = true then .pend else .enter := by
      rw [hmode.1, hmode.2, hn]
      generalize g.kind = k at hk
      cases k with
      | array => cases g.beh.pendIfEmpty <;> simp [gate]
      | vec => cases g.beh.pendIfEmpty <;> simp [gate]
      | tuple => exact absurd rfl hk
    rw [hgate] at hx
    rcases hx with ⟨h1, -, rfl⟩ | ⟨h1, -⟩ | ⟨r, hpre, h1, hadv⟩
    · left
      split at h1
      · next hp => exact ⟨hp, rfl⟩
      · cases h1
    · split at h1 <;> cases h1
    · right
      refine ⟨?_, ?_⟩
      · split at h1
        · cases h1
        · next hp => simpa using hp
      · have hl : awake g c = [] := by
          cases hl : awake g c with
          | nil => rfl
          | cons i l =>
            have := g.kind.correct.bound hg.rel i (by rw [hl]; simp)
            omega
        rw [hl] at hadv
        simp only [advance, finish, hmode.1, hfn, if_true, List.all_nil, Bool.not_true, Bool.and_false,
          Bool.false_eq_true, if_false, hmode.2, takeAll] at hadv
        cases hw : g.beh.whenCompleted [] with
        | some o => rw [hw] at hadv; cases hadv; exact .inl ⟨o, rfl, rfl⟩
        | none => rw [hw] at hadv; cases hadv; exact .inr ⟨rfl, rfl⟩
  · omega
  · omega
  · right
    refine ⟨rfl, ?_⟩
    have : c.items = [] := by
      rcases hg.mode with hm | ⟨-, hm | ⟨hm, -⟩⟩
      · have := hm.phase; rw [hph] at this; cases this
      · exact List.length_eq_zero_iff.1 (by rw [hm.len, hn])
      · by_cases hv : g.kind = .vec
        · exact hm.vec hv
        · exact List.length_eq_zero_iff.1 (by rw [hm.other hv, hn])
    rw [hx]; simp [live, this]

end Verif.Comb
