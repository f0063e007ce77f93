import Verif.Comb.Lemmas
/-! Invariants of the combinator machine, part 2: before the combinator has returned `Ready`. -/
namespace Verif.Comb
variable {V S O W : Type}

theorem polled_cons (e : Entry V S O W) (tr : List (Entry V S O W)) (i : Nat) :
    Polled (e :: tr) i ↔ .subPoll i ∈ e.2 ∨ Polled tr i := by simp [Polled]

theorem woken_cons (e : Entry V S O W) (tr : List (Entry V S O W)) (i : Nat) :
    Woken (e :: tr) i ↔ e.1 = .wake i ∨ Woken tr i := by simp [Woken]

theorem output_cons (e : Entry V S O W) (tr : List (Entry V S O W)) (i : Nat) (v : V) :
    Output (e :: tr) i v ↔ e.1 = .sub i (.ready v) ∨ Output tr i v := by simp [Output]

theorem finished_cons (e : Entry V S O W) (tr : List (Entry V S O W)) (i : Nat) :
    Finished (e :: tr) i ↔ (∃ v, e.1 = .sub i (.ready v)) ∨ Finished tr i := by
  simp only [Finished, output_cons]
  constructor
  · rintro ⟨v, h | h⟩
    · exact .inl ⟨v, h⟩
    · exact .inr ⟨v, h⟩
  · rintro (⟨v, h⟩ | ⟨v, h⟩)
    · exact ⟨v, .inl h⟩
    · exact ⟨v, .inr h⟩

theorem active_cons (e : Entry V S O W) (tr : List (Entry V S O W)) :
    Active (e :: tr) ↔ (e.1 ≠ .drop ∧ .panicked ∉ e.2 ∧ ∀ o ss, .retReady o ss ∉ e.2) ∧ Active tr := by
  simp [Active]

theorem mem_pollsOf (tr : List (Entry V S O W)) (i : Nat) : i ∈ pollsOf tr ↔ Polled tr i := by
  induction tr with
  | nil => simp [pollsOf, Polled]
  | cons e tr ih =>
    rw [polled_cons, ← ih]
    simp only [pollsOf, List.flatMap_cons, List.mem_append, List.mem_filterMap]
    constructor
    · rintro (⟨x, h1, h2⟩ | h)
      · left
        cases x <;> simp at h2
        subst h2; exact h1
      · exact .inr h
    · rintro (h | h)
      · exact .inl ⟨_, h, rfl⟩
      · exact .inr h

/-- The subfutures polled by these effects. -/
def pollsIn (out : List (Effect S O W)) : List Nat :=
  out.filterMap fun
    | .subPoll i => some i
    | _ => none

theorem pollsOf_cons (e : Entry V S O W) (tr : List (Entry V S O W)) :
    pollsOf (e :: tr) = pollsIn e.2 ++ pollsOf tr := rfl

structure Inv (g : Cfg V S O) (n : Nat) (tr : List (Entry V S O W)) (c : Comb g.kind.impl.σ S W) :
    Prop where
  reg : Regular c
  nd : c.phase ≠ .dropped
  idlePend : c.phase = .idle → 0 < c.pending
  parent : c.parent = lastWaker tr
  fin : ∀ i, i < n → (c.filled[i]? = some true ↔ Finished tr i)
  out : ∀ i v, Output tr i v → i < n ∧ ∃ s, g.beh.maybeReturn v = .inl s ∧ c.items[i]? = some (some s)
  need : ∀ i, i < n → ¬ Finished tr i → (WokenSincePolled i tr ∨ ¬ Polled tr i) →
    i ∈ awake g c ∨ i ∈ restOf c.phase
  never : lastWaker tr = none → awake g c = List.range n ∧ c.phase = .idle ∧
    (∀ i, ¬ Polled tr i) ∧ ∀ i, ¬ Finished tr i
  woken : awake g c ≠ [] → lastWaker tr ≠ none → TaskWoken tr
  justL : lastWaker tr ≠ none → ∀ i ∈ awake g c, Woken (current tr) i
  justRest : ∀ i ∈ restOf c.phase, lastWaker (before tr) = none ∨ Woken (current (before tr)) i
  justPolled : ∀ i, Polled (current tr) i →
    lastWaker (before tr) = none ∨ Woken (current (before tr)) i
  cover : lastWaker tr ≠ none → ∀ i, i < n → ¬ Finished (before tr) i →
    (WokenSincePolled i (before tr) ∨ ¬ Polled (before tr) i) →
    i ∈ restOf c.phase ∨ Polled (current tr) i
  once : ((pollsOf (current tr)).reverse ++ restOf c.phase).Nodup
  first : lastWaker tr ≠ none → lastWaker (before tr) = none →
    (pollsOf (current tr)).reverse ++ restOf c.phase = List.range n
  curPolled : ∀ i rest, c.phase = .polling i rest → Polled (current tr) i
  curFin : ∀ i, Finished tr i → Finished (before tr) i ∨ Polled (current tr) i
  clean : lastWaker tr ≠ none → lastWaker (before tr) = none → ∀ i, ¬ Finished (before tr) i

theorem new_inv (g : Cfg V S O) (n : Nat) (hn : 0 < n) :
    Inv g n ([] : List (Entry V S O W)) (Comb.new g.kind.impl S W n) := by
  have hg := new_good (W := W) g n
  have hreg : Regular (Comb.new g.kind.impl S W n) := by
    rcases hg.mode with h | ⟨-, h | ⟨h, -⟩⟩
    · have := h.phase; simp [Comb.new] at this
    · exact h
    · have := h.pend; simp [Comb.new] at this; omega
  have hl : awake g (Comb.new g.kind.impl S W n) = List.range n := g.kind.correct.list (g.kind.correct.new n)
  constructor
  · exact hreg
  · simp [Comb.new]
  · intro _; exact hn
  · rfl
  · intro i hi
    simp [Comb.new, Finished, Output, List.getElem?_replicate]
  · simp [Output]
  · intro i hi _ _; left; rw [hl]; simpa using hi
  · intro _; exact ⟨hl, rfl, by simp [Polled], by simp [Finished, Output]⟩
  · intro _ h; simp [lastWaker] at h
  · intro h; simp [lastWaker] at h
  · simp [Comb.new, restOf]
  · simp [current, Polled]
  · intro h; simp [lastWaker] at h
  · simp [current, pollsOf, Comb.new, restOf]
  · intro h; simp [lastWaker] at h
  · intro i rest h; simp [Comb.new] at h
  · simp [Finished, Output]
  · intro h; simp [lastWaker] at h

/-- `advance` when it neither ends the combinator nor panics. -/
theorem advance_active (g : Cfg V S O) (c : Comb g.kind.impl.σ S W) (l : List Nat) (h : Pre g c l)
    (hr : Regular c) (hp : .panicked ∉ (advance g c l).2) (hq : ∀ o ss, .retReady o ss ∉ (advance g c l).2) :
    (∃ pre i rest, l = pre ++ i :: rest ∧ (∀ j ∈ pre, c.filled[j]? = some true) ∧
      c.filled[i]? = some false ∧
      advance g c l = ({ c with phase := .polling i rest }, [.subPoll i])) ∨
    ((∀ j ∈ l, c.filled[j]? = some true) ∧ 0 < c.pending ∧
      advance g c l = ({ c with phase := .idle }, [.retPending])) := by
  rcases advance_cases g c l h.bound h.flen with h1 | ⟨h1, h2⟩
  · exact .inl h1
  · right
    rw [h2] at hp hq ⊢
    rcases finish_regular g c hr h.flen with ⟨h0, e⟩ | ⟨h0, ss, e1, ⟨o, -, e⟩ | ⟨-, e⟩⟩
    · exact ⟨h1, h0, e⟩
    · rw [e] at hq; exact absurd (by simp) (hq o ss)
    · rw [e] at hp; exact absurd (by simp) hp

theorem gate_pend (k : Kind) (p : Bool) (n pend : Nat) (b : Bool) (h : gate k p n pend b = .pend) :
    n = 0 ∨ pend = 0 := by
  cases k with
  | array =>
    simp only [gate] at h
    split at h
    · omega
    · split at h <;> cases h
  | vec =>
    simp only [gate] at h
    split at h
    · omega
    · cases h
  | tuple =>
    simp only [gate] at h
    split at h <;> cases h

theorem inv_poll (g : Cfg V S O) (n : Nat) (hn : 0 < n) (tr : List (Entry V S O W))
    (c c' : Comb g.kind.impl.σ S W) (w : W) (out : List (Effect S O W)) (hg : Good g c) (hcn : c.n = n)
    (h : Inv g n tr c) (hs : step g c (.poll w) = some (c', out))
    (ha : Active ((.poll w, out) :: tr)) : Inv g n ((.poll w, out) :: tr) c' := by
  simp only [step] at hs
  split at hs
  · next hp =>
    simp only [Option.some.injEq] at hs
    have ha1 := ((active_cons _ _).1 ha).1
    simp only at ha1
    rcases beginPoll_cases g c hg w with ⟨hgate, e⟩ | ⟨-, e⟩ | ⟨hgate, r, h1, h2, e⟩
    · -- only an empty combinator is pending without polling anything
      exfalso
      have h0 := h.idlePend hp
      have := gate_pend _ _ _ _ _ hgate
      omega
    · rw [e] at hs; cases hs; simp at ha1
    · rw [e] at hs
      have hpre := begin_pre g c hg w hp h1 hgate
      have hreg : Regular ({ c with parent := some w, ready := r } : Comb g.kind.impl.σ S W) :=
        h.reg.congr rfl rfl rfl rfl
      have haw : ∀ ph : Phase, awake g ({ c with parent := some w, ready := r, phase := ph } :
          Comb g.kind.impl.σ S W) = [] := fun _ => h2
      have hrest : restOf c.phase = [] := by rw [hp]; rfl
      have hadv := advance_active g _ _ hpre hreg (by rw [hs]; exact ha1.2.1) (by rw [hs]; exact ha1.2.2)
      have hbound := hpre.bound
      simp only at hbound
      rw [hcn] at hbound
      rcases hadv with ⟨pre, k, rest, e1, e2, e3, e4⟩ | ⟨e1, e2, e3⟩
      · rw [e4] at hs
        simp only [Prod.mk.injEq] at hs
        obtain ⟨rfl, rfl⟩ := hs
        have hmemk : k ∈ awake g c := by rw [e1]; simp
        have hmemr : ∀ i ∈ rest, i ∈ awake g c := by intro i hi; rw [e1]; simp [hi]
        have hnd := g.kind.correct.nodup hg.rel
        rw [e1, List.nodup_append, List.nodup_cons] at hnd
        constructor
        · exact hreg.congr rfl rfl rfl rfl
        · simp
        · intro h; cases h
        · rfl
        · intro i hi
          rw [finished_cons]; simp only [reduceCtorEq, exists_false, false_or]
          exact h.fin i hi
        · intro i v
          rw [output_cons]; simp only [reduceCtorEq, false_or]
          exact h.out i v
        · intro i hi hf hw
          rw [finished_cons] at hf; simp only [reduceCtorEq, exists_false, false_or] at hf
          simp only [WokenSincePolled, polled_cons, List.mem_singleton, Effect.subPoll.injEq,
            reduceCtorEq, false_or, not_or] at hw
          have hik : i ≠ k := by rcases hw with hw | hw <;> exact hw.1
          have hw' : WokenSincePolled i tr ∨ ¬ Polled tr i := by
            rcases hw with hw | hw
            · exact .inl hw.2
            · exact .inr hw.2
          right
          rcases h.need i hi hf hw' with hm | hm
          · rw [e1] at hm
            simp only [List.mem_append, List.mem_cons] at hm
            rcases hm with hm | hm | hm
            · exact absurd ((h.fin i hi).1 (e2 i hm)) hf
            · exact absurd hm hik
            · exact hm
          · rw [hrest] at hm; cases hm
        · intro h; simp [lastWaker] at h
        · intro hx; exact absurd (haw _) hx
        · intro _ i hi; rw [haw] at hi; cases hi
        · intro i hi
          show lastWaker tr = none ∨ _
          by_cases hl : lastWaker tr = none
          · exact .inl hl
          · exact .inr (h.justL hl i (hmemr i hi))
        · intro i hi
          show lastWaker tr = none ∨ _
          simp only [current, polled_cons, List.mem_singleton, Effect.subPoll.injEq] at hi
          rcases hi with rfl | hi
          · by_cases hl : lastWaker tr = none
            · exact .inl hl
            · exact .inr (h.justL hl i hmemk)
          · simp [Polled] at hi
        · intro _ i hi hf hw
          simp only [before] at hf hw
          simp only [current, polled_cons, List.mem_singleton, Effect.subPoll.injEq, restOf]
          rcases h.need i hi hf hw with hm | hm
          · rw [e1] at hm
            simp only [List.mem_append, List.mem_cons] at hm
            rcases hm with hm | hm | hm
            · exact absurd ((h.fin i hi).1 (e2 i hm)) hf
            · exact .inr (.inl hm)
            · exact .inl hm
          · rw [hrest] at hm; cases hm
        · simp only [current, pollsOf, List.flatMap_cons, List.flatMap_nil, List.append_nil,
            List.filterMap_cons, List.filterMap_nil, List.reverse_cons, List.reverse_nil,
            List.nil_append, List.singleton_append, restOf, List.nodup_cons]
          exact hnd.2.1
        · intro _ hl
          simp only [before] at hl
          obtain ⟨hn1, -, -, hn2⟩ := h.never hl
          have : pre = [] := by
            cases pre with
            | nil => rfl
            | cons j pre =>
              have hj : j < n := hbound j (by rw [e1]; simp)
              exact absurd ((h.fin j hj).1 (e2 j (by simp))) (hn2 j)
          subst this
          simp only [current, pollsOf, List.flatMap_cons, List.flatMap_nil, List.append_nil,
            List.filterMap_cons, List.filterMap_nil, List.reverse_cons, List.reverse_nil,
            List.nil_append, List.singleton_append, restOf]
          rw [← hn1, e1]; rfl
        · intro i r hph
          simp only [Phase.polling.injEq] at hph
          obtain ⟨rfl, rfl⟩ := hph
          simp [current, polled_cons]
        · intro i hi
          rw [finished_cons] at hi; simp only [reduceCtorEq, exists_false, false_or] at hi
          exact .inl hi
        · intro _ hl; exact (h.never hl).2.2.2
      · rw [e3] at hs
        simp only [Prod.mk.injEq] at hs
        obtain ⟨rfl, rfl⟩ := hs
        have hno : ∀ i, i < n → ¬ Finished tr i → (WokenSincePolled i tr ∨ ¬ Polled tr i) → False := by
          intro i hi hf hw
          rcases h.need i hi hf hw with hm | hm
          · exact hf ((h.fin i hi).1 (e1 i hm))
          · rw [hrest] at hm; cases hm
        constructor
        · exact hreg.congr rfl rfl rfl rfl
        · simp
        · intro _; exact e2
        · rfl
        · intro i hi
          rw [finished_cons]; simp only [reduceCtorEq, exists_false, false_or]
          exact h.fin i hi
        · intro i v
          rw [output_cons]; simp only [reduceCtorEq, false_or]
          exact h.out i v
        · intro i hi hf hw
          rw [finished_cons] at hf; simp only [reduceCtorEq, exists_false, false_or] at hf
          simp only [WokenSincePolled, polled_cons, List.mem_singleton,
            reduceCtorEq, false_or, not_false_eq_true, true_and] at hw
          exact (hno i hi hf hw).elim
        · intro h; simp [lastWaker] at h
        · intro hx; exact absurd (haw _) hx
        · intro _ i hi; rw [haw] at hi; cases hi
        · intro i hi; cases hi
        · intro i hi; simp [current, Polled] at hi
        · intro _ i hi hf hw
          exact (hno i hi hf hw).elim
        · simp [current, pollsOf, restOf]
        · intro _ hl
          simp only [before] at hl
          obtain ⟨-, -, h3, hn2⟩ := h.never hl
          exact (hno 0 hn (hn2 0) (.inr (h3 0))).elim
        · intro i r hph; cases hph
        · intro i hi
          rw [finished_cons] at hi; simp only [reduceCtorEq, exists_false, false_or] at hi
          exact .inl hi
        · intro _ hl; exact (h.never hl).2.2.2
  · cases hs

theorem inv_wake (g : Cfg V S O) (n : Nat) (tr : List (Entry V S O W))
    (c c' : Comb g.kind.impl.σ S W) (i : Nat) (out : List (Effect S O W)) (hg : Good g c) (hcn : c.n = n)
    (h : Inv g n tr c) (hs : step g c (.wake i) = some (c', out)) :
    Inv g n ((.wake i, out) :: tr) c' := by
  simp only [step] at hs
  split at hs
  · next hi =>
    obtain ⟨r, woke, h1, h2, h3⟩ := wake_good g c hg.rel i hi
    rw [h1] at hs
    simp only [Option.some.injEq, Prod.mk.injEq] at hs
    obtain ⟨rfl, rfl⟩ := hs
    have haw : awake g ({ c with ready := r } : Comb g.kind.impl.σ S W) = g.kind.impl.list r := rfl
    have hsub : ∀ j, j ∈ g.kind.impl.list r ↔ j = i ∨ j ∈ awake g c := by
      intro j
      rcases h3 with ⟨m, -, e⟩ | ⟨m, -, e⟩
      · rw [e]; constructor
        · exact .inr
        · rintro (rfl | h)
          · exact m
          · exact h
      · rw [e]; simp [or_comm]
    generalize hout : (if woke = true then [Effect.taskWoken c.parent] else []) = out
    have hnp : ∀ j, Effect.subPoll j ∉ out := by
      intro j; rw [← hout]; split <;> simp
    have hpi : pollsIn out = [] := by rw [← hout]; split <;> rfl
    have hcur : current ((Event.wake i, out) :: tr) = (Event.wake i, out) :: current tr := rfl
    have hbef : before ((Event.wake i, out) :: tr) = before tr := rfl
    have hlw : lastWaker ((Event.wake i, out) :: tr) = lastWaker tr := rfl
    have hcp : ∀ j, Polled (current ((Event.wake i, out) :: tr)) j ↔ Polled (current tr) j := by
      intro j; rw [hcur, polled_cons]; simp [hnp]
    have hcpo : pollsOf (current ((Event.wake i, out) :: tr)) = pollsOf (current tr) := by
      rw [hcur, pollsOf_cons]; simp [hpi]
    constructor
    · exact h.reg.congr rfl rfl rfl rfl
    · exact h.nd
    · exact h.idlePend
    · exact h.parent
    · intro j hj
      rw [finished_cons]; simp only [reduceCtorEq, exists_false, false_or]
      exact h.fin j hj
    · intro j v
      rw [output_cons]; simp only [reduceCtorEq, false_or]
      exact h.out j v
    · intro j hj hf hw
      rw [finished_cons] at hf; simp only [reduceCtorEq, exists_false, false_or] at hf
      simp only [WokenSincePolled, polled_cons, hnp, not_false_eq_true, true_and, false_or,
        Event.wake.injEq] at hw
      rw [haw, hsub]
      rcases hw with (hw | hw) | hw
      · exact .inl (.inl hw.symm)
      · rcases h.need j hj hf (.inl hw) with hm | hm
        · exact .inl (.inr hm)
        · exact .inr hm
      · rcases h.need j hj hf (.inr hw) with hm | hm
        · exact .inl (.inr hm)
        · exact .inr hm
    · intro hl
      rw [hlw] at hl
      obtain ⟨n1, n2, n3, n4⟩ := h.never hl
      refine ⟨?_, n2, ?_, ?_⟩
      · rw [haw]
        rcases h3 with ⟨-, -, e⟩ | ⟨m, -, -⟩
        · rw [e, n1]
        · rw [n1] at m; simp at m; omega
      · intro j; rw [polled_cons]; simp [hnp, n3]
      · intro j; rw [finished_cons]; simp [n4]
    · intro _ hl
      rw [hlw] at hl
      by_cases he : awake g c = []
      · rcases h3 with ⟨m, -, -⟩ | ⟨-, hwk, -⟩
        · rw [he] at m; cases m
        · rw [he] at hwk
          simp at hwk
          subst hwk
          simp at hout
          subst hout
          cases hw : lastWaker tr with
          | none => exact absurd hw hl
          | some w => exact ⟨w, hw, _, List.mem_cons_self, by simp [h.parent, hw]⟩
      · obtain ⟨w, hw, e, he, hm⟩ := h.woken he hl
        exact ⟨w, hw, e, List.mem_cons_of_mem _ he, hm⟩
    · intro hl j hj
      rw [hlw] at hl
      rw [haw, hsub] at hj
      rw [hcur, woken_cons]
      rcases hj with rfl | hj
      · exact .inl rfl
      · exact .inr (h.justL hl j hj)
    · rw [hbef]; exact h.justRest
    · intro j hj; rw [hcp] at hj; rw [hbef]; exact h.justPolled j hj
    · intro hl j hj hf hw
      rw [hbef] at hf hw
      rw [hcp]
      exact h.cover hl j hj hf hw
    · rw [hcpo]; exact h.once
    · intro hl hb; rw [hcpo]; exact h.first hl hb
    · intro j r hph; rw [hcp]; exact h.curPolled j r hph
    · intro j hj
      rw [finished_cons] at hj; simp only [reduceCtorEq, exists_false, false_or] at hj
      rw [hcp, hbef]; exact h.curFin j hj
    · exact h.clean
  · cases hs

/-- After the poll of subfuture `i`, the loop goes on. -/
theorem inv_advance (g : Cfg V S O) (n : Nat) (tr : List (Entry V S O W))
    (c c1 c' : Comb g.kind.impl.σ S W) (i : Nat) (rest : List Nat) (ro : Outcome V)
    (out : List (Effect S O W)) (hcn : c.n = n)
    (h : Inv g n tr c) (hph : c.phase = .polling i rest)
    (hpre : Pre g c1 rest) (hreg : Regular c1) (hrd : c1.ready = c.ready) (hpar : c1.parent = c.parent)
    (hc1n : c1.n = c.n)
    (hfin : ∀ j, j < n → (c1.filled[j]? = some true ↔ Finished ((.sub i ro, out) :: tr) j))
    (hout : ∀ j v, Output ((.sub i ro, out) :: tr) j v → j < n ∧
      ∃ s, g.beh.maybeReturn v = .inl s ∧ c1.items[j]? = some (some s))
    (hs : advance g c1 rest = (c', out)) (ha : Active ((.sub i ro, out) :: tr)) :
    Inv g n ((.sub i ro, out) :: tr) c' := by
  have ha1 := ((active_cons _ _).1 ha).1
  simp only at ha1
  have hadv := advance_active g _ _ hpre hreg (by rw [hs]; exact ha1.2.1) (by rw [hs]; exact ha1.2.2)
  have hlw : lastWaker ((.sub i ro, out) :: tr) = lastWaker tr := rfl
  have hcur : current ((.sub i ro, out) :: tr) = (.sub i ro, out) :: current tr := rfl
  have hbef : before ((.sub i ro, out) :: tr) = before tr := rfl
  have hrest : restOf c.phase = rest := by rw [hph]; rfl
  have hlast : lastWaker tr ≠ none := by
    intro hl
    have := (h.never hl).2.1
    rw [hph] at this; cases this
  have hfmono : ∀ j, Finished tr j → Finished ((.sub i ro, out) :: tr) j := by
    intro j hj; rw [finished_cons]; exact .inr hj
  have hbound := hpre.bound
  rw [hc1n, hcn] at hbound
  have hcf : ∀ j, Finished ((.sub i ro, out) :: tr) j → Finished (before tr) j ∨ Polled (current tr) j := by
    intro j hj
    rw [finished_cons] at hj
    rcases hj with ⟨v, hv⟩ | hj
    · simp only [Event.sub.injEq] at hv
      rw [← hv.1]
      exact .inr (h.curPolled i rest hph)
    · exact h.curFin j hj
  have hfresh : ∀ j ∈ rest, ¬ Finished (before tr) j → ¬ Finished ((.sub i ro, out) :: tr) j := by
    intro j hj hb hf
    rcases hcf j hf with hx | hx
    · exact hb hx
    · have := h.once
      rw [List.nodup_append] at this
      exact this.2.2 j (by simpa [mem_pollsOf] using hx) j (by rw [hrest]; exact hj) rfl
  rcases hadv with ⟨pre, k, rest', e1, e2, e3, e4⟩ | ⟨e1, e2, e3⟩
  · rw [e4] at hs
    simp only [Prod.mk.injEq] at hs
    obtain ⟨rfl, rfl⟩ := hs
    have haw : awake g ({ c1 with phase := .polling k rest' } : Comb g.kind.impl.σ S W) = awake g c := by
      simp only [awake, hrd]
    have hnd := hpre.nodup
    rw [e1, List.nodup_append, List.nodup_cons] at hnd
    have hkr : k ∈ rest := by rw [e1]; simp
    have honce := h.once
    rw [hrest, e1] at honce
    constructor
    · exact hreg.congr rfl rfl rfl rfl
    · simp
    · intro h; cases h
    · rw [hlw, ← h.parent]; exact hpar
    · exact hfin
    · exact hout
    · intro j hj hf hw
      simp only [WokenSincePolled, polled_cons, List.mem_singleton, Effect.subPoll.injEq,
        reduceCtorEq, false_or, not_or] at hw
      have hjk : j ≠ k := by rcases hw with hw | hw <;> exact hw.1
      have hw' : WokenSincePolled j tr ∨ ¬ Polled tr j := by
        rcases hw with hw | hw
        · exact .inl hw.2
        · exact .inr hw.2
      rw [haw]
      rcases h.need j hj (fun hx => hf (hfmono j hx)) hw' with hm | hm
      · exact .inl hm
      · right
        rw [hrest, e1] at hm
        simp only [List.mem_append, List.mem_cons] at hm
        rcases hm with hm | hm | hm
        · exact absurd ((hfin j hj).1 (e2 j hm)) hf
        · exact absurd hm hjk
        · exact hm
    · intro hl; exact absurd hl hlast
    · rw [haw]
      intro hx _
      obtain ⟨w, hw, e, he, hm⟩ := h.woken hx hlast
      exact ⟨w, hw, e, List.mem_cons_of_mem _ he, hm⟩
    · intro _ j hj
      rw [haw] at hj
      rw [hcur, woken_cons]; exact .inr (h.justL hlast j hj)
    · intro j hj
      rw [hbef]
      apply h.justRest
      rw [hrest, e1]; simp only [restOf] at hj; simp [hj]
    · intro j hj
      rw [hbef]
      rw [hcur, polled_cons] at hj
      simp only [List.mem_singleton, Effect.subPoll.injEq] at hj
      rcases hj with rfl | hj
      · apply h.justRest; rw [hrest]; exact hkr
      · exact h.justPolled j hj
    · intro _ j hj hf hw
      rw [hbef] at hf hw
      rw [hcur, polled_cons]
      simp only [List.mem_singleton, Effect.subPoll.injEq, restOf]
      rcases h.cover hlast j hj hf hw with hm | hm
      · rw [hrest, e1] at hm
        simp only [List.mem_append, List.mem_cons] at hm
        rcases hm with hm | hm | hm
        · -- skipped because it has finished; but it is still to be polled in this round
          exact absurd ((hfin j hj).1 (e2 j hm)) (hfresh j (by rw [e1]; simp [hm]) hf)
        · exact .inr (.inl hm)
        · exact .inl hm
      · exact .inr (.inr hm)
    · rw [hcur, pollsOf_cons]
      simp only [pollsIn, List.filterMap_cons, List.filterMap_nil, List.singleton_append,
        List.reverse_cons, List.append_assoc, restOf]
      exact honce.sublist (List.Sublist.append (List.Sublist.refl _) (List.sublist_append_right _ _))
    · intro _ hb
      rw [hbef] at hb
      have hf := h.first hlast hb
      have : pre = [] := by
        cases pre with
        | nil => rfl
        | cons j pre =>
          have hjr : j ∈ rest := by rw [e1]; simp
          exact absurd ((hfin j (hbound j hjr)).1 (e2 j (by simp)))
            (hfresh j hjr (h.clean hlast hb j))
      subst this
      rw [hcur, pollsOf_cons, ← hf, hrest, e1]
      simp [pollsIn, restOf]
    · intro j r hx
      simp only [Phase.polling.injEq] at hx
      obtain ⟨rfl, rfl⟩ := hx
      rw [hcur, polled_cons]; simp
    · intro j hj
      rw [hbef, hcur, polled_cons]
      rcases hcf j hj with hx | hx
      · exact .inl hx
      · exact .inr (.inr hx)
    · exact h.clean
  · rw [e3] at hs
    simp only [Prod.mk.injEq] at hs
    obtain ⟨rfl, rfl⟩ := hs
    have haw : awake g ({ c1 with phase := .idle } : Comb g.kind.impl.σ S W) = awake g c := by
      simp only [awake, hrd]
    have honce := h.once
    rw [hrest] at honce
    constructor
    · exact hreg.congr rfl rfl rfl rfl
    · simp
    · intro _; exact e2
    · rw [hlw, ← h.parent]; exact hpar
    · exact hfin
    · exact hout
    · intro j hj hf hw
      simp only [WokenSincePolled, polled_cons, List.mem_singleton,
        reduceCtorEq, false_or, not_false_eq_true, true_and] at hw
      rw [haw]
      rcases h.need j hj (fun hx => hf (hfmono j hx)) hw with hm | hm
      · exact .inl hm
      · rw [hrest] at hm
        exact absurd ((hfin j hj).1 (e1 j hm)) hf
    · intro hl; exact absurd hl hlast
    · rw [haw]
      intro hx _
      obtain ⟨w, hw, e, he, hm⟩ := h.woken hx hlast
      exact ⟨w, hw, e, List.mem_cons_of_mem _ he, hm⟩
    · intro _ j hj
      rw [haw] at hj
      rw [hcur, woken_cons]; exact .inr (h.justL hlast j hj)
    · intro j hj; cases hj
    · intro j hj
      rw [hbef]
      rw [hcur, polled_cons] at hj
      simp only [List.mem_singleton, reduceCtorEq, false_or] at hj
      exact h.justPolled j hj
    · intro _ j hj hf hw
      rw [hbef] at hf hw
      rw [hcur, polled_cons]
      simp only [List.mem_singleton, reduceCtorEq, false_or]
      rcases h.cover hlast j hj hf hw with hm | hm
      · rw [hrest] at hm
        exact absurd ((hfin j hj).1 (e1 j hm)) (hfresh j hm hf)
      · exact .inr hm
    · rw [hcur, pollsOf_cons]
      simp only [pollsIn, List.filterMap_cons, List.filterMap_nil, List.nil_append, restOf,
        List.append_nil]
      exact (List.nodup_append.1 honce).1
    · intro _ hb
      rw [hbef] at hb
      have hf := h.first hlast hb
      have : rest = [] := by
        cases rest with
        | nil => rfl
        | cons j pre =>
          exact absurd ((hfin j (hbound j (by simp))).1 (e1 j (by simp)))
            (hfresh j (by simp) (h.clean hlast hb j))
      subst this
      rw [hcur, pollsOf_cons, ← hf, hrest]
      simp [pollsIn, restOf]
    · intro j r hx; cases hx
    · intro j hj
      rw [hbef, hcur, polled_cons]
      rcases hcf j hj with hx | hx
      · exact .inl hx
      · exact .inr (.inr hx)
    · exact h.clean

theorem inv_sub (g : Cfg V S O) (n : Nat) (tr : List (Entry V S O W))
    (c c' : Comb g.kind.impl.σ S W) (i : Nat) (ro : Outcome V) (out : List (Effect S O W))
    (hg : Good g c) (hcn : c.n = n)
    (h : Inv g n tr c) (hs : step g c (.sub i ro) = some (c', out))
    (ha : Active ((.sub i ro, out) :: tr)) : Inv g n ((.sub i ro, out) :: tr) c' := by
  have ha1 := ((active_cons _ _).1 ha).1
  simp only at ha1
  simp only [step] at hs
  split at hs
  · next j rest hp =>
    split at hs
    · next hij =>
      subst hij
      simp only [Option.some.injEq] at hs
      obtain ⟨hi, hfi, hir, hrn, hrb⟩ := hg.phase.cur i rest hp
      have hpre : Pre g c rest := ⟨hg.flen, hg.rel, .inl h.reg, hrb, hrn⟩
      cases ro with
      | pending =>
        simp only [subReturns] at hs
        refine inv_advance g n tr c c c' i rest .pending out hcn h hp hpre h.reg rfl rfl rfl ?_ ?_ hs ha
        · intro j hj
          rw [finished_cons]; simp only [Event.sub.injEq, reduceCtorEq, and_false, exists_false, false_or]
          exact h.fin j hj
        · intro j v
          rw [output_cons]; simp only [Event.sub.injEq, reduceCtorEq, and_false, false_or]
          exact h.out j v
      | panics =>
        simp only [subReturns] at hs
        cases hs; simp at ha1
      | ready v =>
        simp only [subReturns] at hs
        cases hb : g.beh.maybeReturn v with
        | inr o => rw [hb] at hs; cases hs; simp at ha1
        | inl s =>
          rw [hb] at hs
          have hm := h.reg
          have hnone : c.items[i]? = some none := by
            have hlt : i < c.items.length := by rw [hm.len]; exact hi
            rw [List.getElem?_eq_getElem hlt]
            cases hx : c.items[i] with
            | none => rfl
            | some s =>
              have := (hm.iff i).2 ⟨s, by rw [List.getElem?_eq_getElem hlt, hx]⟩
              rw [hfi] at this; cases this
          have hc := count_set_true c.filled i hfi
          have hpn : c.pending ≠ 0 := by rw [hm.pend]; omega
          simp only [hnone, hpn, if_false, Option.toList_none, List.map_nil, List.nil_append] at hs
          have hlt : i < c.items.length := by rw [hm.len]; exact hi
          have hlt2 : i < c.filled.length := by rw [hg.flen]; exact hi
          have hreg' : Regular ({ c with
              items := c.items.set i (some s)
              filled := c.filled.set i true
              pending := c.pending - 1 } : Comb g.kind.impl.σ S W) := by
            refine ⟨by simp [hm.len], ?_, ?_⟩
            · intro j
              simp only [List.getElem?_set]
              by_cases hij : i = j
              · subst hij; simp [hlt, hlt2]
              · simp only [hij, if_false]; exact hm.iff j
            · simp only; rw [hm.pend]; omega
          refine inv_advance g n tr c { c with
              items := c.items.set i (some s)
              filled := c.filled.set i true
              pending := c.pending - 1 } c' i rest (.ready v) out hcn h hp
            ⟨by simp [hg.flen], hg.rel, .inl hreg', hrb, hrn⟩ hreg' rfl rfl rfl ?_ ?_ hs ha
          · intro j hj
            rw [finished_cons]
            simp only [Event.sub.injEq, Outcome.ready.injEq, List.getElem?_set]
            by_cases hij : i = j
            · subst hij; simp [hlt2]
            · simp only [hij, if_false, false_and, exists_false, false_or]; exact h.fin j hj
          · intro j v'
            rw [output_cons]
            simp only [Event.sub.injEq, Outcome.ready.injEq, List.getElem?_set]
            rintro (⟨rfl, rfl⟩ | hx)
            · exact ⟨by omega, s, hb, by simp [hlt]⟩
            · obtain ⟨h1, s', h2, h3⟩ := h.out j v' hx
              refine ⟨h1, s', h2, ?_⟩
              by_cases hij : i = j
              · subst hij; rw [hnone] at h3; simp at h3
              · simp only [hij, if_false]; exact h3
    · cases hs
  · cases hs

theorem run_inv (g : Cfg V S O) (n : Nat) (hn : 0 < n) (tr : List (Entry V S O W))
    (c : Comb g.kind.impl.σ S W) (h : Run g n tr c) (ha : Active tr) : Inv g n tr c := by
  induction h with
  | nil => exact new_inv g n hn
  | @cons tr c e c' out hr hs ih =>
    obtain ⟨hg, hcn⟩ := run_good g n tr c hr
    have hi := ih ((active_cons _ _).1 ha).2
    cases e with
    | poll w => exact inv_poll g n hn tr c c' w out hg hcn hi hs ha
    | wake i => exact inv_wake g n tr c c' i out hg hcn hi hs
    | sub i ro => exact inv_sub g n tr c c' i ro out hg hcn hi hs ha
    | drop => exact absurd rfl ((active_cons _ _).1 ha).1.1

end Verif.Comb
