import Verif.Nested.Spec
/-! What one step of a combinator does to its readiness, for combinators that have not finished. -/
namespace Verif.Nested
open Verif.Comb
variable {V S O : Type}

/-- The combinator has not finished. -/
structure COk (o : CObj V S O) : Prop where
  good : Good o.g o.c
  reg : Regular o.c
  nd : o.c.phase ≠ .dropped
  hn : o.c.n = o.n

def CObj.awake (o : CObj V S O) : List Nat := Comb.awake o.g o.c

theorem new_ok (g : Cfg V S O) (n : Nat) : COk (⟨g, n, Comb.new g.kind.impl S Place n⟩ : CObj V S O) := by
  have hg := new_good (W := Place) g n
  refine ⟨hg, ⟨by simp [Comb.new], ?_, ?_⟩, by simp [Comb.new], rfl⟩
  · intro i; simp [Comb.new, List.getElem?_replicate]
  · simp [Comb.new]

theorem new_awake (g : Cfg V S O) (n : Nat) :
    (⟨g, n, Comb.new g.kind.impl S Place n⟩ : CObj V S O).awake = List.range n :=
  g.kind.correct.list (g.kind.correct.new n)

theorem COk.awake_lt {o : CObj V S O} (h : COk o) {i : Nat} (hi : i ∈ o.awake) : i < o.n :=
  h.hn ▸ g_bound h i hi
where
  g_bound {o : CObj V S O} (h : COk o) : ∀ i ∈ o.awake, i < o.c.n := o.g.kind.correct.bound h.good.rel

theorem any_panic {out : List (Effect S O Place)} :
    out.any Effect.isPanic = false ↔ .panicked ∉ out := by
  induction out with
  | nil => simp
  | cons x xs ih => cases x <;> simp [Effect.isPanic, ih]

theorem any_ready {out : List (Effect S O Place)} :
    out.any Effect.isReady = false ↔ ∀ o ss, .retReady o ss ∉ out := by
  induction out with
  | nil => simp
  | cons x xs ih =>
    rw [List.any_cons, Bool.or_eq_false_iff, ih]
    constructor
    · intro ⟨h1, h2⟩ o ss hm
      rcases List.mem_cons.1 hm with rfl | hm
      · cases h1
      · exact h2 o ss hm
    · intro h
      refine ⟨?_, fun o ss hm => h o ss (.tail _ hm)⟩
      cases x with
      | retReady o ss => exact absurd (.head _) (h o ss)
      | _ => rfl

/-- What a poll of the combinator, or the return of a subfuture, leads to: `before` are the indices that
were to be polled. -/
inductive CAnswer (o' : CObj V S O) (before : List Nat) (out : List (Effect S O Place)) : Prop
  | polls (i : Nat) (rest : List Nat) (hout : out = [.subPoll i]) (hph : o'.c.phase = .polling i rest)
      (hi : i < o'.n) (hmem : i ∈ before)
      (hb : ∀ j ∈ before, o'.c.filled[j]? = some false → j = i ∨ j ∈ rest)
  | pending (hout : out = [.retPending]) (hph : o'.c.phase = .idle)
      (hb : ∀ j ∈ before, o'.c.filled[j]? = some true)

theorem answer_of_advance {o o' : CObj V S O} {c1 : Comb o.g.kind.impl.σ S Place}
    {out : List (Effect S O Place)} {l : List Nat} (hr : Regular c1) (hp : Pre o.g c1 l)
    {c' : Comb o.g.kind.impl.σ S Place} (ho' : o' = ⟨o.g, o.n, c'⟩) (hn : c1.n = o.n)
    (hg : Good o.g c') (ha : advance o.g c1 l = (c', out))
    (h1 : .panicked ∉ out) (h2 : ∀ x ss, .retReady x ss ∉ out) :
    COk o' ∧ CAnswer o' l out ∧ c'.filled = c1.filled ∧ c'.parent = c1.parent ∧ c'.ready = c1.ready := by
  subst ho'
  have := advance_active o.g c1 l hp hr (by rw [ha]; exact h1) (by rw [ha]; exact h2)
  rcases this with ⟨pre, i, rest, hl, hpre, hi, e⟩ | ⟨hl, hpd, e⟩
  · rw [ha] at e
    obtain ⟨rfl, rfl⟩ := Prod.mk.inj e
    refine ⟨⟨hg, hr.congr rfl rfl rfl rfl, by simp, hn⟩, .polls i rest rfl rfl ?_ (by simp [hl]) ?_, rfl, rfl, rfl⟩
    · show i < o.n
      rw [← hn]; exact hp.bound i (by simp [hl])
    · intro j hj hf
      rw [hl] at hj
      simp only [List.mem_append, List.mem_cons] at hj
      rcases hj with hj | hj | hj
      · have := hpre j hj
        simp only at hf
        rw [this] at hf; cases hf
      · exact .inl hj
      · exact .inr hj
  · rw [ha] at e
    obtain ⟨rfl, rfl⟩ := Prod.mk.inj e
    exact ⟨⟨hg, hr.congr rfl rfl rfl rfl, by simp, hn⟩, .pending rfl rfl hl, rfl, rfl, rfl⟩

theorem gate_pend_reg {k : Kind} {p : Bool} {n pend : Nat} {b : Bool} (h : gate k p n pend b = .pend)
    (hv : pend = 0 → b = true → n = 0) : n = 0 := by
  rcases gate_pend _ _ _ _ _ h with h0 | h0
  · exact h0
  · cases k with
    | array =>
      simp only [gate] at h
      split at h
      · next hc => exact hc.1
      · split at h <;> cases h
    | vec =>
      cases b with
      | true => exact hv h0 rfl
      | false => simp [gate, h0] at h
    | tuple => simp [gate, h0] at h

theorem comb_poll_facts {o : CObj V S O} (h : COk o) {w : Place} {c' : Comb o.g.kind.impl.σ S Place}
    {out : List (Effect S O Place)} (hs : Comb.step o.g o.c (.poll w) = some (c', out))
    (h1 : .panicked ∉ out) (h2 : ∀ x ss, .retReady x ss ∉ out) :
    o.c.phase = .idle ∧ COk ⟨o.g, o.n, c'⟩ ∧ CAnswer ⟨o.g, o.n, c'⟩ o.awake out ∧
      c'.filled = o.c.filled ∧ (o.n = 0 ∨ c'.parent = some w) ∧ CObj.awake ⟨o.g, o.n, c'⟩ = [] := by
  have hg' := (step_good o.g _ _ _ _ h.good hs).1
  simp only [Comb.step] at hs
  split at hs
  · next hph =>
    refine ⟨hph, ?_⟩
    simp only [Option.some.injEq] at hs
    rcases beginPoll_cases o.g o.c h.good w with ⟨hgt, e⟩ | ⟨hgt, e⟩ | ⟨hgt, r, hr1, hr2, e⟩
    · rw [e] at hs
      obtain ⟨rfl, rfl⟩ := Prod.mk.inj hs
      have hn0 : o.c.n = 0 := by
        refine gate_pend_reg hgt fun _ hb => ?_
        have := h.reg.len
        rw [List.isEmpty_iff.1 hb] at this
        simpa using this.symm
      have ha : o.awake = [] := by
        cases hl : o.awake with
        | nil => rfl
        | cons a l =>
          have := h.awake_lt (i := a) (by simp [hl])
          rw [← h.hn, hn0] at this; omega
      exact ⟨h, .pending rfl hph (by simp [ha]), rfl, .inl (by rw [← h.hn]; exact hn0), ha⟩
    · rw [e] at hs
      obtain ⟨rfl, rfl⟩ := Prod.mk.inj hs
      simp at h1
    · rw [e] at hs
      have hp : Pre o.g ({ o.c with parent := some w, ready := r } : Comb o.g.kind.impl.σ S Place) o.awake := by
        refine ⟨h.good.flen, ?_, .inl (h.reg.congr rfl rfl rfl rfl), ?_, o.g.kind.correct.nodup h.good.rel⟩
        · have : Comb.awake o.g ({ o.c with parent := some w, ready := r } : Comb o.g.kind.impl.σ S Place) = [] := hr2
          rw [this]; exact hr1
        · exact fun i hi => h.hn.symm ▸ h.awake_lt hi
      obtain ⟨a1, a2, a3, a4, a5⟩ := answer_of_advance
        (c1 := { o.c with parent := some w, ready := r }) (h.reg.congr rfl rfl rfl rfl) hp rfl h.hn hg' hs h1 h2
      refine ⟨a1, a2, a3, .inr a4, ?_⟩
      show o.g.kind.impl.list c'.ready = []
      rw [a5]; exact hr2
  · cases hs

theorem comb_sub_facts {o : CObj V S O} (h : COk o) {i : Nat} {r : Option V} {c' : Comb o.g.kind.impl.σ S Place}
    {out : List (Effect S O Place)} (hs : Comb.step o.g o.c (.sub i (outcome r)) = some (c', out))
    (h1 : .panicked ∉ out) (h2 : ∀ x ss, .retReady x ss ∉ out) :
    i < o.n ∧ ∃ rest, o.c.phase = .polling i rest ∧ COk ⟨o.g, o.n, c'⟩ ∧ CAnswer ⟨o.g, o.n, c'⟩ rest out ∧
      (∀ j, j < o.n → (c'.filled[j]? = some true ↔ o.c.filled[j]? = some true ∨ (j = i ∧ r.isSome = true))) ∧
      c'.parent = o.c.parent ∧ CObj.awake ⟨o.g, o.n, c'⟩ = o.awake := by
  have hg' := (step_good o.g _ _ _ _ h.good hs).1
  rcases step_forms o.g o.c c' _ out h.good hs with ⟨w, hc, -⟩ | ⟨j, rest, ro, he, hph, hi, hx⟩ | ⟨j, hc, -⟩ | ⟨hc, -⟩
  · cases hc
  · obtain ⟨rfl, rfl⟩ : i = j ∧ outcome r = ro := by simpa using he
    refine ⟨h.hn ▸ hi, rest, hph, ?_⟩
    rcases hx with ⟨hro, hp, ha⟩ | ⟨hro, -⟩ | ⟨v, x, -, -, -, rfl⟩ | ⟨v, x, -, -, -, -, -, rfl⟩ | ⟨v, x, hro, -, -, hr1, hp, ha⟩
    · obtain ⟨a1, a2, a3, a4, a5⟩ := answer_of_advance h.reg hp rfl h.hn hg' ha h1 h2
      refine ⟨a1, a2, ?_, a4, ?_⟩
      · intro j _; rw [a3]
        cases r with
        | none => simp
        | some v => simp [outcome] at hro
      · show o.g.kind.impl.list c'.ready = o.g.kind.impl.list o.c.ready
        rw [a5]
    · cases r <;> simp [outcome] at hro
    · exact absurd (by simp) (h2 x [])
    · simp at h1
    · obtain ⟨a1, a2, a3, a4, a5⟩ := answer_of_advance hr1 hp rfl h.hn hg' ha h1 h2
      refine ⟨a1, a2, ?_, a4, ?_⟩
      · intro j hj
        rw [a3]
        simp only
        rw [List.getElem?_set]
        cases r with
        | none => simp [outcome] at hro
        | some v =>
          by_cases hij : i = j
          · subst hij
            have : i < o.c.filled.length := by rw [h.good.flen, h.hn]; exact hj
            simp [this]
          · simp [hij, Ne.symm hij]
      · show o.g.kind.impl.list c'.ready = o.g.kind.impl.list o.c.ready
        rw [a5]
  · cases hc
  · cases hc

theorem comb_wake_facts {o : CObj V S O} (h : COk o) {i : Nat} {c' : Comb o.g.kind.impl.σ S Place}
    {out : List (Effect S O Place)} (hs : Comb.step o.g o.c (.wake i) = some (c', out)) :
    COk ⟨o.g, o.n, c'⟩ ∧ c'.phase = o.c.phase ∧ c'.filled = o.c.filled ∧ c'.parent = o.c.parent ∧ i < o.n ∧
      (∀ j, j ∈ CObj.awake ⟨o.g, o.n, c'⟩ ↔ j = i ∨ j ∈ o.awake) ∧
      (o.awake = [] → wokenIn out = o.c.parent) ∧ (o.awake ≠ [] → wokenIn out = none) := by
  have hg' := (step_good o.g _ _ _ _ h.good hs).1
  simp only [Comb.step] at hs
  split at hs
  · next hi =>
    obtain ⟨r, woke, h1, h2, h3⟩ := wake_good o.g o.c h.good.rel i hi
    rw [h1] at hs
    simp only [Option.some.injEq, Prod.mk.injEq] at hs
    obtain ⟨rfl, rfl⟩ := hs
    refine ⟨⟨hg', h.reg.congr rfl rfl rfl rfl, h.nd, h.hn⟩, rfl, rfl, rfl, by rw [← h.hn]; exact hi, ?_, ?_, ?_⟩
    · intro j
      show j ∈ o.g.kind.impl.list r ↔ j = i ∨ j ∈ Comb.awake o.g o.c
      rcases h3 with ⟨hm, -, e⟩ | ⟨-, -, e⟩
      · rw [e]
        exact ⟨.inr, fun hx => hx.elim (fun hx => hx ▸ hm) id⟩
      · rw [e]; simp [or_comm]
    · intro he
      have he : Comb.awake o.g o.c = [] := he
      rcases h3 with ⟨hm, -, -⟩ | ⟨-, hw, -⟩
      · rw [he] at hm; cases hm
      · rw [he] at hw; simp at hw; simp [hw, wokenIn]
    · intro he
      have he : Comb.awake o.g o.c ≠ [] := he
      rcases h3 with ⟨-, hw, -⟩ | ⟨-, hw, -⟩
      · simp [hw, wokenIn]
      · have : woke = false := by rw [hw]; simpa using he
        simp [this, wokenIn]
  · cases hs

/-- A combinator that returns `Ready` polls nobody at the same time. -/
theorem comb_ready_facts {o : CObj V S O} (h : COk o) {e : Comb.Event V Place} {c' : Comb o.g.kind.impl.σ S Place}
    {out : List (Effect S O Place)} (hs : Comb.step o.g o.c e = some (c', out))
    (h2 : ∃ x ss, .retReady x ss ∈ out) : polledIn out = none := by
  obtain ⟨x, ss, h2⟩ := h2
  have key : ∀ (c1 : Comb o.g.kind.impl.σ S Place) l, Pre o.g c1 l → advance o.g c1 l = (c', out) →
      polledIn out = none := by
    intro c1 l hp ha
    have := advance_out o.g c1 l hp
    rw [ha] at this
    simp only at this
    rcases this with ⟨j, rest, -, -, rfl⟩ | ⟨-, rfl | ⟨o, ss, rfl⟩ | ⟨ss, rfl⟩⟩
    · simp at h2
    · rfl
    · rfl
    · simp [polledIn, polledIn_dropped]
  rcases step_forms o.g o.c c' e out h.good hs with ⟨w, rfl, hph, hx⟩ | ⟨j, rest, ro, rfl, -, -, hx⟩ | ⟨j, rfl, -, hph, hx⟩ | ⟨rfl, -, hph, hx⟩
  · rcases hx with ⟨-, rfl, rfl⟩ | ⟨-, rfl, rfl⟩ | ⟨r, hp, -, ha⟩
    · rfl
    · rfl
    · exact key _ _ hp ha
  · rcases hx with ⟨-, hp, ha⟩ | ⟨-, rfl, rfl⟩ | ⟨v, o, -, -, rfl, rfl⟩ | ⟨v, s, -, -, -, -, rfl, rfl⟩ | ⟨v, s, -, -, -, -, hp, ha⟩
    · exact key _ _ hp ha
    · rfl
    · rfl
    · rfl
    · exact key _ _ hp ha
  · rcases hx with rfl | rfl <;> rfl
  · subst hx; exact polledIn_dropped _

end Verif.Nested
