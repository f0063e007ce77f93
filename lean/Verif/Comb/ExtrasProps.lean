import Verif.Comb.Extras
/-! # Property theorems for C20 -/
namespace Verif.Comb
variable {U V W T : Type}

/-! ### `pend_after` -/

/-- The inner future has returned `Ready`. -/
def InnerDone (tr : List (PEvent U W × List (PEffect T W))) : Prop := ∃ e ∈ tr, ∃ u, e.1 = .inner (.ready u)

/-- How often the inner future was dropped. -/
def innerDrops (tr : List (PEvent U W × List (PEffect T W))) : Nat :=
  (tr.map fun e => (e.2.filter fun | .innerDropped => true | _ => false).length).sum

theorem pend_inv {tr : List (PEvent U W × List (PEffect T W))} {p : Pend} (h : PRun tr p) :
    (p.some = true → ¬ InnerDone tr ∧ ¬ ∃ e ∈ tr, e.1 = .drop) ∧
    (p.some = false → InnerDone tr ∨ ∃ e ∈ tr, e.1 = .drop) ∧
    (p.dropped = true ↔ ∃ e ∈ tr, e.1 = .drop) ∧ (p.polling = true → p.some = true) ∧
    innerDrops tr = (if p.some then 0 else 1) := by
  induction h with
  | nil => simp [Pend.new, InnerDone, innerDrops]
  | @cons tr p e p' out hr hs ih =>
    obtain ⟨h1, h2, h3, h4, h5⟩ := ih
    have hD : InnerDone ((e, out) :: tr) ↔ (∃ u, e = .inner (.ready u)) ∨ InnerDone tr := by
      simp [InnerDone]
    have hE : (∃ x ∈ ((e, out) :: tr), x.1 = .drop) ↔ e = .drop ∨ ∃ x ∈ tr, x.1 = .drop := by
      simp
    have hC : innerDrops ((e, out) :: tr) =
        (out.filter fun | .innerDropped => true | _ => false).length + innerDrops tr := by
      simp [innerDrops]
    rw [hD, hE, hC, h5]
    generalize InnerDone tr = D at *
    generalize (∃ x ∈ tr, x.1 = PEvent.drop) = X at *
    clear hD hE hC h5 hr
    obtain ⟨sm, po, dr⟩ := p
    cases e with
    | poll w =>
      simp only [pendStep] at hs
      split at hs
      · cases hs
      · split at hs <;> (cases hs; cases sm <;> simp_all)
    | inner r =>
      simp only [pendStep] at hs
      split at hs
      · cases hs
      · cases r <;> (cases hs; cases sm <;> simp_all)
    | drop =>
      simp only [pendStep] at hs
      split at hs
      · cases hs
      · cases hs; cases sm <;> simp_all

/-- `f.pend_after()` never completes. -/
theorem pendAfter_never_ready {tr : List (PEvent U W × List (PEffect T W))} {p : Pend} (h : PRun tr p) :
    ∀ e ∈ tr, ∀ t, .ret (some t) ∉ e.2 := by
  induction h with
  | nil => simp
  | @cons tr p e p' out hr hs ih =>
    intro x hx
    rcases List.mem_cons.1 hx with rfl | hx
    · intro t ht
      simp only at ht
      cases e with
      | poll w =>
        simp only [pendStep] at hs
        split at hs
        · cases hs
        · split at hs <;> (cases hs; simp at ht)
      | inner r =>
        simp only [pendStep] at hs
        split at hs
        · cases hs
        · cases r <;> (cases hs; simp at ht)
      | drop =>
        simp only [pendStep] at hs
        split at hs
        · cases hs
        · cases hs; split at ht <;> simp at ht
    · exact ih x hx

/-- Until `f` has finished, every poll polls `f` with the same waker; afterwards `f` is not polled
and the poll returns `Pending`. -/
theorem pendAfter_polls {tr : List (PEvent U W × List (PEffect T W))} {p : Pend} (w : W)
    (out : List (PEffect T W)) (h : PRun ((.poll w, out) :: tr) p) :
    (¬ InnerDone tr → out = [.innerPoll w]) ∧ (InnerDone tr → out = [.ret none]) := by
  cases h with
  | @cons _ p0 _ _ _ hr hs =>
    obtain ⟨h1, h2, h3, h4, -⟩ := pend_inv hr
    simp only [pendStep] at hs
    split at hs
    · cases hs
    · next hx =>
      simp only [Bool.or_eq_true, not_or, Bool.not_eq_true] at hx
      split at hs
      · next hy => cases hs; exact ⟨fun _ => rfl, fun hd => absurd hd (h1 hy).1⟩
      · next hy =>
        cases hs
        refine ⟨fun hn => ?_, fun _ => rfl⟩
        rcases h2 (by simpa using hy) with hd | hd
        · exact absurd hd hn
        · rw [h3.2 hd] at hx; exact absurd hx.2 (by simp)

/-- `f` is dropped as soon as it has finished, else when the whole is dropped; once in all. -/
theorem pendAfter_drops_inner_once {tr : List (PEvent U W × List (PEffect T W))} {p : Pend} (h : PRun tr p) :
    innerDrops tr ≤ 1 ∧ (innerDrops tr = 1 ↔ InnerDone tr ∨ ∃ e ∈ tr, e.1 = .drop) := by
  obtain ⟨h1, h2, -, -, h5⟩ := pend_inv h
  rw [h5]
  cases hs : p.some with
  | true =>
    have := h1 hs
    simp only [if_true, Nat.zero_le, true_and]
    exact ⟨fun h => by omega, fun h => absurd h (by rw [not_or]; exact this)⟩
  | false => simp only [Bool.false_eq_true, if_false, Nat.le_refl, true_and, true_iff]; exact h2 hs

/-- Two polls, `f` finishes in the second, and a third poll. -/
example : ∃ tr p, PRun (U := Nat) (W := Nat) (T := Nat)
    ((.poll 8, [.ret none]) :: tr) p ∧ InnerDone tr ∧ (.poll 7, [.innerPoll 7]) ∈ tr :=
  ⟨[(.inner (.ready 5), [.innerDropped, .ret none]), (.poll 7, [.innerPoll 7]),
    (.inner .pending, [.ret none]), (.poll 6, [.innerPoll 6])], _,
    .cons (.cons (.cons (.cons (.cons .nil rfl) rfl) rfl) rfl) rfl, ⟨_, List.mem_cons_self, 5, rfl⟩, by decide⟩

/-! ### `meanwhile` -/

def MEntry.toRace (e : MEvent U V W × List (MEffect V W)) : Entry V Empty V W :=
  (e.1.toRace, e.2.filterMap fun | .race x => some x | _ => none)

theorem mw_step_race {dbg : Bool} {s s' : MW V W} {e : MEvent U V W} {out : List (MEffect V W)}
    (h : mwStep dbg s e = some (s', out)) :
    step (raceCfg .tuple dbg V) s.comb e.toRace =
      some (s'.comb, out.filterMap fun | .race x => some x | _ => none) := by
  simp only [mwStep] at h
  split at h
  · cases h
  · next p o1 hpre =>
    split at h
    · cases h
    · next c' o2 hs =>
      cases h
      rw [hs]
      have ho1 : o1.filterMap (fun | .race x => some x | _ => none) = [] := by
        split at hpre
        · split at hpre
          · cases hpre
            rw [List.filterMap_flatMap]
            apply List.flatMap_eq_nil_iff.2
            intro x _; cases x <;> rfl
          · cases hpre
        · split at hpre
          · cases hpre
          · cases hpre; rfl
        · split at hpre
          · cases hpre
            rw [List.filterMap_flatMap]
            apply List.flatMap_eq_nil_iff.2
            intro x _; cases x <;> rfl
          · cases hpre
        · cases hpre; rfl
      have ho3 : (enter p o2).2.filterMap (fun | .race x => some x | _ => none) = [] := by
        simp only [enter]
        split
        · split
          · simp only
            rw [List.filterMap_flatMap]
            apply List.flatMap_eq_nil_iff.2
            intro x _; cases x <;> rfl
          · rfl
        · rfl
      simp only [List.filterMap_append, ho1, ho3, List.nil_append, List.append_nil, List.filterMap_map]
      congr 2
      exact (List.filterMap_some).symm

theorem mw_run_race {dbg : Bool} {tr : List (MEvent U V W × List (MEffect V W))} {s : MW V W}
    (h : MRun dbg tr s) : Run (raceCfg .tuple dbg V) 2 (tr.map MEntry.toRace) s.comb := by
  induction h with
  | nil => exact .nil
  | @cons tr s e s' out hr hs ih => exact .cons ih (mw_step_race hs)

theorem mem_race (x : Effect Empty V W) (out : List (MEffect V W)) :
    x ∈ (out.filterMap fun | .race x => some x | _ => none) ↔ .race x ∈ out := by
  rw [List.mem_filterMap]
  constructor
  · rintro ⟨y, hy, he⟩
    cases y with
    | race z => cases he; exact hy
    | _ => cases he
  · intro h; exact ⟨_, h, rfl⟩

theorem mw_active {tr : List (MEvent U V W × List (MEffect V W))} (h : MActive tr) :
    Active (tr.map MEntry.toRace) := by
  intro e he
  obtain ⟨x, hx, rfl⟩ := List.mem_map.1 he
  obtain ⟨h1, h2, h3⟩ := h x hx
  refine ⟨?_, ?_, ?_⟩
  · obtain ⟨ev, out⟩ := x
    intro hd
    simp only [MEntry.toRace] at hd
    cases ev with
    | g r => cases r <;> cases hd
    | drop => exact h1 rfl
    | _ => cases hd
  · intro hp; exact h2 ((mem_race _ _).1 hp)
  · intro o ss hp
    cases ss with
    | nil => exact h3 o ((mem_race _ _).1 hp)
    | cons a _ => exact a.elim

/-- `f.meanwhile(g)` completes exactly when `f` does, with its output, whatever `g` does. -/
theorem meanwhile_completes_iff {dbg : Bool} {tr : List (MEvent U V W × List (MEffect V W))} {s : MW V W}
    (e : MEvent U V W) (out : List (MEffect V W)) (h : MRun dbg ((e, out) :: tr) s) (ha : MActive tr) (v : V) :
    .race (.retReady v []) ∈ out ↔ e = .f (.ready v) := by
  have hr := mw_run_race h
  rw [List.map_cons] at hr
  constructor
  · intro ho
    obtain ⟨i, -, hi⟩ := race_ready_only .tuple dbg 2 _ _ _ s.comb (fun _ => by omega) hr (mw_active ha) v []
      ((mem_race _ _).2 ho)
    cases e with
    | f r => cases hi; rfl
    | g r => cases r <;> cases hi
    | _ => cases hi
  · rintro rfl
    have := race_first_wins .tuple dbg 2 _ 0 v _ s.comb hr
    apply (mem_race _ _).1
    rw [this]; simp

/-- It panics only if `f` or `g` does. -/
theorem meanwhile_no_panic {dbg : Bool} {tr : List (MEvent U V W × List (MEffect V W))} {s : MW V W}
    (e : MEvent U V W) (out : List (MEffect V W)) (h : MRun dbg ((e, out) :: tr) s) (ha : MActive tr)
    (ho : .race .panicked ∈ out) : e = .f .panics ∨ e = .g .panics := by
  have hr := mw_run_race h
  rw [List.map_cons] at hr
  obtain ⟨i, hi⟩ := race_no_panic .tuple dbg 2 _ _ _ s.comb (fun _ => by omega) hr (mw_active ha)
    ((mem_race _ _).2 ho)
  cases e with
  | f r => cases hi; exact .inl rfl
  | g r => cases r <;> cases hi; exact .inr rfl
  | _ => cases hi

/-- `g` has returned `Ready`. -/
def GDone (tr : List (MEvent U V W × List (MEffect V W))) : Prop := ∃ e ∈ tr, ∃ u, e.1 = .g (.ready u)

theorem step_phase (g : Cfg V Empty V) (c c' : Comb g.kind.impl.σ Empty W) (e : Event V W)
    (out : List (Effect Empty V W)) (h : Good g c) (hs : step g c e = some (c', out)) :
    (∃ i rest, c'.phase = .polling i rest ∧ out = [.subPoll i] ∧ ∀ j, e ≠ .wake j) ∨
    ((∀ i, .subPoll i ∉ out) ∧ ((∀ i rest, c'.phase ≠ .polling i rest) ∨ (c'.phase = c.phase ∧ ∃ j, e = .wake j))) := by
  have key : ∀ (c1 : Comb g.kind.impl.σ Empty W) l, Pre g c1 l → advance g c1 l = (c', out) →
      (∃ i rest, c'.phase = .polling i rest ∧ out = [.subPoll i]) ∨
      ((∀ i, .subPoll i ∉ out) ∧ ∀ i rest, c'.phase ≠ .polling i rest) := by
    intro c1 l hp ha
    have := advance_out g c1 l hp
    rw [ha] at this
    rcases this with ⟨j, rest, hph, -, hj⟩ | ⟨hp, hj | ⟨o, ss, hj⟩ | ⟨ss, hj⟩⟩
    · exact .inl ⟨j, rest, hph, hj⟩
    all_goals
      right
      simp only at hj hp
      rw [hj, hp]
      exact ⟨by simp, by simp⟩
  have lift : ((∃ i rest, c'.phase = .polling i rest ∧ out = [.subPoll i]) ∨
      ((∀ i, .subPoll i ∉ out) ∧ ∀ i rest, c'.phase ≠ .polling i rest)) → (∀ j, e ≠ .wake j) →
      (∃ i rest, c'.phase = .polling i rest ∧ out = [.subPoll i] ∧ ∀ j, e ≠ .wake j) ∨
    ((∀ i, .subPoll i ∉ out) ∧ ((∀ i rest, c'.phase ≠ .polling i rest) ∨ (c'.phase = c.phase ∧ ∃ j, e = .wake j))) := by
    rintro (⟨i, rest, h1, h2⟩ | ⟨h1, h2⟩) hw
    · exact .inl ⟨i, rest, h1, h2, hw⟩
    · exact .inr ⟨h1, .inl h2⟩
  rcases step_forms g c c' e out h hs with ⟨w, rfl, hph, hx⟩ | ⟨j, rest, ro, rfl, hph, hj, hx⟩ | ⟨j, rfl, hw1, hw2, hx⟩ | ⟨rfl, hd1, hd2, hx⟩
  · apply lift _ (by simp)
    rcases hx with ⟨hgt, rfl, rfl⟩ | ⟨hgt, rfl, rfl⟩ | ⟨r, hpre, -, hadv⟩
    · right; rw [hph]; simp
    · right; rw [hph]; simp
    · exact key _ _ hpre hadv
  · apply lift _ (by simp)
    rcases hx with ⟨-, hpre, hadv⟩ | ⟨-, rfl, rfl⟩ | ⟨v, o, -, -, rfl, rfl⟩ | ⟨v, s, -⟩ | ⟨v, s, -⟩
    · exact key _ _ hpre hadv
    · right; simp
    · right; simp
    · exact s.elim
    · exact s.elim
  · right
    refine ⟨?_, .inr ⟨hw2, j, rfl⟩⟩
    rcases hx with rfl | rfl <;> simp
  · right
    refine ⟨?_, .inl ?_⟩
    · rw [hx]; simp
    · rw [hd2]; simp

theorem step_needs (g : Cfg V Empty V) (c c' : Comb g.kind.impl.σ Empty W) (e : Event V W)
    (out : List (Effect Empty V W)) (hs : step g c e = some (c', out)) :
    match e with
    | .poll _ => c.phase = .idle
    | .sub i _ => ∃ rest, c.phase = .polling i rest
    | .wake _ => c'.phase = c.phase
    | .drop => c.phase = .idle ∧ c'.phase = .dropped := by
  cases e with
  | poll w =>
    simp only [step] at hs
    split at hs
    · assumption
    · cases hs
  | sub i r =>
    simp only [step] at hs
    split at hs
    · next j rest hj =>
      split at hs
      · next e => subst e; exact ⟨rest, hj⟩
      · cases hs
    · cases hs
  | wake i =>
    simp only [step] at hs
    split at hs
    · split at hs <;> (cases hs; rfl)
    · cases hs
  | drop =>
    simp only [step] at hs
    split at hs
    · next hp => cases hs; exact ⟨hp, rfl⟩
    · cases hs

theorem enter_spec (p : Pend) (out : List (Effect Empty V W)) (hp : p.polling = false) (hd : p.dropped = false) :
    (out = [.subPoll 1] → (enter p out) = ({ p with polling := p.some }, if p.some then [.gPoll] else [])) := by
  rintro rfl
  obtain ⟨sm, po, dr⟩ := p
  cases hp; cases hd
  cases sm <;> rfl

theorem enter_none (p : Pend) (out : List (Effect Empty V W)) (h : .subPoll 1 ∉ out) : enter p out = (p, []) := by
  simp only [enter]
  rw [if_neg]
  simp only [List.any_eq_true, not_exists, not_and]
  intro x hx
  split
  · exact absurd hx h
  · simp

/-- `PendAfter` is inside of its poll exactly when the race is polling its second future, unless
`g` is gone. -/
theorem mw_inv {dbg : Bool} {tr : List (MEvent U V W × List (MEffect V W))} {s : MW V W}
    (h : MRun dbg tr s) :
    (s.pend.polling = true ↔ s.pend.some = true ∧ ∃ rest, s.comb.phase = .polling 1 rest) ∧
    (s.pend.some = true → ¬ GDone tr ∧ ∀ e ∈ tr, e.1 ≠ .drop) ∧
    (s.pend.dropped = true → s.comb.phase = .dropped) := by
  induction h with
  | nil => simp [mwNew, Pend.new, Comb.new, GDone]
  | @cons tr s e s' out hr hs ih =>
    obtain ⟨h1, h2, h3⟩ := ih
    have hrace := mw_step_race hs
    have hg := (run_good (raceCfg .tuple dbg V) 2 _ s.comb (mw_run_race hr)).1
    simp only [mwStep] at hs
    split at hs
    · cases hs
    · next p o1 hpre =>
      split at hs
      · cases hs
      · next c' o2 hst =>
        cases hs
        have hph := step_phase (raceCfg .tuple dbg V) _ _ _ _ hg hst
        have hnd := step_needs (raceCfg .tuple dbg V) _ _ _ _ hst
        have hGD : GDone ((e, o1 ++ o2.map .race ++ (enter p o2).2) :: tr) ↔ (∃ u, e = .g (.ready u)) ∨ GDone tr := by
          simp [GDone]
        have hDD : (∀ x ∈ ((e, o1 ++ o2.map .race ++ (enter p o2).2) :: tr), x.1 ≠ .drop) ↔
            e ≠ .drop ∧ ∀ x ∈ tr, x.1 ≠ .drop := by
          simp
        rw [hGD, hDD]
        have hpoll : (∀ j, e ≠ .wake j) → p.polling = false := by
          intro hw
          have hnp : (∀ rest, s.comb.phase ≠ .polling 1 rest) → s.pend.polling = false := by
            intro hx
            cases hpp : s.pend.polling with
            | false => rfl
            | true => obtain ⟨-, rest, hrest⟩ := h1.1 hpp; exact absurd hrest (hx rest)
          cases e with
          | poll w => cases hpre; simp only [MEvent.toRace] at hnd; exact hnp (by rw [hnd]; simp)
          | f r =>
            cases hpre
            simp only [MEvent.toRace] at hnd
            obtain ⟨rest, hnd⟩ := hnd
            exact hnp (by rw [hnd]; simp)
          | g r =>
            simp only [pendStep] at hpre
            split at hpre
            · next heq =>
              split at heq
              · cases heq
              · cases hpre
                cases r <;> (cases heq; rfl)
            · cases hpre
          | gSkip =>
            simp only at hpre
            split at hpre
            · cases hpre
            · next hx =>
              cases hpre
              cases hpp : s.pend.polling with
              | false => rfl
              | true => exact absurd (h1.1 hpp).1 hx
          | wake j => exact absurd rfl (hw j)
          | drop =>
            simp only [pendStep] at hpre
            split at hpre
            · next heq =>
              split at heq
              · cases heq
              · next hx => cases hpre; cases heq; simp only [Bool.or_eq_true, not_or, Bool.not_eq_true] at hx; exact hx.1
            · cases hpre
        have hdr : e ≠ .drop → p.dropped = s.pend.dropped := by
          intro hd
          cases e with
          | drop => exact absurd rfl hd
          | g r =>
            simp only [pendStep] at hpre
            split at hpre
            · next heq =>
              split at heq
              · cases heq
              · cases hpre
                cases r <;> (cases heq; rfl)
            · cases hpre
          | gSkip =>
            simp only at hpre
            split at hpre
            · cases hpre
            · cases hpre; rfl
          | _ => cases hpre; rfl
        have hsm : p.some = true → s.pend.some = true ∧ (¬ ∃ u, e = .g (.ready u)) ∧ e ≠ .drop := by
          intro hp
          cases e with
          | drop =>
            simp only [pendStep] at hpre
            split at hpre
            · next heq =>
              split at heq
              · cases heq
              · cases hpre; cases heq; cases hp
            · cases hpre
          | g r =>
            simp only [pendStep] at hpre
            split at hpre
            · next heq =>
              split at heq
              · cases heq
              · cases hpre
                cases r with
                | ready u => cases heq; cases hp
                | _ => cases heq; exact ⟨hp, by simp, by simp⟩
            · cases hpre
          | gSkip =>
            simp only at hpre
            split at hpre
            · cases hpre
            · cases hpre; exact ⟨hp, by simp, by simp⟩
          | _ => cases hpre; exact ⟨hp, by simp, by simp⟩
        have hdrop' : p.dropped = true → c'.phase = .dropped := by
          intro hp
          by_cases hed : e = .drop
          · subst hed; exact hnd.2
          · have hsd := h3 (by rw [← hdr hed]; exact hp)
            cases e with
            | drop => exact absurd rfl hed
            | wake j => simp only [MEvent.toRace] at hnd; rw [hnd, hsd]
            | g r => cases r <;> (obtain ⟨rest, hnd⟩ := hnd; rw [hsd] at hnd; cases hnd)
            | f r => obtain ⟨rest, hnd⟩ := hnd; rw [hsd] at hnd; cases hnd
            | gSkip => obtain ⟨rest, hnd⟩ := hnd; rw [hsd] at hnd; cases hnd
            | poll w => simp only [MEvent.toRace] at hnd; rw [hsd] at hnd; cases hnd
        have htail : (p.some = true → (¬((∃ u, e = .g (.ready u)) ∨ GDone tr)) ∧ e ≠ .drop ∧ ∀ x ∈ tr, x.1 ≠ .drop) := by
          intro hp
          obtain ⟨a, b, c⟩ := hsm hp
          exact ⟨by rw [not_or]; exact ⟨b, (h2 a).1⟩, c, (h2 a).2⟩
        rcases hph with ⟨i, rest, hp1, rfl, hw⟩ | ⟨hno, hp1⟩
        · have hw' : ∀ j, e ≠ .wake j := by rintro j rfl; exact hw j rfl
          have hpf := hpoll hw'
          have hdf : p.dropped = false := by
            cases hd : p.dropped with
            | false => rfl
            | true => rw [hdrop' hd] at hp1; cases hp1
          by_cases hi : i = 1
          · subst hi
            rw [enter_spec p _ hpf hdf rfl]
            refine ⟨?_, htail, fun hd => by rw [hdf] at hd; cases hd⟩
            simp only
            constructor
            · intro hx; exact ⟨hx, rest, hp1⟩
            · exact fun hx => hx.1
          · rw [enter_none p _ (by simpa using fun hh => hi hh.symm)]
            refine ⟨?_, htail, hdrop'⟩
            simp only [hpf, Bool.false_eq_true, false_iff, not_and, not_exists]
            intro _ r hr; rw [hp1] at hr; cases hr; exact hi rfl
        · rw [enter_none p _ (hno 1)]
          refine ⟨?_, htail, hdrop'⟩
          by_cases hew : ∃ j, e = .wake j
          · obtain ⟨k, rfl⟩ := hew
            cases hpre
            simp only [MEvent.toRace] at hnd
            simp only [hnd]
            exact h1
          · rcases hp1 with hp1 | ⟨-, j, hj⟩
            · simp only [hpoll (fun j hj => hew ⟨j, hj⟩), Bool.false_eq_true, false_iff, not_and, not_exists]
              exact fun _ r => hp1 1 r
            · exfalso
              cases e with
              | wake k => exact hew ⟨k, rfl⟩
              | g r => cases r <;> cases hj
              | _ => cases hj

theorem enter_gPoll (p : Pend) (out : List (Effect Empty V W)) (h : .gPoll ∈ (enter p out).2) :
    (enter p out).1.some = true := by
  obtain ⟨sm, po, dr⟩ := p
  simp only [enter] at h ⊢
  split at h
  · next hx =>
    rw [if_pos hx]
    cases sm <;> cases po <;> cases dr <;> simp_all [pendStep]
  · simp at h

/-- `g` is polled only while it has not finished (nor the whole been dropped). -/
theorem meanwhile_g_not_repolled {dbg : Bool} {tr : List (MEvent U V W × List (MEffect V W))} {s : MW V W}
    (e : MEvent U V W) (out : List (MEffect V W)) (h : MRun dbg ((e, out) :: tr) s) (ho : .gPoll ∈ out) :
    ¬ GDone ((e, out) :: tr) := by
  have hi := (mw_inv h).2.1
  suffices s.pend.some = true from (hi this).1
  clear hi
  cases h with
  | @cons _ s0 _ _ _ hr hs =>
    simp only [mwStep] at hs
    split at hs
    · cases hs
    · next p o1 hpre =>
      split at hs
      · cases hs
      · next c' o2 hst =>
        cases hs
        have ho1 : .gPoll ∉ o1 := by
          split at hpre
          · split at hpre
            · cases hpre
              simp only [List.mem_flatMap, not_exists, not_and]
              intro x _; cases x <;> simp
            · cases hpre
          · split at hpre
            · cases hpre
            · cases hpre; simp
          · split at hpre
            · cases hpre
              simp only [List.mem_flatMap, not_exists, not_and]
              intro x _; cases x <;> simp
            · cases hpre
          · cases hpre; simp
        simp only [List.mem_append, List.mem_map, reduceCtorEq, and_false, exists_false, or_false] at ho
        rcases ho with ho | ho
        · exact absurd ho ho1
        · exact enter_gPoll p o2 ho

/-- Apply the events, oldest first. -/
def mwExec (dbg : Bool) (tr : List (MEvent U V W × List (MEffect V W))) (s : MW V W) :
    List (MEvent U V W) → Option (List (MEvent U V W × List (MEffect V W)) × MW V W)
  | [] => some (tr, s)
  | e :: es =>
    match mwStep dbg s e with
    | none => none
    | some (s', out) => mwExec dbg ((e, out) :: tr) s' es

theorem mwExec_run {dbg : Bool} (es : List (MEvent U V W)) {tr tr' : List (MEvent U V W × List (MEffect V W))}
    {s s' : MW V W} (h : MRun dbg tr s) (he : mwExec dbg tr s es = some (tr', s')) : MRun dbg tr' s' := by
  induction es generalizing tr s with
  | nil => cases he; exact h
  | cons e es ih =>
    simp only [mwExec] at he
    split at he
    · cases he
    · next s1 out hs => exact ih (.cons h hs) he

/-- `f` pending, `g` finishes; later only `f` is polled, and it ends the whole. -/
example : ∃ (tr : List (MEvent Nat Nat Nat × List (MEffect Nat Nat))) (s : MW Nat Nat) (out : List (MEffect Nat Nat)),
    MRun true ((.f (.ready 7), out) :: tr) s ∧ GDone tr ∧ (∃ x ∈ tr, x.1 = .gSkip) ∧ MActive tr := by
  have h : ∃ s, mwExec (U := Nat) true [] (mwNew Nat Nat) [.poll 0, .f .pending, .g (.ready 3), .wake 1, .poll 1, .gSkip,
      .wake 0, .poll 2, .f (.ready 7)] = some ([(.f (.ready 7), [.race (.retReady 7 [])]),
        (.poll 2, [.race (.subPoll 0)]), (.wake 0, [.race (.taskWoken (some 1))]), (.gSkip, [.race .retPending]),
        (.poll 1, [.race (.subPoll 1)]), (.wake 1, [.race (.taskWoken (some 0))]),
        (.g (.ready 3), [.gDropped, .race .retPending]), (.f .pending, [.race (.subPoll 1), .gPoll]),
        (.poll 0, [.race (.subPoll 0)])], s) := ⟨_, rfl⟩
  obtain ⟨s, h⟩ := h
  refine ⟨_, s, _, mwExec_run _ .nil h, ⟨_, .tail _ (.tail _ (.tail _ (.tail _ (.tail _ (.head _))))), 3, rfl⟩, by decide, ?_⟩
  intro e he
  simp only [List.mem_cons, List.not_mem_nil, or_false] at he
  rcases he with rfl | rfl | rfl | rfl | rfl | rfl | rfl | rfl <;>
    exact ⟨by simp, by decide, fun v => by simp⟩

/-- Whenever the race waits for its second future, either `g` is being polled, or `g` has finished
and the poll returns at once: no state is stuck. -/
theorem meanwhile_not_stuck {dbg : Bool} {tr : List (MEvent U V W × List (MEffect V W))} {s : MW V W}
    (h : MRun dbg tr s) (rest : List Nat) (hp : s.comb.phase = .polling 1 rest) :
    s.pend.polling = true ∨ ∃ s' out, mwStep dbg s (.gSkip : MEvent U V W) = some (s', out) := by
  obtain ⟨h1, h2, h3⟩ := mw_inv h
  cases hs : s.pend.some with
  | true => exact .inl (h1.2 ⟨hs, rest, hp⟩)
  | false =>
    right
    have : step (raceCfg .tuple dbg V) s.comb (.sub 1 .pending) = some (subReturns (raceCfg .tuple dbg V) s.comb 1 rest .pending) := by
      simp only [step, hp, if_true]
    simp only [mwStep, hs, MEvent.toRace, this]
    exact ⟨_, _, rfl⟩

/-- While `g` is being polled it can return in every way, and a panic of `g` is passed on. -/
theorem meanwhile_g_returns {dbg : Bool} {tr : List (MEvent U V W × List (MEffect V W))} {s : MW V W}
    (h : MRun dbg tr s) (hp : s.pend.polling = true) (r : Outcome U) :
    ∃ s' out, mwStep dbg s (.g r : MEvent U V W) = some (s', out) ∧
      (r = .panics → MEffect.race .panicked ∈ out) := by
  obtain ⟨h1, -, -⟩ := mw_inv h
  obtain ⟨-, rest, hph⟩ := h1.1 hp
  cases r <;> simp [mwStep, pendStep, hp, MEvent.toRace, step, hph, subReturns]
  exact ⟨_, _, ⟨rfl, rfl⟩, by simp⟩

/-- `g` is being polled, so that the theorem applies -/
example : ∃ (tr : List (MEvent Nat Nat Nat × List (MEffect Nat Nat))) (s : MW Nat Nat),
    MRun true tr s ∧ s.pend.polling = true := by
  have h : ∃ tr s, mwExec (U := Nat) true [] (mwNew Nat Nat) [.poll 0, .f .pending] = some (tr, s) ∧
      s.pend.polling = true := ⟨_, _, rfl, rfl⟩
  obtain ⟨tr, s, h, hp⟩ := h
  exact ⟨tr, s, mwExec_run _ .nil h, hp⟩

end Verif.Comb
