import Verif.Comb.Select
import Verif.Comb.ExtrasProps
/-!
# C54: `select!`
-/
namespace Verif.Comb
variable {V W : Type}

/-! ### Vocabulary -/

abbrev STrace (V W : Type) := List (SEvent V W × List (SEffect V W))

/-- How often the future expression of branch `i` was evaluated. -/
def evaluations [DecidableEq V] [DecidableEq W] (i : Nat) (tr : STrace V W) : Nat :=
  (tr.flatMap (·.2)).count (.evaluated i)

/-- How often the future of branch `i` was dropped. -/
def drops [DecidableEq V] [DecidableEq W] (i : Nat) (tr : STrace V W) : Nat :=
  (tr.flatMap (·.2)).count (.dropped i)

/-! ### The race inside -/

theorem run_before {S O : Type} {g : Cfg V S O} {n : Nat} {tr : List (Entry V S O W)} {c : Comb g.kind.impl.σ S W}
    (h : Run g n tr c) (hl : lastWaker tr ≠ none) : ∃ c0, Run g n (before tr) c0 ∧ c0.phase = .idle := by
  induction h with
  | nil => exact absurd rfl hl
  | @cons tr c0 e c' out hr hs ih =>
    cases e with
    | poll w =>
      refine ⟨c0, hr, ?_⟩
      simp only [step] at hs
      split at hs
      · assumption
      · cases hs
    | sub i r => exact ih hl
    | wake i => exact ih hl
    | drop => exact ih hl

theorem active_before {S O : Type} {tr : List (Entry V S O W)} (h : Active tr) : Active (before tr) := by
  have hm : ∀ (t : List (Entry V S O W)), ∀ e ∈ before t, e ∈ t := by
    intro t
    induction t with
    | nil => simp [before]
    | cons x t ih =>
      intro e he
      obtain ⟨ev, o⟩ := x
      cases ev with
      | poll w => exact .tail _ he
      | _ => exact .tail _ (ih e he)
  exact fun e he => h e (hm _ e he)

theorem polled_before {S O : Type} {tr : List (Entry V S O W)} {i : Nat} (h : Polled (before tr) i) : Polled tr i := by
  induction tr with
  | nil => exact h
  | cons x t ih =>
    obtain ⟨ev, o⟩ := x
    cases ev with
    | poll w => exact (polled_cons _ _ _).2 (.inr h)
    | _ => exact (polled_cons _ _ _).2 (.inr (ih h))

theorem finished_polled {S O : Type} {g : Cfg V S O} {n : Nat} {tr : List (Entry V S O W)} {c : Comb g.kind.impl.σ S W}
    (h : Run g n tr c) (ha : Active tr) (hn : 0 < n) {i : Nat} (hf : Finished tr i) : Polled tr i := by
  induction h with
  | nil => obtain ⟨v, e, he, -⟩ := hf; cases he
  | @cons tr c0 e c' out hr hs ih =>
    have ha' : Active tr := ((active_cons _ _).1 ha).2
    rcases (finished_cons _ _ _).1 hf with ⟨v, he⟩ | h1
    · simp only at he
      subst he
      refine (polled_cons _ _ _).2 (.inr ?_)
      have : ∃ rest, c0.phase = .polling i rest := by
        simp only [step] at hs
        split at hs
        · next j rest hj =>
          split at hs
          · next e => subst e; exact ⟨rest, hj⟩
          · cases hs
        · cases hs
      obtain ⟨rest, hp⟩ := this
      obtain ⟨x, hx, hm⟩ := (run_inv g n hn tr c0 hr ha').curPolled i rest hp
      exact ⟨x, mem_of_mem_current _ x hx, hm⟩
    · exact (polled_cons _ _ _).2 (.inr (ih ha' h1))

/-- A subfuture is polled for the first time only after all those before it. -/
theorem first_in_order {S O : Type} {g : Cfg V S O} {n : Nat} (hn : 0 < n) {tr : List (Entry V S O W)}
    {e : Event V W} {c : Comb g.kind.impl.σ S W} {j : Nat} (h : Run g n ((e, [.subPoll j]) :: tr) c) (ha : Active tr)
    (he : e ≠ .drop) (hw : ∀ i, e ≠ .wake i) (hf : ¬ Polled tr j) {i : Nat} (hi : i < j) : Polled tr i := by
  have ha' : Active ((e, [.subPoll j]) :: tr) := (active_cons _ _).2 ⟨⟨he, by simp, by simp⟩, ha⟩
  have inv := run_inv g n hn _ c h ha'
  have hjn : j < n := run_polled_lt g n _ c h j ((polled_cons _ _ _).2 (.inl (by simp)))
  have hl : lastWaker ((e, [.subPoll j]) :: tr) ≠ none := by
    cases hlw : lastWaker ((e, [.subPoll j]) :: tr) with
    | some w => simp
    | none => exact absurd ((polled_cons _ _ _).2 (.inl (by simp))) ((inv.never hlw).2.2.1 j)
  have hb : ∀ x, Polled (before ((e, [.subPoll j]) :: tr)) x → Polled tr x := by
    intro x hx
    cases e with
    | poll w => exact hx
    | sub _ _ => exact polled_before hx
    | wake k => exact absurd rfl (hw k)
    | drop => exact absurd rfl he
  have h1 : lastWaker (before ((e, [.subPoll j]) :: tr)) = none := by
    cases hlw : lastWaker (before ((e, [.subPoll j]) :: tr)) with
    | none => rfl
    | some w =>
      exfalso
      obtain ⟨c1, r1, hid⟩ := run_before h hl
      have inv1 := run_inv g n hn _ c1 r1 (active_before ha')
      have hnp : ¬ Polled (before (before ((e, [.subPoll j]) :: tr))) j := fun hp => hf (hb _ (polled_before hp))
      obtain ⟨c2, r2, -⟩ := run_before r1 (by rw [hlw]; simp)
      have hnf : ¬ Finished (before (before ((e, [.subPoll j]) :: tr))) j := fun hx =>
        hnp (finished_polled r2 (active_before (active_before ha')) hn hx)
      rcases inv1.cover (by rw [hlw]; simp) j hjn hnf (.inr hnp) with hm | ⟨x, hx, hm⟩
      · rw [hid] at hm; cases hm
      · exact hf (hb _ ⟨x, mem_of_mem_current _ x hx, hm⟩)
  have hr := inv.first hl h1
  have hin : i ∈ List.range n := List.mem_range.2 (by omega)
  cases e with
  | poll w =>
    exfalso
    have : pollsOf (current ((.poll w, [.subPoll j]) :: tr)) = [j] := rfl
    rw [this] at hr
    have h0 := congrArg (·[0]?) hr
    simp [hn] at h0
    omega
  | sub k r =>
    have : pollsOf (current ((.sub k r, [.subPoll j]) :: tr)) = j :: pollsOf (current tr) := rfl
    rw [this, List.reverse_cons, List.append_assoc] at hr
    rw [← mem_pollsOf]
    have hpos : (List.range n)[(pollsOf (current tr)).length]? = some j := by
      rw [← hr, List.getElem?_append_right (by simp)]
      simp
    rw [List.getElem?_eq_some_iff] at hpos
    obtain ⟨hlt, hpj⟩ := hpos
    rw [List.getElem_range] at hpj
    have hi2 : (List.range n)[i]? = some i := by rw [List.getElem?_range]; omega
    rw [← hr, List.getElem?_append_left (by rw [List.length_reverse]; omega)] at hi2
    have := List.mem_of_getElem? hi2
    rw [List.mem_reverse, mem_pollsOf] at this
    obtain ⟨x, hx, hm⟩ := this
    exact (mem_pollsOf _ _).2 ⟨x, mem_of_mem_current _ x hx, hm⟩
  | wake k => exact absurd rfl (hw k)
  | drop => exact absurd rfl he

/-- What a step of a race can be. -/
theorem race_step {dbg : Bool} {n : Nat} (hn : 0 < n) {tr : List (Entry V Empty V W)}
    {c0 c : Comb Kind.tuple.impl.σ Empty W} {e : Event V W} {out : List (Effect Empty V W)}
    (hr : Run (raceCfg .tuple dbg V) n tr c0) (ha : Active tr)
    (hs : step (raceCfg .tuple dbg V) c0 e = some (c, out)) :
    (((∃ w, e = .poll w ∧ c0.phase = .idle) ∨ ∃ j rest, e = .sub j .pending ∧ c0.phase = .polling j rest) ∧
      ((∃ i rest, out = [.subPoll i] ∧ c.phase = .polling i rest) ∨ (out = [.retPending] ∧ c.phase = .idle))) ∨
    (∃ i v rest, e = .sub i (.ready v) ∧ c0.phase = .polling i rest ∧ out = [.retReady v []]) ∨
    (∃ i rest, e = .sub i .panics ∧ c0.phase = .polling i rest ∧ out = [.panicked]) ∨
    (∃ i, e = .wake i ∧ c.phase = c0.phase ∧ (out = [] ∨ ∃ w, out = [.taskWoken w])) ∨
    (e = .drop ∧ out = []) := by
  have hg := (run_good (raceCfg .tuple dbg V) n tr c0 hr).1
  have hrun : Run (raceCfg .tuple dbg V) n ((e, out) :: tr) c := .cons hr hs
  have hk : ∀ (c1 : Comb Kind.tuple.impl.σ Empty W) l, Pre (raceCfg .tuple dbg V) c1 l →
      advance (raceCfg .tuple dbg V) c1 l = (c, out) → (∀ i v, e ≠ .sub i (.ready v)) → (∀ i, e ≠ .sub i .panics) →
      ((∃ i rest, out = [.subPoll i] ∧ c.phase = .polling i rest) ∨ (out = [.retPending] ∧ c.phase = .idle)) := by
    intro c1 l hp had he1 he2
    have := advance_out (raceCfg .tuple dbg V) c1 l hp
    rw [had] at this
    rcases this with ⟨i, rest, h1, -, h2⟩ | ⟨h1, h2 | ⟨o, ss, h2⟩ | ⟨ss, h2⟩⟩
    · exact .inl ⟨i, rest, h2, h1⟩
    · exact .inr ⟨h2, h1⟩
    · obtain ⟨i, -, h3⟩ := race_ready_only .tuple dbg n tr e out c (fun _ => hn) hrun ha o ss (by simp only at h2; rw [h2]; simp)
      exact absurd h3 (he1 i o)
    · obtain ⟨i, h3⟩ := race_no_panic .tuple dbg n tr e out c (fun _ => hn) hrun ha (by simp only at h2; rw [h2]; simp)
      exact absurd h3 (he2 i)
  rcases step_forms (raceCfg .tuple dbg V) c0 c e out hg hs with ⟨w, rfl, hph, hx⟩ | ⟨j, rest, ro, rfl, hph, hj, hx⟩ | ⟨j, rfl, hw1, hw2, hx⟩ | ⟨rfl, hd1, hd2, hx⟩
  · left
    refine ⟨.inl ⟨w, rfl, hph⟩, ?_⟩
    rcases hx with ⟨hgt, rfl, rfl⟩ | ⟨hgt, rfl, rfl⟩ | ⟨r, hpre, -, hadv⟩
    · exact .inr ⟨rfl, hph⟩
    · obtain ⟨i, h3⟩ := race_no_panic .tuple dbg n tr _ _ _ (fun _ => hn) hrun ha (by simp)
      cases h3
    · exact hk _ _ hpre hadv (by simp) (by simp)
  · rcases hx with ⟨rfl, hpre, hadv⟩ | ⟨rfl, rfl, rfl⟩ | ⟨v, o, rfl, hb, rfl, rfl⟩ | ⟨v, s, -⟩ | ⟨v, s, -⟩
    · exact .inl ⟨.inr ⟨j, rest, rfl, hph⟩, hk _ _ hpre hadv (by simp) (by simp)⟩
    · exact .inr (.inr (.inl ⟨j, rest, rfl, hph, rfl⟩))
    · have : Sum.inr v = (Sum.inr o : Empty ⊕ V) := hb
      cases this
      exact .inr (.inl ⟨j, v, rest, rfl, hph, rfl⟩)
    · exact s.elim
    · exact s.elim
  · exact .inr (.inr (.inr (.inl ⟨j, rfl, hw2, hx.imp id fun h => ⟨_, h⟩⟩)))
  · refine .inr (.inr (.inr (.inr ⟨rfl, ?_⟩)))
    have hnil : ∀ l : List Empty, l.map (Effect.droppedItem (O := V) (W := W)) = [] := by
      intro l
      cases l with
      | nil => rfl
      | cons a _ => exact a.elim
    exact hx.trans (hnil _)

/-! ### The invariant -/

section
variable [DecidableEq V] [DecidableEq W]

theorem evaluations_cons (i : Nat) (x : SEvent V W × List (SEffect V W)) (tr : STrace V W) :
    evaluations i (x :: tr) = x.2.count (.evaluated i) + evaluations i tr := by
  simp [evaluations, List.count_append]

theorem drops_cons (i : Nat) (x : SEvent V W × List (SEffect V W)) (tr : STrace V W) :
    drops i (x :: tr) = x.2.count (.dropped i) + drops i tr := by
  simp [drops, List.count_append]

theorem holding_count (bs : List Branch) : ∀ (start i : Nat),
    (holding bs start).count i = if i < start then 0 else if bs[i - start]? = some .awaiting then 1 else 0 := by
  induction bs with
  | nil => intro start i; simp [holding]
  | cons b bs ih =>
    intro start i
    have hrec : (holding bs (start + 1)).count i =
        if i < start then 0 else if i = start then 0 else if (b :: bs)[i - start]? = some .awaiting then 1 else 0 := by
      rw [ih]
      rcases Nat.lt_trichotomy i start with h | h | h
      · simp [h, show i < start + 1 by omega]
      · subst h; simp
      · rw [if_neg (show ¬ i < start + 1 by omega), if_neg (show ¬ i < start by omega), if_neg (show ¬ i = start by omega)]
        obtain ⟨k, hk⟩ : ∃ k, i - start = k + 1 := ⟨i - start - 1, by omega⟩
        rw [hk, show i - (start + 1) = k by omega, List.getElem?_cons_succ]
    cases b with
    | awaiting =>
      simp only [holding, List.count_cons, hrec]
      rcases Nat.lt_trichotomy i start with h | h | h
      · simp [h, show ¬ start = i by omega]
      · subst h; simp
      · simp [show ¬ i < start by omega, show ¬ i = start by omega, show ¬ start = i by omega]
    | fresh =>
      simp only [holding, hrec]
      rcases Nat.lt_trichotomy i start with h | h | h
      · simp [h]
      · subst h; simp
      · simp [show ¬ i < start by omega, show ¬ i = start by omega]
    | gone =>
      simp only [holding, hrec]
      rcases Nat.lt_trichotomy i start with h | h | h
      · simp [h]
      · subst h; simp
      · simp [show ¬ i < start by omega, show ¬ i = start by omega]

theorem dropped_count (bs : List Branch) (i : Nat) :
    ((holding bs 0).map (SEffect.dropped (V := V) (W := W))).count (.dropped i) =
      if bs[i]? = some .awaiting then 1 else 0 := by
  have : ∀ l : List Nat, (l.map (SEffect.dropped (V := V) (W := W))).count (.dropped i) = l.count i := by
    intro l
    induction l with
    | nil => rfl
    | cons a l ih => simp [List.count_cons, ih]
  rw [this, holding_count]; simp

/-- `fut_i` has returned `Pending`. -/
def Waits (tr : STrace V W) (i : Nat) : Prop := ∃ e ∈ tr, e.1 = .fut i .pending

/-- What the race would have done. -/
def SEffect.toRace : SEffect V W → Option (Effect Empty (Nat × V) W)
  | .polled i => some (.subPoll i)
  | .pending => some .retPending
  | .arm i v => some (.retReady (i, v) [])
  | .taskWoken w => some (.taskWoken w)
  | .panicked => some .panicked
  | .evaluated _ => none
  | .dropped _ => none

/-- A history of `select!` as a history of a race. -/
def raceTrace (tr : STrace V W) : List (Entry (Nat × V) Empty (Nat × V) W) :=
  tr.map fun e => (e.1.toRace, e.2.filterMap SEffect.toRace)

structure SLive (dbg : Bool) (n : Nat) (tr : STrace V W) (rtr : List (Entry (Nat × V) Empty (Nat × V) W)) (s : Sel W) :
    Prop where
  run : Run (raceCfg .tuple dbg (Nat × V)) n rtr s.comb
  eq : raceTrace tr = rtr
  act : Active rtr
  len : s.branches.length = n
  fresh : ∀ i, i < n → (s.branches[i]? = some .fresh ∧ ¬ Polled rtr i) ∨ (s.branches[i]? = some .awaiting ∧ Polled rtr i)
  evals : ∀ i, evaluations i tr = if s.branches[i]? = some .awaiting then 1 else 0
  drops : ∀ i, drops i tr = 0
  cur : ∀ i rest, s.comb.phase = .polling i rest → s.branches[i]? = some .awaiting
  wait : ∀ i, s.branches[i]? = some .awaiting → (∃ rest, s.comb.phase = .polling i rest) ∨ Waits tr i

/-- Somebody panicked. -/
def Panicked (tr : STrace V W) : Prop := ∃ e ∈ tr, SEffect.panicked ∈ e.2

def SInv (dbg : Bool) (n : Nat) (tr : STrace V W) (s : Sel W) : Prop :=
  (s.over = false → ∃ rtr, SLive dbg n tr rtr s) ∧
  (s.over = true → (∀ i, drops i tr ≤ evaluations i tr ∧ evaluations i tr ≤ 1) ∧
    (¬ Panicked tr → ∀ i, drops i tr = evaluations i tr))

/-- What can happen in one step. -/
inductive SForm (dbg : Bool) (n : Nat) (tr : STrace V W) (s : Sel W) : SEvent V W → Sel W → List (SEffect V W) → Prop
  | quiet {e s'} {out : List (SEffect V W)} (h : ∀ x ∈ out, x = .pending ∨ ∃ w, x = .taskWoken w)
      (he : e ≠ .drop) (he2 : ∀ i v, e ≠ .fut i (.ready v)) (he3 : ∀ i, e ≠ .fut i .panics) (ho : s'.over = s.over)
      (hp : .pending ∈ out → ∀ i, i < n → Waits ((e, out) :: tr) i) : SForm dbg n tr s e s' out
  | first {e s' i} (hf : s.branches[i]? = some .fresh) (hi : ∀ j, j < i → Waits ((e, [.evaluated i, .polled i]) :: tr) j)
      (he : e ≠ .drop) (he2 : ∀ i v, e ≠ .fut i (.ready v)) (he3 : ∀ i, e ≠ .fut i .panics) (ho : s'.over = false) :
      SForm dbg n tr s e s' [.evaluated i, .polled i]
  | again {e s' i} (hf : s.branches[i]? = some .awaiting) (ho : s'.over = false)
      (he : e ≠ .drop) (he2 : ∀ i v, e ≠ .fut i (.ready v)) (he3 : ∀ i, e ≠ .fut i .panics) :
      SForm dbg n tr s e s' [.polled i]
  | done {s' i v} (hf : s.branches[i]? = some .awaiting) (ho : s'.over = true) :
      SForm dbg n tr s (.fut i (.ready v)) s'
        (.dropped i :: (holding (s.branches.set i .gone) 0).map .dropped ++ [.arm i v])
  | panic {s' i} (ho : s'.over = true) : SForm dbg n tr s (.fut i .panics) s' [.panicked]
  | drop {s'} (ho : s'.over = true) : SForm dbg n tr s .drop s' ((holding s.branches 0).map .dropped)

theorem sel_step {dbg : Bool} {n : Nat} (hn : 0 < n) {tr : STrace V W} {s s' : Sel W} {e : SEvent V W}
    {out : List (SEffect V W)} (hi : SInv dbg n tr s) (hs : selStep dbg s e = some (s', out)) :
    SInv dbg n ((e, out) :: tr) s' ∧ ((s.over = true ∧ out = [] ∧ ∃ i, e = .wake i) ∨
      (s.over = false ∧ SForm dbg n tr s e s' out)) := by
  cases ho : s.over with
  | true =>
    simp only [selStep, ho, if_true] at hs
    split at hs
    · split at hs
      · simp only [Option.some.injEq, Prod.mk.injEq] at hs
        obtain ⟨rfl, rfl⟩ := hs
        refine ⟨⟨fun h => (by rw [ho] at h; cases h), fun _ => ?_⟩, .inl ⟨rfl, rfl, _, rfl⟩⟩
        obtain ⟨h1, h2⟩ := hi.2 ho
        refine ⟨fun i => ?_, fun hp i => ?_⟩
        · rw [drops_cons, evaluations_cons]; simpa using h1 i
        · rw [drops_cons, evaluations_cons]
          simp only [List.count_nil, Nat.zero_add]
          exact h2 (fun ⟨x, hx, h3⟩ => hp ⟨x, .tail _ hx, h3⟩) i
      · cases hs
    · cases hs
  | false =>
    obtain ⟨rtr, hl⟩ := hi.1 ho
    have hbs : ∀ i, s.branches[i]? = some .awaiting → i < n := by
      intro i h
      have := (List.getElem?_eq_some_iff.1 h).1
      rw [hl.len] at this; exact this
    unfold selStep at hs
    rw [if_neg (by simp [ho])] at hs
    split at hs
    · cases hs
    · next c rout hst =>
      simp only [Option.some.injEq, Prod.mk.injEq] at hs
      obtain ⟨hs1, hs2⟩ := hs
      have hrun : Run (raceCfg .tuple dbg (Nat × V)) n ((e.toRace, rout) :: rtr) c := .cons hl.run hst
      rcases race_step hn hl.run hl.act hst with ⟨hev, hout⟩ | ⟨i, v, rest, hev, hph, rfl⟩ | ⟨i, rest, hev, hph, rfl⟩ |
        ⟨i, hev, hph, hout⟩ | ⟨hev, rfl⟩
      · -- polls
        have he : e ≠ .drop := by
          rintro rfl
          rcases hev with ⟨w, h1, -⟩ | ⟨j, rest, h1, -⟩ <;> cases h1
        have he2 : ∀ i v, e ≠ .fut i (.ready v) := by
          rintro i v rfl
          rcases hev with ⟨w, h1, -⟩ | ⟨j, rest, h1, -⟩ <;> cases h1
        have he3 : ∀ i, e ≠ .fut i .panics := by
          rintro i rfl
          rcases hev with ⟨w, h1, -⟩ | ⟨j, rest, h1, -⟩ <;> cases h1
        have hae : awaitEnds s.branches e = (s.branches, []) := by
          cases e with
          | fut i r =>
            cases r with
            | ready v => exact absurd rfl (he2 i v)
            | _ => rfl
          | _ => rfl
        have hre : ∀ s1, raceEnds s1 e = (s1, []) := by
          intro s1
          cases e with
          | drop => exact absurd rfl he
          | _ => rfl
        rw [hae] at hs1 hs2
        simp only [hre, List.nil_append, List.append_nil] at hs1 hs2
        have hw3 : ∀ k, e.toRace ≠ .wake k := by
          intro k
          rcases hev with ⟨w, h1, -⟩ | ⟨j, rest, h1, -⟩ <;> rw [h1] <;> simp
        have hd3 : e.toRace ≠ .drop := by
          rcases hev with ⟨w, h1, -⟩ | ⟨j, rest, h1, -⟩ <;> rw [h1] <;> simp
        -- what was being polled waits now
        have hwait : ∀ o j, s.branches[j]? = some .awaiting → Waits ((e, o) :: tr) j := by
          intro o j hj
          rcases hl.wait j hj with ⟨rest, hp⟩ | ⟨x, hx, h2⟩
          · rcases hev with ⟨w, h1, h2⟩ | ⟨k, rest', h1, h2⟩
            · rw [hp] at h2; cases h2
            · rw [hp] at h2
              cases h2
              refine ⟨_, .head _, ?_⟩
              cases e with
              | fut i r =>
                cases r with
                | pending => cases h1; rfl
                | _ => cases h1
              | _ => cases h1
          · exact ⟨x, .tail _ hx, h2⟩
        have hact : Active ((e.toRace, rout) :: rtr) := by
          refine (active_cons _ _).2 ⟨⟨hd3, ?_, ?_⟩, hl.act⟩
          · rcases hout with ⟨i, rest, rfl, -⟩ | ⟨rfl, -⟩ <;> simp
          · rcases hout with ⟨i, rest, rfl, -⟩ | ⟨rfl, -⟩ <;> simp
        rcases hout with ⟨i, rest, rfl, hph⟩ | ⟨rfl, hph⟩
        · -- a branch is polled
          have hin : i < n := run_polled_lt _ n _ c hrun i ((polled_cons _ _ _).2 (.inl (by simp)))
          rcases hl.fresh i hin with ⟨hfr, hnp⟩ | ⟨haw, hp⟩
          · -- for the first time
            have h1 : reactAll ({ s with comb := c } : Sel W) [Effect.subPoll (S := Empty) (O := Nat × V) (W := W) i] =
                (({ s with comb := c, branches := s.branches.set i .awaiting } : Sel W),
                  [SEffect.evaluated i, .polled i]) := by
              simp [reactAll, react, hfr]
            rw [h1] at hs1 hs2
            subst hs1 hs2
            have hget : ∀ j, (s.branches.set i .awaiting)[j]? = if i = j then some .awaiting else s.branches[j]? := by
              intro j
              rw [List.getElem?_set]
              split
              · next h => subst h; rw [if_pos (by rw [hl.len]; exact hin)]
              · rfl
            refine ⟨⟨fun _ => ⟨_, hrun, congrArg _ hl.eq, hact, by simp [hl.len], ?_, ?_, ?_, ?_, ?_⟩, fun h => by rw [ho] at h; cases h⟩,
              .inr ⟨rfl, .first hfr ?_ he he2 he3 ho⟩⟩
            · intro j hj
              simp only [hget]
              split
              · next h => subst h; exact .inr ⟨rfl, (polled_cons _ _ _).2 (.inl (by simp))⟩
              · next h =>
                rcases hl.fresh j hj with ⟨a, b⟩ | ⟨a, b⟩
                · refine .inl ⟨a, ?_⟩
                  rw [polled_cons]
                  rintro (h3 | h3)
                  · simp at h3; omega
                  · exact b h3
                · exact .inr ⟨a, (polled_cons _ _ _).2 (.inr b)⟩
            · intro j
              rw [evaluations_cons, hl.evals]
              simp only [hget, List.count_cons, List.count_nil]
              by_cases h : i = j
              · subst h; simp [hfr]
              · simp [h]
            · intro j
              rw [drops_cons, hl.drops]
              simp
            · intro j r' hp
              simp only [hph] at hp
              cases hp
              simp only [hget, if_true]
            · intro j hj
              simp only [hget] at hj
              split at hj
              · next h => subst h; exact .inl ⟨rest, hph⟩
              · exact .inr (hwait _ j hj)
            · intro j hj
              have hpj := first_in_order hn hrun hl.act hd3 hw3 hnp hj
              rcases hl.fresh j (by omega) with ⟨-, b⟩ | ⟨a, -⟩
              · exact absurd hpj b
              · exact hwait _ j a
          · -- again
            have h1 : reactAll ({ s with comb := c } : Sel W) [Effect.subPoll (S := Empty) (O := Nat × V) (W := W) i] =
                (({ s with comb := c } : Sel W), [SEffect.polled i]) := by
              simp [reactAll, react, haw]
            rw [h1] at hs1 hs2
            subst hs1 hs2
            refine ⟨⟨fun _ => ⟨_, hrun, congrArg _ hl.eq, hact, hl.len, ?_, ?_, ?_, ?_, ?_⟩, fun h => by rw [ho] at h; cases h⟩,
              .inr ⟨rfl, .again haw ho he he2 he3⟩⟩
            · intro j hj
              rcases hl.fresh j hj with ⟨a, b⟩ | ⟨a, b⟩
              · refine .inl ⟨a, ?_⟩
                rw [polled_cons]
                rintro (h3 | h3)
                · simp at h3; subst h3; rw [haw] at a; cases a
                · exact b h3
              · exact .inr ⟨a, (polled_cons _ _ _).2 (.inr b)⟩
            · intro j
              rw [evaluations_cons, hl.evals]
              simp
            · intro j
              rw [drops_cons, hl.drops]
              simp
            · intro j r' hp
              simp only [hph] at hp
              cases hp
              exact haw
            · intro j hj
              exact .inr (hwait _ j hj)
        · have h1 : reactAll ({ s with comb := c } : Sel W) [Effect.retPending (S := Empty) (O := Nat × V) (W := W)] =
              (({ s with comb := c } : Sel W), [SEffect.pending]) := rfl
          rw [h1] at hs1 hs2
          subst hs1 hs2
          refine ⟨⟨fun _ => ⟨_, hrun, congrArg _ hl.eq, hact, hl.len, ?_, ?_, ?_, ?_, ?_⟩, fun h => by rw [ho] at h; cases h⟩,
            .inr ⟨rfl, .quiet (by simp) he he2 he3 rfl (fun _ j hj => ?_)⟩⟩
          · intro j hj
            rcases hl.fresh j hj with ⟨a, b⟩ | ⟨a, b⟩
            · refine .inl ⟨a, ?_⟩
              rw [polled_cons]
              rintro (h3 | h3)
              · simp at h3
              · exact b h3
            · exact .inr ⟨a, (polled_cons _ _ _).2 (.inr b)⟩
          · intro j
            rw [evaluations_cons, hl.evals]
            simp
          · intro j
            rw [drops_cons, hl.drops]
            simp
          · intro j r' hp
            simp only [hph] at hp
            cases hp
          · intro j hj
            exact .inr (hwait _ j hj)
          · have hpj : Polled ((e.toRace, [.retPending]) :: rtr) j := by
              have hsus : Suspended ((e.toRace, [Effect.retPending]) :: rtr) := by
                rcases hev with ⟨w, h1, -⟩ | ⟨k, rest, h1, -⟩ <;> rw [h1] <;> simp [Suspended]
              by_cases hb : Polled (before ((e.toRace, [Effect.retPending]) :: rtr)) j
              · exact polled_before hb
              · have hfn : ¬ Finished (before ((e.toRace, [Effect.retPending]) :: rtr)) j := by
                  intro hf
                  obtain ⟨c0, h0, -⟩ := run_before hrun (suspended_polled _ n _ _ hrun hsus)
                  exact hb (finished_polled h0 (active_before hact) hn hf)
                obtain ⟨x, hx, hm⟩ := woken_is_polled _ n _ _ hrun hact hsus j hj hfn (.inr hb)
                exact ⟨x, mem_of_mem_current _ x hx, hm⟩
            rcases hl.fresh j hj with ⟨-, b⟩ | ⟨a, -⟩
            · rw [polled_cons] at hpj
              rcases hpj with h3 | h3
              · simp at h3
              · exact absurd h3 b
            · exact hwait _ j a
      · -- a branch finishes
        cases e with
        | fut q r =>
          cases r with
          | ready v' =>
            cases hev
            have hout : out = .dropped i :: (holding (s.branches.set i .gone) 0).map .dropped ++ [.arm i v'] := by
              have : out = ([.dropped i] ++ (((holding (s.branches.set i .gone) 0).map .dropped ++ [.arm i v']) ++ [])) ++ [] :=
                hs2.symm
              simpa using this
            have hov : s'.over = true := by rw [← hs1]; rfl
            clear hs1 hs2
            subst hout
            have haw := hl.cur i rest hph
            refine ⟨⟨fun h => (by rw [hov] at h; cases h), fun _ => ?_⟩, .inr ⟨rfl, .done haw hov⟩⟩
            · have hcount : ∀ j, evaluations j ((SEvent.fut i (.ready v'), .dropped i :: (holding (s.branches.set i .gone) 0).map .dropped ++ [.arm i v']) :: tr) =
                    if s.branches[j]? = some .awaiting then 1 else 0 := by
                intro j
                rw [evaluations_cons, hl.evals]
                have : ∀ l : List Nat, (l.map (SEffect.dropped (V := V) (W := W))).count (.evaluated j) = 0 := by
                  intro l
                  exact List.count_eq_zero.2 (by simp)
                simp [List.count_append, this]
              have hcd : ∀ j, Comb.drops j ((SEvent.fut i (.ready v'), .dropped i :: (holding (s.branches.set i .gone) 0).map .dropped ++ [.arm i v']) :: tr) =
                    if s.branches[j]? = some .awaiting then 1 else 0 := by
                intro j
                rw [drops_cons, hl.drops]
                simp only [List.cons_append, List.count_append, List.count_cons, List.count_nil, dropped_count,
                  List.getElem?_set]
                by_cases h : i = j
                · subst h
                  rw [if_pos haw]
                  simp [(List.getElem?_eq_some_iff.1 haw).1]
                · simp [h]
              refine ⟨fun j => ?_, fun _ j => ?_⟩
              · refine ⟨Nat.le_of_eq ((hcd j).trans (hcount j).symm), ?_⟩
                refine Nat.le_trans (Nat.le_of_eq (hcount j)) ?_
                split <;> omega
              · exact (hcd j).trans (hcount j).symm
          | _ => cases hev
        | _ => cases hev
      · cases e with
        | fut k r =>
          cases r with
          | panics =>
            cases hev
            subst hs1 hs2
            refine ⟨⟨fun h => (by cases h), fun _ => ⟨fun j => ?_, fun hp => ?_⟩⟩, .inr ⟨rfl, .panic rfl⟩⟩
            · rw [drops_cons, evaluations_cons, hl.drops, hl.evals]
              simp [reactAll, react, awaitEnds, raceEnds]
              split <;> omega
            · exact absurd ⟨_, .head _, by simp [reactAll, react, awaitEnds, raceEnds]⟩ hp
          | _ => cases hev
        | _ => cases hev
      · cases e with
        | wake k =>
          cases hev
          have h2 : s' = { s with comb := c } ∧ (out = [] ∨ ∃ w, out = [SEffect.taskWoken w]) := by
            rcases hout with rfl | ⟨w, rfl⟩
            · exact ⟨hs1.symm, .inl hs2.symm⟩
            · exact ⟨hs1.symm, .inr ⟨w, hs2.symm⟩⟩
          obtain ⟨rfl, ho2⟩ := h2
          have hnp : .pending ∈ out → ∀ j, j < n → Waits ((SEvent.wake i, out) :: tr) j := by
            intro h
            rcases ho2 with rfl | ⟨w, rfl⟩ <;> simp at h
          have heq2 : raceTrace ((SEvent.wake i, out) :: tr) = (SEvent.toRace (V := V) (W := W) (.wake i), rout) :: rtr := by
            rcases hout with rfl | ⟨w, rfl⟩
            · subst hs2; exact congrArg _ hl.eq
            · subst hs2; exact congrArg _ hl.eq
          refine ⟨⟨fun _ => ⟨_, hrun, heq2, ?_, hl.len, ?_, ?_, ?_, ?_, ?_⟩, fun h => by rw [ho] at h; cases h⟩,
            .inr ⟨rfl, .quiet ?_ (by simp) (by simp) (by simp) rfl hnp⟩⟩
          · refine (active_cons _ _).2 ⟨⟨by simp [SEvent.toRace], ?_, ?_⟩, hl.act⟩
            · rcases hout with rfl | ⟨w, rfl⟩ <;> simp
            · rcases hout with rfl | ⟨w, rfl⟩ <;> simp
          · intro j hj
            rcases hl.fresh j hj with ⟨a, b⟩ | ⟨a, b⟩
            · refine .inl ⟨a, ?_⟩
              rw [polled_cons]
              rintro (h3 | h3)
              · rcases hout with rfl | ⟨w, rfl⟩ <;> simp at h3
              · exact b h3
            · exact .inr ⟨a, (polled_cons _ _ _).2 (.inr b)⟩
          · intro j
            rw [evaluations_cons, hl.evals]
            rcases ho2 with rfl | ⟨w, rfl⟩ <;> simp
          · intro j
            rw [drops_cons, hl.drops]
            rcases ho2 with rfl | ⟨w, rfl⟩ <;> simp
          · intro j r' hp
            simp only [hph] at hp
            exact hl.cur j r' hp
          · intro j hj
            rcases hl.wait j hj with ⟨r', h1⟩ | ⟨x, hx, h1⟩
            · exact .inl ⟨r', by simp only [hph]; exact h1⟩
            · exact .inr ⟨x, .tail _ hx, h1⟩
          · rcases ho2 with rfl | ⟨w, rfl⟩ <;> simp
        | fut k r => cases r <;> cases hev
        | _ => cases hev
      · cases e with
        | drop =>
          subst hs1 hs2
          refine ⟨⟨fun h => (by cases h), fun _ => ?_⟩, .inr ⟨rfl, ?_⟩⟩
          · have hcount : ∀ j, ((holding s.branches 0).map (SEffect.dropped (V := V) (W := W))).count (.evaluated j) = 0 := by
              intro j
              exact List.count_eq_zero.2 (by simp)
            refine ⟨fun j => ?_, fun _ j => ?_⟩
            · rw [drops_cons, evaluations_cons, hl.drops, hl.evals]
              simp only [awaitEnds, raceEnds, reactAll, dropAll, List.nil_append, dropped_count, hcount]
              split <;> omega
            · rw [drops_cons, evaluations_cons, hl.drops, hl.evals]
              simp only [awaitEnds, raceEnds, reactAll, dropAll, List.nil_append, dropped_count, hcount]
              split <;> omega
          · exact .drop rfl
        | fut k r => cases r <;> cases hev
        | _ => cases hev

theorem sel_run {dbg : Bool} {n : Nat} (hn : 0 < n) {tr : STrace V W} {s : Sel W} (h : SRun dbg n tr s) :
    SInv dbg n tr s := by
  induction h with
  | nil =>
    refine ⟨fun _ => ⟨[], .nil, rfl, by simp [Active], by simp [selNew], ?_, ?_, ?_, ?_, ?_⟩, fun h => by cases h⟩
    · intro i hi
      refine .inl ⟨by simp [selNew, hi], ?_⟩
      rintro ⟨e, he, -⟩; cases he
    · intro i
      have : ¬ (List.replicate n Branch.fresh)[i]? = some .awaiting := by
        intro h
        rw [List.getElem?_replicate] at h
        split at h <;> cases h
      exact (if_neg this).symm
    · intro i; rfl
    · intro i rest h; cases h
    · intro i h
      simp only [selNew] at h
      rw [List.getElem?_replicate] at h
      split at h <;> cases h
  | cons _ hs ih => exact (sel_step hn ih hs).1

theorem sel_form {dbg : Bool} {n : Nat} (hn : 0 < n) {tr : STrace V W} {s : Sel W} {e : SEvent V W}
    {out : List (SEffect V W)} (h : SRun dbg n ((e, out) :: tr) s) : ∃ s0, SInv dbg n tr s0 ∧ SInv dbg n ((e, out) :: tr) s ∧
      ((s0.over = true ∧ out = [] ∧ ∃ i, e = .wake i) ∨ (s0.over = false ∧ SForm dbg n tr s0 e s out)) := by
  cases h with
  | cons hr hs =>
    have hi := sel_run hn hr
    exact ⟨_, hi, sel_step hn hi hs⟩

/-! ### C54 -/

/-- As soon as the future of a branch finishes, the expression of that branch is evaluated, with its output; before
that some futures are dropped, and nothing else happens. -/
theorem select_first_wins {dbg : Bool} {n : Nat} (hn : 0 < n) {tr : STrace V W} {s : Sel W} {i : Nat} {v : V}
    {out : List (SEffect V W)} (h : SRun dbg n ((.fut i (.ready v), out) :: tr) s) :
    ∃ ds : List Nat, out = ds.map .dropped ++ [.arm i v] := by
  obtain ⟨s0, -, -, ⟨-, -, j, hj⟩ | ⟨-, hf⟩⟩ := sel_form hn h
  · cases hj
  · cases hf with
    | quiet _ _ h2 => exact absurd rfl (h2 i v)
    | first _ _ _ h2 => exact absurd rfl (h2 i v)
    | again _ _ _ h2 => exact absurd rfl (h2 i v)
    | done => exact ⟨i :: _, rfl⟩

/-- The expression of a branch is evaluated only for that reason. -/
theorem select_arm_only {dbg : Bool} {n : Nat} (hn : 0 < n) {tr : STrace V W} {s : Sel W} {e : SEvent V W} {i : Nat} {v : V}
    {out : List (SEffect V W)} (h : SRun dbg n ((e, out) :: tr) s) (ho : .arm i v ∈ out) : e = .fut i (.ready v) := by
  obtain ⟨s0, -, -, ⟨-, rfl, -⟩ | ⟨-, hf⟩⟩ := sel_form hn h
  · cases ho
  · cases hf with
    | quiet h1 => rcases h1 _ ho with h | ⟨w, h⟩ <;> cases h
    | first => simp at ho
    | again => simp at ho
    | done => simp at ho; obtain ⟨rfl, rfl⟩ := ho; rfl
    | panic => simp at ho
    | drop => simp at ho

/-- Every future expression is evaluated at most once, and what it evaluated to is dropped at most once. When the
expression of a branch is evaluated, all of them have been dropped; likewise when the whole is dropped. -/
theorem select_drops {dbg : Bool} {n : Nat} (hn : 0 < n) {tr : STrace V W} {s : Sel W} (h : SRun dbg n tr s) (j : Nat) :
    drops j tr ≤ evaluations j tr ∧ evaluations j tr ≤ 1 ∧
      (((∃ e ∈ tr, ∃ i v, .arm i v ∈ e.2) ∨ ∃ e ∈ tr, e.1 = .drop) → drops j tr = evaluations j tr) := by
  have hi := sel_run hn h
  have key : (((∃ e ∈ tr, ∃ i v, .arm i v ∈ e.2) ∨ ∃ e ∈ tr, e.1 = .drop) → s.over = true ∧ ¬ Panicked tr) := by
    clear hi
    have hov : ∀ (tr : STrace V W) (s : Sel W), SRun dbg n tr s →
        ((Panicked tr ∨ (∃ e ∈ tr, ∃ i v, .arm i v ∈ e.2) ∨ ∃ e ∈ tr, e.1 = .drop) → s.over = true) ∧
        (((∃ e ∈ tr, ∃ i v, .arm i v ∈ e.2) ∨ ∃ e ∈ tr, e.1 = .drop) → ¬ Panicked tr) := by
      intro tr s h
      induction h with
      | nil =>
        refine ⟨?_, ?_⟩
        · rintro (⟨e, he, -⟩ | ⟨e, he, -⟩ | ⟨e, he, -⟩) <;> cases he
        · rintro (⟨e, he, -⟩ | ⟨e, he, -⟩) <;> cases he
      | @cons tr s e s' out hr hs ih =>
        have hform := (sel_step hn (sel_run hn hr) hs).2
        have hov' : s.over = true → s' = s := by
          intro ho
          simp only [selStep, ho, if_true] at hs
          split at hs
          · split at hs
            · cases hs; rfl
            · cases hs
          · cases hs
        have harm : ∀ i v, .arm i v ∈ out → s.over = false ∧ s'.over = true ∧ .panicked ∉ out := by
          intro i v hm
          rcases hform with ⟨-, rfl, -⟩ | ⟨h0, hf⟩
          · cases hm
          · cases hf with
            | quiet h1 => rcases h1 _ hm with h | ⟨w, h⟩ <;> cases h
            | first => simp at hm
            | again => simp at hm
            | done _ ho => exact ⟨h0, ho, by simp⟩
            | panic => simp at hm
            | drop => simp at hm
        have hdrop : e = .drop → s.over = false ∧ s'.over = true ∧ .panicked ∉ out := by
          rintro rfl
          rcases hform with ⟨-, -, i, hw⟩ | ⟨h0, hf⟩
          · cases hw
          · cases hf with
            | quiet _ h => exact absurd rfl h
            | first _ _ h => exact absurd rfl h
            | again _ _ h => exact absurd rfl h
            | drop ho => exact ⟨h0, ho, by simp⟩
        have hpan : .panicked ∈ out → s.over = false ∧ s'.over = true ∧ (∀ i v, .arm i v ∉ out) ∧ e ≠ .drop := by
          intro hm
          rcases hform with ⟨-, rfl, -⟩ | ⟨h0, hf⟩
          · cases hm
          · cases hf with
            | quiet h1 => rcases h1 _ hm with h | ⟨w, h⟩ <;> cases h
            | first => simp at hm
            | again => simp at hm
            | done _ ho => simp at hm
            | panic ho => exact ⟨h0, ho, by simp, by simp⟩
            | drop => simp at hm
        refine ⟨?_, ?_⟩
        · rintro (⟨x, hx, h1⟩ | ⟨x, hx, i, v, h1⟩ | ⟨x, hx, h1⟩)
          · rcases List.mem_cons.1 hx with rfl | hx
            · exact (hpan h1).2.1
            · have := ih.1 (.inl ⟨x, hx, h1⟩); rw [hov' this]; exact this
          · rcases List.mem_cons.1 hx with rfl | hx
            · exact (harm i v h1).2.1
            · have := ih.1 (.inr (.inl ⟨x, hx, i, v, h1⟩)); rw [hov' this]; exact this
          · rcases List.mem_cons.1 hx with rfl | hx
            · exact (hdrop h1).2.1
            · have := ih.1 (.inr (.inr ⟨x, hx, h1⟩)); rw [hov' this]; exact this
        · intro hd ⟨y, hy, hp⟩
          have hd' : s.over = true → (∀ i v, .arm i v ∉ out) ∧ e ≠ .drop ∧ .panicked ∉ out := by
            intro h0
            refine ⟨fun i v hm => ?_, fun hm => ?_, fun hm => ?_⟩
            · rw [(harm i v hm).1] at h0; cases h0
            · rw [(hdrop hm).1] at h0; cases h0
            · rw [(hpan hm).1] at h0; cases h0
          rcases List.mem_cons.1 hy with rfl | hy
          · obtain ⟨h0, -, h2, h3⟩ := hpan hp
            rcases hd with ⟨x, hx, i, v, h1⟩ | ⟨x, hx, h1⟩
            · rcases List.mem_cons.1 hx with rfl | hx
              · exact h2 i v h1
              · rw [ih.1 (.inr (.inl ⟨x, hx, i, v, h1⟩))] at h0; cases h0
            · rcases List.mem_cons.1 hx with rfl | hx
              · exact h3 h1
              · rw [ih.1 (.inr (.inr ⟨x, hx, h1⟩))] at h0; cases h0
          · obtain ⟨h2, h3, -⟩ := hd' (ih.1 (.inl ⟨y, hy, hp⟩))
            rcases hd with ⟨x, hx, i, v, h1⟩ | ⟨x, hx, h1⟩
            · rcases List.mem_cons.1 hx with rfl | hx
              · exact h2 i v h1
              · exact ih.2 (.inl ⟨x, hx, i, v, h1⟩) ⟨y, hy, hp⟩
            · rcases List.mem_cons.1 hx with rfl | hx
              · exact h3 h1
              · exact ih.2 (.inr ⟨x, hx, h1⟩) ⟨y, hy, hp⟩
    intro hd
    obtain ⟨h1, h2⟩ := hov tr s h
    exact ⟨h1 (.inr hd), h2 hd⟩
  cases ho : s.over with
  | true =>
    obtain ⟨h1, h2⟩ := hi.2 ho
    exact ⟨(h1 j).1, (h1 j).2, fun hd => h2 (key hd).2 j⟩
  | false =>
    obtain ⟨rtr, hl⟩ := hi.1 ho
    refine ⟨?_, ?_, fun hd => ?_⟩
    · rw [hl.drops]; omega
    · rw [hl.evals]; split <;> omega
    · rw [ho] at key; cases (key hd).1

/-- The future of a branch is polled only between its evaluation and its end. -/
theorem select_polls {dbg : Bool} {n : Nat} (hn : 0 < n) {tr : STrace V W} {s : Sel W} {e : SEvent V W} {i : Nat}
    {out : List (SEffect V W)} (h : SRun dbg n ((e, out) :: tr) s) (ho : .polled i ∈ out) :
    evaluations i ((e, out) :: tr) = 1 ∧ drops i ((e, out) :: tr) = 0 := by
  obtain ⟨s0, hi0, hi, ⟨-, rfl, -⟩ | ⟨h0, hf⟩⟩ := sel_form hn h
  · cases ho
  · obtain ⟨rtr, hl⟩ := hi0.1 h0
    cases hf with
    | quiet h1 => rcases h1 _ ho with h | ⟨w, h⟩ <;> cases h
    | first hfr =>
      simp at ho
      subst ho
      rw [evaluations_cons, drops_cons, hl.evals, hl.drops, hfr]
      simp
    | again haw =>
      simp at ho
      subst ho
      rw [evaluations_cons, drops_cons, hl.evals, hl.drops, haw]
      simp
    | done => simp at ho
    | panic => simp at ho
    | drop => simp at ho

/-- The future expression of a branch is evaluated only after the futures of all branches before it have been polled
and were pending. -/
theorem select_in_order {dbg : Bool} {n : Nat} (hn : 0 < n) {tr : STrace V W} {s : Sel W} {e : SEvent V W} {i : Nat}
    {out : List (SEffect V W)} (h : SRun dbg n ((e, out) :: tr) s) (ho : .evaluated i ∈ out) {j : Nat} (hj : j < i) :
    ∃ x ∈ (e, out) :: tr, x.1 = .fut j .pending := by
  obtain ⟨s0, hi0, hi, ⟨-, rfl, -⟩ | ⟨h0, hf⟩⟩ := sel_form hn h
  · cases ho
  · cases hf with
    | quiet h1 => rcases h1 _ ho with h | ⟨w, h⟩ <;> cases h
    | first _ h1 => simp at ho; subst ho; exact h1 j hj
    | again => simp at ho
    | done => simp at ho
    | panic => simp at ho
    | drop => simp at ho

/-- `select!` is pending only if the futures of all branches have been polled and were pending. -/
theorem select_pending {dbg : Bool} {n : Nat} (hn : 0 < n) {tr : STrace V W} {s : Sel W} {e : SEvent V W}
    {out : List (SEffect V W)} (h : SRun dbg n ((e, out) :: tr) s) (ho : .pending ∈ out) {i : Nat} (hi : i < n) :
    ∃ x ∈ (e, out) :: tr, x.1 = .fut i .pending := by
  obtain ⟨s0, hi0, hi, ⟨-, rfl, -⟩ | ⟨h0, hf⟩⟩ := sel_form hn h
  · cases ho
  · cases hf with
    | quiet _ _ _ _ _ hp => exact hp ho i ‹_›
    | first => simp at ho
    | again => simp at ho
    | done => simp at ho
    | panic => simp at ho
    | drop => simp at ho

omit [DecidableEq V] [DecidableEq W] in
theorem active_not_finished {dbg : Bool} {n : Nat} {tr : List (Entry V Empty V W)}
    {c : Comb (raceCfg .tuple dbg V).kind.impl.σ Empty W} (h : Run (raceCfg .tuple dbg V) n tr c) (ha : Active tr) (i : Nat) : ¬ Finished tr i := by
  induction h with
  | nil => rintro ⟨v, x, hx, -⟩; cases hx
  | @cons tr c e c' out hr hs ih =>
    rintro ⟨v, x, hx, h1⟩
    rcases List.mem_cons.1 hx with rfl | hx
    · cases h1
      have := race_first_wins .tuple dbg n tr i v out c' (.cons hr hs)
      subst this
      exact (((active_cons _ _).1 ha).1.2.2 v []) (by simp)
    · exact ih ((active_cons _ _).1 ha).2 ⟨v, x, hx, h1⟩

theorem over_not_suspended {dbg : Bool} {n : Nat} (hn : 0 < n) {tr : STrace V W} {s : Sel W} (h : SRun dbg n tr s)
    (ho : s.over = true) : ¬ Suspended (raceTrace tr) := by
  induction h with
  | nil => cases ho
  | @cons tr s e s' out hr hs ih =>
    rcases (sel_step hn (sel_run hn hr) hs).2 with ⟨h0, rfl, i, rfl⟩ | ⟨h0, hf⟩
    · exact ih h0
    · cases hf with
      | quiet _ _ _ _ h1 => rw [h1, h0] at ho; cases ho
      | first _ _ _ _ _ h1 => rw [h1] at ho; cases ho
      | again _ h1 => rw [h1] at ho; cases ho
      | done =>
        simp [raceTrace, Suspended, SEvent.toRace, SEffect.toRace]
      | panic => simp [raceTrace, Suspended, SEvent.toRace, SEffect.toRace]
      | drop => simp [raceTrace, Suspended, SEvent.toRace, SEffect.toRace]

/-- While `select!` is pending, a future that was woken since it was last polled has made it wake the task waker of
its latest poll. (The predicates are those of C12.) -/
theorem select_wakes {dbg : Bool} {n : Nat} (hn : 0 < n) {tr : STrace V W} {s : Sel W} (h : SRun dbg n tr s)
    (hp : Suspended (raceTrace tr)) {i : Nat} (hi : i < n) (hw : WokenSincePolled i (raceTrace tr)) :
    TaskWoken (raceTrace tr) := by
  cases ho : s.over with
  | false =>
    obtain ⟨rtr, hl⟩ := (sel_run hn h).1 ho
    rw [hl.eq] at hp hw ⊢
    exact wake_reaches_task _ n _ _ hl.run hl.act hp i hi (active_not_finished hl.run hl.act i) hw
  | true => exact absurd hp (over_not_suspended hn h ho)

/-- `select!` panics only if one of the futures does. -/
theorem select_no_panic {dbg : Bool} {n : Nat} (hn : 0 < n) {tr : STrace V W} {s : Sel W} {e : SEvent V W}
    {out : List (SEffect V W)} (h : SRun dbg n ((e, out) :: tr) s) (ho : .panicked ∈ out) : ∃ i, e = .fut i .panics := by
  obtain ⟨s0, -, -, ⟨-, rfl, -⟩ | ⟨-, hf⟩⟩ := sel_form hn h
  · cases ho
  · cases hf with
    | quiet h1 => rcases h1 _ ho with h | ⟨w, h⟩ <;> cases h
    | first => simp at ho
    | again => simp at ho
    | done => simp at ho
    | panic => exact ⟨_, rfl⟩
    | drop => simp at ho

end

/-- Two branches, pending; the second is woken. -/
example : ∃ s tr, SRun (V := Nat) (W := Nat) true 2 tr s ∧ Suspended (raceTrace tr) ∧ WokenSincePolled 1 (raceTrace tr) ∧
    tr = [(.wake 1, [.taskWoken (some 8)]), (.fut 1 .pending, [.pending]), (.fut 0 .pending, [.evaluated 1, .polled 1]),
      (.poll 8, [.evaluated 0, .polled 0])] :=
  ⟨_, _, .cons (.cons (.cons (.cons .nil rfl) rfl) rfl) rfl, by decide, by decide, rfl⟩

/-- Dropped while pending. -/
example : ∃ s, SRun (V := Nat) (W := Nat) true 2
    [(.drop, [.dropped 0, .dropped 1]), (.fut 1 .pending, [.pending]), (.fut 0 .pending, [.evaluated 1, .polled 1]),
      (.poll 8, [.evaluated 0, .polled 0])] s :=
  ⟨_, .cons (.cons (.cons (.cons .nil rfl) rfl) rfl) rfl⟩

/-- Three branches. The second one is woken and finishes; the others are dropped before its expression is
evaluated. -/
example : ∃ s tr, SRun (V := Nat) (W := Nat) true 3
    ((.fut 1 (.ready 7), [.dropped 1, .dropped 0, .dropped 2, .arm 1 7]) :: tr) s ∧
    tr = [(.poll 9, [.polled 1]), (.wake 1, [.taskWoken (some 8)]), (.fut 2 .pending, [.pending]),
      (.fut 1 .pending, [.evaluated 2, .polled 2]), (.fut 0 .pending, [.evaluated 1, .polled 1]),
      (.poll 8, [.evaluated 0, .polled 0])] :=
  ⟨_, _, .cons (.cons (.cons (.cons (.cons (.cons (.cons .nil rfl) rfl) rfl) rfl) rfl) rfl) rfl, rfl⟩

/-- The first branch finishes at once: the expressions of the others are never evaluated. -/
example : ∃ s, SRun (V := Nat) (W := Nat) true 2
    [(.fut 0 (.ready 7), [.dropped 0, .arm 0 7]), (.poll 8, [.evaluated 0, .polled 0])] s :=
  ⟨_, .cons (.cons .nil rfl) rfl⟩

end Verif.Comb
