import Verif.Comb.Results
import Verif.Comb.Runs
/-!
# Property theorems for C12 to C18

All of them quantify over the implementation (array, vector, tuple), debug assertions on or off,
the behaviour or one of the four behaviours, the number `n` of subfutures, and every trace: every
interleaving of polls, wake-ups and returns of subfutures. Traces are newest entry first.
-/
namespace Verif.Comb
variable {V S O W : Type}

def joinCfg (k : Kind) (dbg : Bool) (V : Type) : Cfg V V (List V) := ⟨k, dbg, joinB V⟩
def raceCfg (k : Kind) (dbg : Bool) (V : Type) : Cfg V Empty V := ⟨k, dbg, raceB V⟩
def tryJoinCfg (k : Kind) (dbg : Bool) (E T : Type) : Cfg (Except E T) T (Except E (List T)) :=
  ⟨k, dbg, tryJoinB E T⟩
def raceOkCfg (k : Kind) (dbg : Bool) (E T : Type) : Cfg (Except E T) E (Except (List E) T) :=
  ⟨k, dbg, raceOkB E T⟩

theorem nodup_of_inv {g : Cfg V S O} {n : Nat} {tr : List (Entry V S O W)} {c : Comb g.kind.impl.σ S W}
    (h : Inv g n tr c) : (pollsOf (current tr)).Nodup := by
  have := h.once
  rw [List.nodup_append] at this
  exact List.pairwise_reverse.1 (this.1.imp (fun hab => hab.symm))

theorem run_cons_inv {g : Cfg V S O} {n : Nat} {e : Event V W} {out : List (Effect S O W)}
    {tr : List (Entry V S O W)} {c : Comb g.kind.impl.σ S W} (h : Run g n ((e, out) :: tr) c) :
    ∃ c0, Run g n tr c0 ∧ step g c0 e = some (c, out) := by
  cases h with
  | cons hr hs => exact ⟨_, hr, hs⟩

/-! ### C12: no wake-up is lost -/

/-- While the combinator is suspended, a subfuture that was woken since it was last polled has made
the combinator wake the task waker of its latest poll, since that poll began. -/
theorem wake_reaches_task (g : Cfg V S O) (n : Nat) (tr : List (Entry V S O W))
    (c : Comb g.kind.impl.σ S W) (h : Run g n tr c) (ha : Active tr) (hs : Suspended tr)
    (i : Nat) (hi : i < n) (hf : ¬ Finished tr i) (hw : WokenSincePolled i tr) : TaskWoken tr := by
  have inv := run_inv g n (by omega) tr c h ha
  have hidle := suspended_idle g n tr c h hs
  have hl := suspended_polled g n tr c h hs
  apply inv.woken _ hl
  intro he
  rcases inv.need i hi hf (.inl hw) with hm | hm
  · rw [he] at hm; cases hm
  · rw [hidle] at hm; cases hm

example : ∃ tr c, Run (W := Nat) (joinCfg .array true Nat) 2 tr c ∧ Active tr ∧ Suspended tr ∧
    ¬ Finished tr 0 ∧ WokenSincePolled 0 tr := by
  obtain ⟨c, h⟩ := run_of_trace (W := Nat) (joinCfg .array true Nat) 2
    [.poll 0, .sub 0 .pending, .wake 0, .sub 1 (.ready 7)] _ rfl
  exact ⟨_, c, h, active_of_isActive (by decide), by decide, by decide, by decide⟩

/-- A poll that ended with `Pending` has polled every unfinished subfuture that, when the poll
began, had been woken since it was last polled or had never been polled. -/
theorem woken_is_polled (g : Cfg V S O) (n : Nat) (tr : List (Entry V S O W))
    (c : Comb g.kind.impl.σ S W) (h : Run g n tr c) (ha : Active tr) (hs : Suspended tr)
    (i : Nat) (hi : i < n) (hf : ¬ Finished (before tr) i)
    (hw : WokenSincePolled i (before tr) ∨ ¬ Polled (before tr) i) : Polled (current tr) i := by
  have inv := run_inv g n (by omega) tr c h ha
  have hidle := suspended_idle g n tr c h hs
  rcases inv.cover (suspended_polled g n tr c h hs) i hi hf hw with hm | hm
  · rw [hidle] at hm; cases hm
  · exact hm

example : ∃ tr c, Run (W := Nat) (joinCfg .vec false Nat) 2 tr c ∧ Active tr ∧ Suspended tr ∧
    ¬ Finished (before tr) 1 ∧ WokenSincePolled 1 (before tr) := by
  obtain ⟨c, h⟩ := run_of_trace (W := Nat) (joinCfg .vec false Nat) 2
    [.poll 0, .sub 0 .pending, .sub 1 .pending, .wake 1, .poll 1, .wake 1, .sub 1 .pending] _ rfl
  exact ⟨_, c, h, active_of_isActive (by decide), by decide, by decide, by decide⟩

/-! ### C13: only what needs polling is polled -/

theorem active_of_subPoll (g : Cfg V S O) (n : Nat) (tr : List (Entry V S O W))
    (c c' : Comb g.kind.impl.σ S W) (e : Event V W) (out : List (Effect S O W)) (h : Run g n tr c)
    (hs : step g c e = some (c', out)) (ha : Active tr) (i : Nat) (hi : .subPoll i ∈ out) :
    Active ((e, out) :: tr) ∧ out = [.subPoll i] := by
  obtain ⟨h1, h2, -⟩ := step_subPoll g c c' e out (run_good g n tr c h).1 hs i hi
  refine ⟨(active_cons _ _).2 ⟨⟨h2, ?_, ?_⟩, ha⟩, h1⟩
  · rw [h1]; simp
  · rw [h1]; simp

/-- Within one poll, the last one included, no subfuture is polled twice. -/
theorem once_per_poll (g : Cfg V S O) (n : Nat) (tr : List (Entry V S O W)) (e : Event V W)
    (out : List (Effect S O W)) (c : Comb g.kind.impl.σ S W) (h : Run g n ((e, out) :: tr) c)
    (ha : Active tr) : (pollsOf (current ((e, out) :: tr))).Nodup := by
  by_cases hn : 0 < n
  · cases h with
    | @cons _ c0 _ _ _ hr hs =>
      by_cases hsub : ∃ i, Effect.subPoll i ∈ out
      · obtain ⟨i, hi⟩ := hsub
        have ha' := (active_of_subPoll g n tr c0 c e out hr hs ha i hi).1
        exact nodup_of_inv (run_inv g n hn _ c (Run.cons hr hs) ha')
      · have hp : pollsIn out = [] := by
          rw [pollsIn, List.filterMap_eq_nil_iff]
          intro x hx
          cases x with
          | subPoll i => exact absurd ⟨i, hx⟩ hsub
          | _ => rfl
        have hold := nodup_of_inv (run_inv g n hn tr c0 hr ha)
        cases e <;> (simp only [current]; rw [pollsOf_cons]; simp only [hp, List.nil_append])
        · exact List.nodup_nil
        all_goals exact hold
  · rw [show pollsOf (current ((e, out) :: tr)) = [] from ?_]
    · exact List.nodup_nil
    · cases hpo : pollsOf (current ((e, out) :: tr)) with
      | nil => rfl
      | cons k l =>
        obtain ⟨x, hx, hm⟩ := (mem_pollsOf _ k).1 (by rw [hpo]; simp)
        have := run_polled_lt g n _ c h k ⟨x, mem_of_mem_current _ x hx, hm⟩
        omega

example : ∃ tr e out c, Run (W := Nat) (raceCfg .tuple true Nat) 3 ((e, out) :: tr) c ∧ Active tr ∧
    pollsOf (current ((e, out) :: tr)) = [1, 0] := by
  obtain ⟨c, h⟩ := run_of_trace (W := Nat) (raceCfg .tuple true Nat) 3
    [.poll 0, .wake 0, .sub 0 .pending, .sub 1 (.ready 7)] _ rfl
  exact ⟨_, _, _, c, h, active_of_isActive (by decide), by decide⟩

/-- A subfuture is polled only if it has not finished, and only in the first poll of the combinator
or if one of its wakers was woken between the beginning of the previous poll and the beginning of
this one. Missing from the full claim: "woken since it was last polled"; see `spurious_poll`. -/
theorem poll_justified_partial (g : Cfg V S O) (n : Nat) (tr : List (Entry V S O W)) (e : Event V W)
    (out : List (Effect S O W)) (c : Comb g.kind.impl.σ S W) (h : Run g n ((e, out) :: tr) c)
    (ha : Active tr) (i : Nat) (hi : .subPoll i ∈ out) :
    ¬ Finished ((e, out) :: tr) i ∧
      (lastWaker (before ((e, out) :: tr)) = none ∨ Woken (current (before ((e, out) :: tr))) i) := by
  have hlt := run_polled_lt g n _ c h i ((polled_cons _ _ _).2 (.inl hi))
  have h0 := h
  cases h with
  | @cons _ c0 _ _ _ hr hs =>
    obtain ⟨ha', ho⟩ := active_of_subPoll g n tr c0 c e out hr hs ha i hi
    have inv := run_inv g n (by omega) _ c h0 ha'
    have hun := (step_subPoll g c0 c e out (run_good g n tr c0 hr).1 hs i hi).2.2.2
    refine ⟨fun hf => ?_, ?_⟩
    · rw [(inv.fin i hlt).2 hf] at hun; cases hun
    · apply inv.justPolled
      refine ⟨(e, out), ?_, hi⟩
      cases e <;> simp [current]

/-- The full claim is false: a waker that is woken during a poll, before its subfuture's turn in
that poll, makes the next poll poll the subfuture again although nothing has woken it since. -/
theorem spurious_poll (k : Kind) (dbg : Bool) : ∃ tr e out c,
    Run (W := Nat) (joinCfg k dbg Nat) 2 ((e, out) :: tr) c ∧ Active tr ∧ Suspended tr ∧
      .subPoll 1 ∈ out ∧ Polled tr 1 ∧ ¬ WokenSincePolled 1 tr := by
  have key : ∀ k dbg, ∃ tr, traceOf (W := Nat) (joinCfg k dbg Nat) 2
      [.poll 0, .wake 1, .sub 0 .pending, .sub 1 .pending, .poll 0] = some tr ∧
      ∃ e out tr', tr = (e, out) :: tr' ∧ Active tr' ∧ Suspended tr' ∧
      .subPoll 1 ∈ out ∧ Polled tr' 1 ∧ ¬ WokenSincePolled 1 tr' := by
    intro k dbg
    cases k <;> cases dbg <;>
      exact ⟨_, rfl, _, _, _, rfl, active_of_isActive (by decide), by decide, by decide, by decide, by decide⟩
  obtain ⟨tr, h, e, out, tr', rfl, h'⟩ := key k dbg
  obtain ⟨c, hr⟩ := run_of_trace _ _ _ _ h
  exact ⟨tr', e, out, c, hr, h'⟩

/-- During the first poll the subfutures polled so far are `0, 1, 2, ...` in this order; if the
poll ends with `Pending` they are all of them. -/
theorem first_poll_in_order (g : Cfg V S O) (n : Nat) (tr : List (Entry V S O W))
    (c : Comb g.kind.impl.σ S W) (h : Run g n tr c) (ha : Active tr) (h1 : lastWaker tr ≠ none)
    (h2 : lastWaker (before tr) = none) :
    (pollsOf (current tr)).reverse <+: List.range n ∧
      (Suspended tr → (pollsOf (current tr)).reverse = List.range n) := by
  by_cases hn : 0 < n
  · have inv := run_inv g n hn tr c h ha
    have := inv.first h1 h2
    refine ⟨⟨_, this⟩, fun hs => ?_⟩
    have hidle := suspended_idle g n tr c h hs
    rw [hidle] at this
    simpa [restOf] using this
  · have he : pollsOf (current tr) = [] := by
      cases hpo : pollsOf (current tr) with
      | nil => rfl
      | cons k l =>
        obtain ⟨x, hx, hm⟩ := (mem_pollsOf _ k).1 (by rw [hpo]; simp)
        have := run_polled_lt g n _ c h k ⟨x, mem_of_mem_current _ x hx, hm⟩
        omega
    have : n = 0 := by omega
    subst this
    rw [he]; simp

example : ∃ tr c, Run (W := Nat) (joinCfg .array true Nat) 3 tr c ∧ Active tr ∧
    lastWaker tr ≠ none ∧ lastWaker (before tr) = none ∧ pollsOf (current tr) = [2, 1, 0] := by
  obtain ⟨c, h⟩ := run_of_trace (W := Nat) (joinCfg .array true Nat) 3
    [.wake 1, .poll 0, .sub 0 (.ready 4), .wake 0, .sub 1 .pending, .sub 2 .pending] _ rfl
  exact ⟨_, c, h, active_of_isActive (by decide), by decide, by decide, by decide⟩

/-! ### C14: join -/

/-- When a join returns `Ready`, its output holds exactly what each subfuture returned, at the
subfuture's place, and every subfuture has finished. -/
theorem join_output (k : Kind) (dbg : Bool) (n : Nat) (tr : List (Entry V V (List V) W)) (e : Event V W)
    (out : List (Effect V (List V) W)) (c : Comb k.impl.σ V W)
    (hk : k = .tuple → 0 < n) (h : Run (joinCfg k dbg V) n ((e, out) :: tr) c) (ha : Active tr) (o : List V)
    (ss : List V) (ho : .retReady o ss ∈ out) :
    o.length = n ∧ (∀ i v, o[i]? = some v ↔ Output ((e, out) :: tr) i v) ∧
      ∀ i, i < n → Finished ((e, out) :: tr) i := by
  have h0 := h
  match run_cons_inv h with
  | ⟨c0, hr, hs⟩ =>
    by_cases hn : 0 < n
    · rcases (step_result (joinCfg k dbg V) n hn tr c0 c e out hr ha hs).ready o ss ho with
        ⟨i, v, -, hb, -⟩ | ⟨hw, hl, -, h1, h2⟩
      · cases hb
      · have : ss = o := by simpa [joinCfg, joinB] using hw
        subst this
        refine ⟨hl, ?_, h2⟩
        intro i v
        constructor
        · intro hv
          have hi : i < n := by
            rw [← hl]; exact (List.getElem?_eq_some_iff.1 hv).1
          obtain ⟨v', hv'⟩ := h2 i hi
          obtain ⟨s, hs1, hs2⟩ := h1 i v' hv'
          have : v' = s := by simpa [joinCfg, joinB] using hs1
          subst this
          rw [hv] at hs2
          simp at hs2; subst hs2; exact hv'
        · intro hv
          obtain ⟨s, hs1, hs2⟩ := h1 i v hv
          have : v = s := by simpa [joinCfg, joinB] using hs1
          subst this; exact hs2
    · have hn0 : n = 0 := by omega
      obtain ⟨hg, hcn⟩ := run_good (joinCfg k dbg V) n tr c0 hr
      rcases step_empty (joinCfg k dbg V) (fun hx => hn (hk hx)) c0 c e out hg (by omega) hs with
        ⟨-, ⟨hp, -⟩ | ⟨-, ⟨o', hw, rfl⟩ | ⟨hw, -⟩⟩⟩ | ⟨-, rfl⟩
      · cases hp
      · simp only [List.mem_singleton, Effect.retReady.injEq] at ho
        obtain ⟨rfl, rfl⟩ := ho
        have : o = [] := by
          have : some [] = some o := hw
          simpa using this.symm
        subst this
        refine ⟨hn0.symm, ?_, fun i hi => by omega⟩
        intro i v
        refine ⟨fun hx => by simp at hx, fun hx => ?_⟩
        have := run_output_lt (joinCfg k dbg V) n _ c h0 i v hx
        omega
      · cases hw
      · simp at ho

example : ∃ tr e out c, Run (W := Nat) (joinCfg .tuple true Nat) 2 ((e, out) :: tr) c ∧ Active tr ∧
    .retReady [5, 7] [5, 7] ∈ out := by
  obtain ⟨c, h⟩ := run_of_trace (W := Nat) (joinCfg .tuple true Nat) 2
    [.poll 0, .sub 0 .pending, .sub 1 (.ready 7), .wake 0, .poll 1, .sub 0 (.ready 5)] _ rfl
  exact ⟨_, _, _, c, h, active_of_isActive (by decide), by decide⟩

/-- When a join returns `Pending`, some subfuture has not finished. So the join completes in the
poll in which its last subfuture does. -/
theorem join_pending (k : Kind) (dbg : Bool) (n : Nat) (tr : List (Entry V V (List V) W)) (e : Event V W)
    (out : List (Effect V (List V) W)) (c : Comb k.impl.σ V W)
    (hk : k = .tuple → 0 < n) (h : Run (joinCfg k dbg V) n ((e, out) :: tr) c) (ha : Active tr)
    (ho : .retPending ∈ out) : ∃ i, i < n ∧ ¬ Finished ((e, out) :: tr) i := by
  match run_cons_inv h with
  | ⟨c0, hr, hs⟩ =>
    by_cases hn : 0 < n
    · exact (step_result (joinCfg k dbg V) n hn tr c0 c e out hr ha hs).pending ho
    · obtain ⟨hg, hcn⟩ := run_good (joinCfg k dbg V) n tr c0 hr
      rcases step_empty (joinCfg k dbg V) (fun hx => hn (hk hx)) c0 c e out hg (by omega) hs with
        ⟨-, ⟨hp, -⟩ | ⟨-, ⟨o', hw, rfl⟩ | ⟨hw, -⟩⟩⟩ | ⟨-, rfl⟩
      · cases hp
      · simp at ho
      · cases hw
      · simp at ho

example : ∃ tr e out c, Run (W := Nat) (joinCfg .vec true Nat) 2 ((e, out) :: tr) c ∧ Active tr ∧
    .retPending ∈ out := by
  obtain ⟨c, h⟩ := run_of_trace (W := Nat) (joinCfg .vec true Nat) 2
    [.poll 0, .sub 0 .pending, .sub 1 (.ready 7)] _ rfl
  exact ⟨_, _, _, c, h, active_of_isActive (by decide), by decide⟩

/-- An empty join completes on its first poll, with the empty output. -/
theorem join_empty (k : Kind) (dbg : Bool) (hk : k ≠ .tuple) (w : W) :
    ∃ c', step (joinCfg k dbg V) (Comb.new k.impl V W 0) (.poll w) = some (c', [.retReady [] []]) := by
  have hg : Good (joinCfg k dbg V) (Comb.new k.impl V W 0) := new_good (joinCfg k dbg V) 0
  have hs : step (joinCfg k dbg V) (Comb.new k.impl V W 0) (.poll w)
      = some (beginPoll (joinCfg k dbg V) (Comb.new k.impl V W 0) w) := by
    simp [step, Comb.new]
  rcases hb : beginPoll (joinCfg k dbg V) (Comb.new k.impl V W 0) w with ⟨c', out⟩
  rw [hb] at hs
  rcases step_empty (joinCfg k dbg V) hk _ c' _ out hg rfl hs with
    ⟨-, ⟨hp, -⟩ | ⟨-, ⟨o', hw, rfl⟩ | ⟨hw, -⟩⟩⟩ | ⟨he, -⟩
  · cases hp
  · have : some [] = some o' := hw
    simp at this; subst this
    exact ⟨c', hs⟩
  · cases hw
  · cases he

/-- A join panics only if a subfuture does. -/
theorem join_no_panic (k : Kind) (dbg : Bool) (n : Nat) (tr : List (Entry V V (List V) W)) (e : Event V W)
    (out : List (Effect V (List V) W)) (c : Comb k.impl.σ V W)
    (hk : k = .tuple → 0 < n) (h : Run (joinCfg k dbg V) n ((e, out) :: tr) c) (ha : Active tr)
    (ho : .panicked ∈ out) : ∃ i, e = .sub i .panics := by
  match run_cons_inv h with
  | ⟨c0, hr, hs⟩ =>
    by_cases hn : 0 < n
    · rcases (step_result (joinCfg k dbg V) n hn tr c0 c e out hr ha hs).panicked ho with h | ⟨ss, hw, -⟩
      · exact h
      · cases hw
    · obtain ⟨hg, hcn⟩ := run_good (joinCfg k dbg V) n tr c0 hr
      rcases step_empty (joinCfg k dbg V) (fun hx => hn (hk hx)) c0 c e out hg (by omega) hs with
        ⟨-, ⟨hp, -⟩ | ⟨-, ⟨o', hw, rfl⟩ | ⟨hw, -⟩⟩⟩ | ⟨-, rfl⟩
      · cases hp
      · simp at ho
      · cases hw
      · simp at ho

example : ∃ tr e out c, Run (W := Nat) (joinCfg .vec true Nat) 2 ((e, out) :: tr) c ∧ Active tr ∧
    .panicked ∈ out := by
  obtain ⟨c, h⟩ := run_of_trace (W := Nat) (joinCfg .vec true Nat) 2
    [.poll 0, .sub 0 (.ready 7), .sub 1 .panics] _ rfl
  exact ⟨_, _, _, c, h, active_of_isActive (by decide), by decide⟩

/-! ### C15: race -/

/-- A subfuture that finishes ends the race at once: the poll returns its output and polls nothing
further. -/
theorem race_first_wins (k : Kind) (dbg : Bool) (n : Nat) (tr : List (Entry V Empty V W)) (i : Nat) (v : V)
    (out : List (Effect Empty V W)) (c : Comb k.impl.σ Empty W)
    (h : Run (raceCfg k dbg V) n ((.sub i (.ready v), out) :: tr) c) : out = [.retReady v []] := by
  match run_cons_inv h with
  | ⟨c0, hr, hs⟩ =>
    have hg := (run_good (raceCfg k dbg V) n tr c0 hr).1
    rcases step_forms (raceCfg k dbg V) c0 c _ out hg hs with ⟨w, he, -⟩ | ⟨j, rest, ro, he, -, -, hx⟩ | ⟨j, he, -⟩ | ⟨he, -⟩
    · cases he
    · cases he
      rcases hx with ⟨he, -⟩ | ⟨he, -⟩ | ⟨v', o, he, hb, -, rfl⟩ | ⟨v', s, -, hb, -⟩ | ⟨v', s, -, hb, -⟩
      · cases he
      · cases he
      · cases he
        have : Sum.inr v = (Sum.inr o : Empty ⊕ V) := hb
        cases this; rfl
      · exact s.elim
      · exact s.elim
    · cases he
    · cases he

example : ∃ tr out c, Run (W := Nat) (raceCfg .array true Nat) 3 ((.sub 1 (.ready 7), out) :: tr) c := by
  obtain ⟨c, h⟩ := run_of_trace (W := Nat) (raceCfg .array true Nat) 3
    [.poll 0, .sub 0 .pending, .sub 1 (.ready 7)] _ rfl
  exact ⟨_, _, c, h⟩

/-- A race returns `Ready` only in that way. In particular an empty race never completes. -/
theorem race_ready_only (k : Kind) (dbg : Bool) (n : Nat) (tr : List (Entry V Empty V W)) (e : Event V W)
    (out : List (Effect Empty V W)) (c : Comb k.impl.σ Empty W)
    (hk : k = .tuple → 0 < n) (h : Run (raceCfg k dbg V) n ((e, out) :: tr) c) (ha : Active tr) (o : V)
    (ss : List Empty) (ho : .retReady o ss ∈ out) : ∃ i, i < n ∧ e = .sub i (.ready o) := by
  have h0 := h
  match run_cons_inv h with
  | ⟨c0, hr, hs⟩ =>
    by_cases hn : 0 < n
    · rcases (step_result (raceCfg k dbg V) n hn tr c0 c e out hr ha hs).ready o ss ho with
        ⟨i, v, rfl, hb, -⟩ | ⟨hw, -⟩
      · have : Sum.inr v = (Sum.inr o : Empty ⊕ V) := hb
        cases this
        exact ⟨i, run_output_lt (raceCfg k dbg V) n _ c h0 i _ ⟨_, List.mem_cons_self, rfl⟩, rfl⟩
      · cases hw
    · obtain ⟨hg, hcn⟩ := run_good (raceCfg k dbg V) n tr c0 hr
      rcases step_empty (raceCfg k dbg V) (fun hx => hn (hk hx)) c0 c e out hg (by omega) hs with
        ⟨-, ⟨hp, rfl⟩ | ⟨hp, -⟩⟩ | ⟨-, rfl⟩
      · simp at ho
      · cases hp
      · simp at ho

example : ∃ tr e out c, Run (W := Nat) (raceCfg .vec true Nat) 3 ((e, out) :: tr) c ∧ Active tr ∧
    .retReady 7 [] ∈ out := by
  obtain ⟨c, h⟩ := run_of_trace (W := Nat) (raceCfg .vec true Nat) 3
    [.poll 0, .sub 0 .pending, .sub 1 .pending, .sub 2 .pending, .wake 2, .poll 1, .sub 2 (.ready 7)] _ rfl
  exact ⟨_, _, _, c, h, active_of_isActive (by decide), by decide⟩

/-- An empty race is polled and stays pending. -/
example : ∃ tr c, Run (W := Nat) (raceCfg .vec true Nat) 0 tr c ∧ Active tr ∧ Suspended tr := by
  obtain ⟨c, h⟩ := run_of_trace (W := Nat) (raceCfg .vec true Nat) 0 [.poll 0, .poll 1] _ rfl
  exact ⟨_, c, h, active_of_isActive (by decide), by decide⟩

/-- A race panics only if a subfuture does (`unreachable!()` in `when_completed` is unreachable). -/
theorem race_no_panic (k : Kind) (dbg : Bool) (n : Nat) (tr : List (Entry V Empty V W)) (e : Event V W)
    (out : List (Effect Empty V W)) (c : Comb k.impl.σ Empty W)
    (hk : k = .tuple → 0 < n) (h : Run (raceCfg k dbg V) n ((e, out) :: tr) c) (ha : Active tr)
    (ho : .panicked ∈ out) : ∃ i, e = .sub i .panics := by
  match run_cons_inv h with
  | ⟨c0, hr, hs⟩ =>
    by_cases hn : 0 < n
    · rcases (step_result (raceCfg k dbg V) n hn tr c0 c e out hr ha hs).panicked ho with h | ⟨ss, -, hl⟩
      · exact h
      · cases ss with
        | nil => simp at hl; omega
        | cons x _ => exact x.elim
    · obtain ⟨hg, hcn⟩ := run_good (raceCfg k dbg V) n tr c0 hr
      rcases step_empty (raceCfg k dbg V) (fun hx => hn (hk hx)) c0 c e out hg (by omega) hs with
        ⟨-, ⟨hp, rfl⟩ | ⟨hp, -⟩⟩ | ⟨-, rfl⟩
      · simp at ho
      · cases hp
      · simp at ho

example : ∃ tr e out c, Run (W := Nat) (raceCfg .array false Nat) 2 ((e, out) :: tr) c ∧ Active tr ∧
    .panicked ∈ out := by
  obtain ⟨c, h⟩ := run_of_trace (W := Nat) (raceCfg .array false Nat) 2
    [.poll 0, .sub 0 .pending, .sub 1 .panics] _ rfl
  exact ⟨_, _, _, c, h, active_of_isActive (by decide), by decide⟩

/-! ### C16: try_join and race_ok -/

/-- The first failure ends a try_join at once with this failure. -/
theorem tryJoin_first_failure (k : Kind) (dbg : Bool) {E T : Type} (n : Nat)
    (tr : List (Entry (Except E T) T (Except E (List T)) W)) (i : Nat) (x : E)
    (out : List (Effect T (Except E (List T)) W)) (c : Comb k.impl.σ T W)
    (h : Run (tryJoinCfg k dbg E T) n ((.sub i (.ready (.error x)), out) :: tr) c) :
    out = [.retReady (.error x) []] := by
  match run_cons_inv h with
  | ⟨c0, hr, hs⟩ =>
    have hg := (run_good (tryJoinCfg k dbg E T) n tr c0 hr).1
    rcases step_forms (tryJoinCfg k dbg E T) c0 c _ out hg hs with ⟨w, he, -⟩ | ⟨j, rest, ro, he, -, -, hx⟩ | ⟨j, he, -⟩ | ⟨he, -⟩
    · cases he
    · cases he
      rcases hx with ⟨he, -⟩ | ⟨he, -⟩ | ⟨v', o, he, hb, -, rfl⟩ | ⟨v', s, he, hb, -⟩ | ⟨v', s, he, hb, -⟩
      · cases he
      · cases he
      · cases he
        simp only [tryJoinCfg, tryJoinB, Sum.inr.injEq] at hb
        subst hb; rfl
      · cases he; cases hb
      · cases he; cases hb
    · cases he
    · cases he

example : ∃ tr out c, Run (W := Nat) (tryJoinCfg .vec true Nat Nat) 3
    ((.sub 1 (.ready (.error 7)), out) :: tr) c := by
  obtain ⟨c, h⟩ := run_of_trace (W := Nat) (tryJoinCfg .vec true Nat Nat) 3
    [.poll 0, .sub 0 (.ready (.ok 1)), .sub 1 (.ready (.error 7))] _ rfl
  exact ⟨_, _, c, h⟩

/-- A try_join returns `Ready` only with the failure of the subfuture that has just failed, or with
the values of all subfutures in order, none having failed. -/
theorem tryJoin_output (k : Kind) (dbg : Bool) {E T : Type} (n : Nat)
    (tr : List (Entry (Except E T) T (Except E (List T)) W)) (e : Event (Except E T) W)
    (out : List (Effect T (Except E (List T)) W)) (c : Comb k.impl.σ T W)
    (hk : k = .tuple → 0 < n) (h : Run (tryJoinCfg k dbg E T) n ((e, out) :: tr) c) (ha : Active tr)
    (o : Except E (List T)) (ss : List T) (ho : .retReady o ss ∈ out) :
    (∃ i x, e = .sub i (.ready (.error x)) ∧ o = .error x) ∨
    (∃ ts, o = .ok ts ∧ ts.length = n ∧
      ∀ i r, Output ((e, out) :: tr) i r ↔ ∃ t, r = .ok t ∧ ts[i]? = some t) := by
  have h0 := h
  match run_cons_inv h with
  | ⟨c0, hr, hs⟩ =>
    by_cases hn : 0 < n
    · rcases (step_result (tryJoinCfg k dbg E T) n hn tr c0 c e out hr ha hs).ready o ss ho with
        ⟨i, v, rfl, hb, -⟩ | ⟨hw, hl, -, h1, h2⟩
      · left
        cases v with
        | ok t => cases hb
        | error x =>
          simp only [tryJoinCfg, tryJoinB, Sum.inr.injEq] at hb
          exact ⟨i, x, rfl, hb.symm⟩
      · right
        simp only [tryJoinCfg, tryJoinB, Option.some.injEq] at hw
        refine ⟨ss, hw.symm, hl, ?_⟩
        have h1' : ∀ i r, Output ((e, out) :: tr) i r → ∃ t, r = .ok t ∧ ss[i]? = some t := by
          intro i r hr'
          obtain ⟨s, hs1, hs2⟩ := h1 i r hr'
          cases r with
          | ok t =>
            simp only [tryJoinCfg, tryJoinB, Sum.inl.injEq] at hs1
            subst hs1; exact ⟨t, rfl, hs2⟩
          | error x => cases hs1
        intro i r
        refine ⟨h1' i r, ?_⟩
        rintro ⟨t, rfl, ht⟩
        have hi : i < n := by rw [← hl]; exact (List.getElem?_eq_some_iff.1 ht).1
        obtain ⟨r', hr'⟩ := h2 i hi
        obtain ⟨t', rfl, ht'⟩ := h1' i r' hr'
        rw [ht] at ht'; simp at ht'; subst ht'; exact hr'
    · obtain ⟨hg, hcn⟩ := run_good (tryJoinCfg k dbg E T) n tr c0 hr
      rcases step_empty (tryJoinCfg k dbg E T) (fun hx => hn (hk hx)) c0 c e out hg (by omega) hs with
        ⟨-, ⟨hp, -⟩ | ⟨-, ⟨o', hw, rfl⟩ | ⟨hw, -⟩⟩⟩ | ⟨-, rfl⟩
      · cases hp
      · simp only [List.mem_singleton, Effect.retReady.injEq] at ho
        obtain ⟨rfl, rfl⟩ := ho
        simp only [tryJoinCfg, tryJoinB, Option.some.injEq] at hw
        right
        refine ⟨[], hw.symm, by simp; omega, ?_⟩
        intro i r
        refine ⟨fun hx => ?_, by simp⟩
        have := run_output_lt (tryJoinCfg k dbg E T) n _ c h0 i r hx
        omega
      · cases hw
      · simp at ho

example : ∃ tr e out c, Run (W := Nat) (tryJoinCfg .vec true Nat Nat) 2 ((e, out) :: tr) c ∧ Active tr ∧
    ∃ o ss, .retReady o ss ∈ out := by
  obtain ⟨c, h⟩ := run_of_trace (W := Nat) (tryJoinCfg .vec true Nat Nat) 2
    [.poll 0, .sub 0 (.ready (.ok 1)), .sub 1 (.ready (.ok 7))] _ rfl
  exact ⟨_, _, _, c, h, active_of_isActive (by decide), .ok [1, 7], [1, 7], by exact List.mem_singleton.2 rfl⟩

/-- A try_join returns `Pending` only if some subfuture has not finished. -/
theorem tryJoin_pending (k : Kind) (dbg : Bool) {E T : Type} (n : Nat)
    (tr : List (Entry (Except E T) T (Except E (List T)) W)) (e : Event (Except E T) W)
    (out : List (Effect T (Except E (List T)) W)) (c : Comb k.impl.σ T W)
    (hk : k = .tuple → 0 < n) (h : Run (tryJoinCfg k dbg E T) n ((e, out) :: tr) c) (ha : Active tr)
    (ho : .retPending ∈ out) : ∃ i, i < n ∧ ¬ Finished ((e, out) :: tr) i := by
  match run_cons_inv h with
  | ⟨c0, hr, hs⟩ =>
    by_cases hn : 0 < n
    · exact (step_result (tryJoinCfg k dbg E T) n hn tr c0 c e out hr ha hs).pending ho
    · obtain ⟨hg, hcn⟩ := run_good (tryJoinCfg k dbg E T) n tr c0 hr
      rcases step_empty (tryJoinCfg k dbg E T) (fun hx => hn (hk hx)) c0 c e out hg (by omega) hs with
        ⟨-, ⟨hp, -⟩ | ⟨-, ⟨o', hw, rfl⟩ | ⟨hw, -⟩⟩⟩ | ⟨-, rfl⟩
      · cases hp
      · simp at ho
      · cases hw
      · simp at ho

example : ∃ tr e out c, Run (W := Nat) (tryJoinCfg .array true Nat Nat) 2 ((e, out) :: tr) c ∧ Active tr ∧
    .retPending ∈ out := by
  obtain ⟨c, h⟩ := run_of_trace (W := Nat) (tryJoinCfg .array true Nat Nat) 2
    [.poll 0, .sub 0 (.ready (.ok 1)), .sub 1 .pending] _ rfl
  exact ⟨_, _, _, c, h, active_of_isActive (by decide), List.mem_singleton.2 rfl⟩

/-- The first success ends a race_ok at once with this success. -/
theorem raceOk_first_success (k : Kind) (dbg : Bool) {E T : Type} (n : Nat)
    (tr : List (Entry (Except E T) E (Except (List E) T) W)) (i : Nat) (t : T)
    (out : List (Effect E (Except (List E) T) W)) (c : Comb k.impl.σ E W)
    (h : Run (raceOkCfg k dbg E T) n ((.sub i (.ready (.ok t)), out) :: tr) c) :
    out = [.retReady (.ok t) []] := by
  match run_cons_inv h with
  | ⟨c0, hr, hs⟩ =>
    have hg := (run_good (raceOkCfg k dbg E T) n tr c0 hr).1
    rcases step_forms (raceOkCfg k dbg E T) c0 c _ out hg hs with ⟨w, he, -⟩ | ⟨j, rest, ro, he, -, -, hx⟩ | ⟨j, he, -⟩ | ⟨he, -⟩
    · cases he
    · cases he
      rcases hx with ⟨he, -⟩ | ⟨he, -⟩ | ⟨v', o, he, hb, -, rfl⟩ | ⟨v', s, he, hb, -⟩ | ⟨v', s, he, hb, -⟩
      · cases he
      · cases he
      · cases he
        simp only [raceOkCfg, raceOkB, Sum.inr.injEq] at hb
        subst hb; rfl
      · cases he; cases hb
      · cases he; cases hb
    · cases he
    · cases he

example : ∃ tr out c, Run (W := Nat) (raceOkCfg .vec true Nat Nat) 3
    ((.sub 1 (.ready (.ok 7)), out) :: tr) c := by
  obtain ⟨c, h⟩ := run_of_trace (W := Nat) (raceOkCfg .vec true Nat Nat) 3
    [.poll 0, .sub 0 (.ready (.error 1)), .sub 1 (.ready (.ok 7))] _ rfl
  exact ⟨_, _, c, h⟩

/-- A race_ok returns `Ready` only with the success of the subfuture that has just succeeded, or
with the errors of all subfutures in order, none having succeeded. -/
theorem raceOk_output (k : Kind) (dbg : Bool) {E T : Type} (n : Nat)
    (tr : List (Entry (Except E T) E (Except (List E) T) W)) (e : Event (Except E T) W)
    (out : List (Effect E (Except (List E) T) W)) (c : Comb k.impl.σ E W)
    (hk : k = .tuple → 0 < n) (h : Run (raceOkCfg k dbg E T) n ((e, out) :: tr) c) (ha : Active tr)
    (o : Except (List E) T) (ss : List E) (ho : .retReady o ss ∈ out) :
    (∃ i t, e = .sub i (.ready (.ok t)) ∧ o = .ok t) ∨
    (∃ es, o = .error es ∧ es.length = n ∧
      ∀ i r, Output ((e, out) :: tr) i r ↔ ∃ x, r = .error x ∧ es[i]? = some x) := by
  have h0 := h
  match run_cons_inv h with
  | ⟨c0, hr, hs⟩ =>
    by_cases hn : 0 < n
    · rcases (step_result (raceOkCfg k dbg E T) n hn tr c0 c e out hr ha hs).ready o ss ho with
        ⟨i, v, rfl, hb, -⟩ | ⟨hw, hl, -, h1, h2⟩
      · left
        cases v with
        | error x => cases hb
        | ok t =>
          simp only [raceOkCfg, raceOkB, Sum.inr.injEq] at hb
          exact ⟨i, t, rfl, hb.symm⟩
      · right
        simp only [raceOkCfg, raceOkB, Option.some.injEq] at hw
        refine ⟨ss, hw.symm, hl, ?_⟩
        have h1' : ∀ i r, Output ((e, out) :: tr) i r → ∃ t, r = .error t ∧ ss[i]? = some t := by
          intro i r hr'
          obtain ⟨s, hs1, hs2⟩ := h1 i r hr'
          cases r with
          | error t =>
            simp only [raceOkCfg, raceOkB, Sum.inl.injEq] at hs1
            subst hs1; exact ⟨t, rfl, hs2⟩
          | ok x => cases hs1
        intro i r
        refine ⟨h1' i r, ?_⟩
        rintro ⟨t, rfl, ht⟩
        have hi : i < n := by rw [← hl]; exact (List.getElem?_eq_some_iff.1 ht).1
        obtain ⟨r', hr'⟩ := h2 i hi
        obtain ⟨t', rfl, ht'⟩ := h1' i r' hr'
        rw [ht] at ht'; simp at ht'; subst ht'; exact hr'
    · obtain ⟨hg, hcn⟩ := run_good (raceOkCfg k dbg E T) n tr c0 hr
      rcases step_empty (raceOkCfg k dbg E T) (fun hx => hn (hk hx)) c0 c e out hg (by omega) hs with
        ⟨-, ⟨hp, -⟩ | ⟨-, ⟨o', hw, rfl⟩ | ⟨hw, -⟩⟩⟩ | ⟨-, rfl⟩
      · cases hp
      · simp only [List.mem_singleton, Effect.retReady.injEq] at ho
        obtain ⟨rfl, rfl⟩ := ho
        simp only [raceOkCfg, raceOkB, Option.some.injEq] at hw
        right
        refine ⟨[], hw.symm, by simp; omega, ?_⟩
        intro i r
        refine ⟨fun hx => ?_, by simp⟩
        have := run_output_lt (raceOkCfg k dbg E T) n _ c h0 i r hx
        omega
      · cases hw
      · simp at ho

example : ∃ tr e out c, Run (W := Nat) (raceOkCfg .vec true Nat Nat) 2 ((e, out) :: tr) c ∧ Active tr ∧
    ∃ o ss, .retReady o ss ∈ out := by
  obtain ⟨c, h⟩ := run_of_trace (W := Nat) (raceOkCfg .vec true Nat Nat) 2
    [.poll 0, .sub 0 (.ready (.error 1)), .sub 1 (.ready (.error 7))] _ rfl
  exact ⟨_, _, _, c, h, active_of_isActive (by decide), .error [1, 7], [1, 7], by exact List.mem_singleton.2 rfl⟩

/-- A race_ok returns `Pending` only if some subfuture has not finished. -/
theorem raceOk_pending (k : Kind) (dbg : Bool) {E T : Type} (n : Nat)
    (tr : List (Entry (Except E T) E (Except (List E) T) W)) (e : Event (Except E T) W)
    (out : List (Effect E (Except (List E) T) W)) (c : Comb k.impl.σ E W)
    (hk : k = .tuple → 0 < n) (h : Run (raceOkCfg k dbg E T) n ((e, out) :: tr) c) (ha : Active tr)
    (ho : .retPending ∈ out) : ∃ i, i < n ∧ ¬ Finished ((e, out) :: tr) i := by
  match run_cons_inv h with
  | ⟨c0, hr, hs⟩ =>
    by_cases hn : 0 < n
    · exact (step_result (raceOkCfg k dbg E T) n hn tr c0 c e out hr ha hs).pending ho
    · obtain ⟨hg, hcn⟩ := run_good (raceOkCfg k dbg E T) n tr c0 hr
      rcases step_empty (raceOkCfg k dbg E T) (fun hx => hn (hk hx)) c0 c e out hg (by omega) hs with
        ⟨-, ⟨hp, -⟩ | ⟨-, ⟨o', hw, rfl⟩ | ⟨hw, -⟩⟩⟩ | ⟨-, rfl⟩
      · cases hp
      · simp at ho
      · cases hw
      · simp at ho

example : ∃ tr e out c, Run (W := Nat) (raceOkCfg .array true Nat Nat) 2 ((e, out) :: tr) c ∧ Active tr ∧
    .retPending ∈ out := by
  obtain ⟨c, h⟩ := run_of_trace (W := Nat) (raceOkCfg .array true Nat Nat) 2
    [.poll 0, .sub 0 (.ready (.error 1)), .sub 1 .pending] _ rfl
  exact ⟨_, _, _, c, h, active_of_isActive (by decide), List.mem_singleton.2 rfl⟩

/-- try_join and race_ok panic only if a subfuture does. -/
theorem tryJoin_no_panic (k : Kind) (dbg : Bool) {E T : Type} (n : Nat)
    (tr : List (Entry (Except E T) T (Except E (List T)) W)) (e : Event (Except E T) W)
    (out : List (Effect T (Except E (List T)) W)) (c : Comb k.impl.σ T W)
    (hk : k = .tuple → 0 < n) (h : Run (tryJoinCfg k dbg E T) n ((e, out) :: tr) c) (ha : Active tr)
    (ho : .panicked ∈ out) : ∃ i, e = .sub i .panics := by
  match run_cons_inv h with
  | ⟨c0, hr, hs⟩ =>
    by_cases hn : 0 < n
    · rcases (step_result (tryJoinCfg k dbg E T) n hn tr c0 c e out hr ha hs).panicked ho with h | ⟨ss, hw, -⟩
      · exact h
      · cases hw
    · obtain ⟨hg, hcn⟩ := run_good (tryJoinCfg k dbg E T) n tr c0 hr
      rcases step_empty (tryJoinCfg k dbg E T) (fun hx => hn (hk hx)) c0 c e out hg (by omega) hs with
        ⟨-, ⟨hp, -⟩ | ⟨-, ⟨o', hw, rfl⟩ | ⟨hw, -⟩⟩⟩ | ⟨-, rfl⟩
      · cases hp
      · simp at ho
      · cases hw
      · simp at ho

example : ∃ tr e out c, Run (W := Nat) (tryJoinCfg .array true Nat Nat) 2 ((e, out) :: tr) c ∧ Active tr ∧
    .panicked ∈ out := by
  obtain ⟨c, h⟩ := run_of_trace (W := Nat) (tryJoinCfg .array true Nat Nat) 2
    [.poll 0, .sub 0 .pending, .sub 1 .panics] _ rfl
  exact ⟨_, _, _, c, h, active_of_isActive (by decide), List.mem_singleton.2 rfl⟩

theorem raceOk_no_panic (k : Kind) (dbg : Bool) {E T : Type} (n : Nat)
    (tr : List (Entry (Except E T) E (Except (List E) T) W)) (e : Event (Except E T) W)
    (out : List (Effect E (Except (List E) T) W)) (c : Comb k.impl.σ E W)
    (hk : k = .tuple → 0 < n) (h : Run (raceOkCfg k dbg E T) n ((e, out) :: tr) c) (ha : Active tr)
    (ho : .panicked ∈ out) : ∃ i, e = .sub i .panics := by
  match run_cons_inv h with
  | ⟨c0, hr, hs⟩ =>
    by_cases hn : 0 < n
    · rcases (step_result (raceOkCfg k dbg E T) n hn tr c0 c e out hr ha hs).panicked ho with h | ⟨ss, hw, -⟩
      · exact h
      · cases hw
    · obtain ⟨hg, hcn⟩ := run_good (raceOkCfg k dbg E T) n tr c0 hr
      rcases step_empty (raceOkCfg k dbg E T) (fun hx => hn (hk hx)) c0 c e out hg (by omega) hs with
        ⟨-, ⟨hp, -⟩ | ⟨-, ⟨o', hw, rfl⟩ | ⟨hw, -⟩⟩⟩ | ⟨-, rfl⟩
      · cases hp
      · simp at ho
      · cases hw
      · simp at ho

example : ∃ tr e out c, Run (W := Nat) (raceOkCfg .array true Nat Nat) 2 ((e, out) :: tr) c ∧ Active tr ∧
    .panicked ∈ out := by
  obtain ⟨c, h⟩ := run_of_trace (W := Nat) (raceOkCfg .array true Nat Nat) 2
    [.poll 0, .sub 0 .pending, .sub 1 .panics] _ rfl
  exact ⟨_, _, _, c, h, active_of_isActive (by decide), List.mem_singleton.2 rfl⟩

/-! ### C17: polling after completion -/

theorem gate_spent_pend (k : Kind) (p : Bool) (n : Nat) (b : Bool) (hk : k ≠ .vec) (hn : 0 < n) :
    gate k p n 0 b ≠ .pend := by
  intro h
  cases k with
  | vec => exact absurd rfl hk
  | array =>
    simp only [gate] at h
    split at h
    · omega
    · split at h <;> cases h
  | tuple => simp [gate] at h

theorem spent_persists (g : Cfg V S O) (n : Nat) (hn : 0 < n) (hk : g.kind ≠ .vec)
    (tr : List (Entry V S O W)) (c : Comb g.kind.impl.σ S W) (h : Run g n tr c) (o : O) (ss : List S)
    (hss : ss ≠ []) (hr : ∃ e ∈ tr, .retReady o ss ∈ e.2) :
    c.phase = .dropped ∨ (c.phase = .idle ∧ Spent g.kind c) := by
  induction h with
  | nil => simp at hr
  | @cons tr c e c' out hrun hs ih =>
    obtain ⟨hg, hcn⟩ := run_good g n tr c hrun
    obtain ⟨x, hx, hm⟩ := hr
    have hadv : ∀ (c1 : Comb g.kind.impl.σ S W) l, Pre g c1 l → advance g c1 l = (c', out) →
        Effect.retReady o ss ∈ out → c'.phase = .idle ∧ Spent g.kind c' := by
      intro c1 l hpre ha hmem
      rcases advance_cases g c1 l hpre.bound hpre.flen with ⟨pre, i, rest, -, -, -, h4⟩ | ⟨-, h2⟩
      · rw [h4] at ha; cases ha; simp at hmem
      · rw [h2] at ha
        rcases hpre.mode with hm | ⟨-, hv⟩
        · rcases finish_regular g c1 hm hpre.flen with ⟨-, e'⟩ | ⟨h0, ss', -, ⟨o', -, e'⟩ | ⟨-, e'⟩⟩
          · rw [e'] at ha; cases ha; simp at hmem
          · rw [e'] at ha; cases ha
            exact ⟨rfl, taken_spent g c1 h0 (fun _ => hm.len)⟩
          · rw [e'] at ha; cases ha; simp at hmem
        · exact absurd hv hk
    rcases List.mem_cons.1 hx with rfl | hx
    · simp only at hm
      right
      rcases step_forms g c c' e out hg hs with ⟨w, rfl, -, hy⟩ | ⟨j, rest, ro, rfl, -, -, hy⟩ | ⟨j, rfl, -, -, hy⟩ | ⟨-, -, -, hy⟩
      · rcases hy with ⟨-, -, rfl⟩ | ⟨-, -, rfl⟩ | ⟨r, hp, -, ha⟩
        · simp at hm
        · simp at hm
        · exact hadv _ _ hp ha hm
      · rcases hy with ⟨-, hp, ha⟩ | ⟨-, -, rfl⟩ | ⟨v, o', -, -, -, rfl⟩ | ⟨v, s, -, -, -, -, -, rfl⟩ | ⟨v, s, -, -, -, -, hp, ha⟩
        · exact hadv _ _ hp ha hm
        · simp at hm
        · simp at hm; exact absurd hm.2 hss
        · simp at hm
        · exact hadv _ _ hp ha hm
      · rcases hy with rfl | rfl <;> simp at hm
      · rw [hy] at hm; simp at hm
    · rcases ih ⟨x, hx, hm⟩ with hd | ⟨hi, hsp⟩
      · left
        rcases step_forms g c c' e out hg hs with ⟨w, rfl, hp, -⟩ | ⟨j, rest, ro, rfl, hp, -⟩ | ⟨j, rfl, -, hp, -⟩ | ⟨-, -, hp, -⟩
        · rw [hd] at hp; cases hp
        · rw [hd] at hp; cases hp
        · rw [hp, hd]
        · exact hp
      · rcases step_forms g c c' e out hg hs with ⟨w, rfl, -, hy⟩ | ⟨j, rest, ro, rfl, hp, -⟩ | ⟨j, rfl, hj, hp, -⟩ | ⟨-, -, hp, -⟩
        · right
          rcases hy with ⟨-, rfl, -⟩ | ⟨-, rfl, -⟩ | ⟨r, -, hgt, -⟩
          · exact ⟨hi, hsp⟩
          · exact ⟨hi, hsp⟩
          · rw [hsp.pend] at hgt
            have := gate_spent _ _ _ _ hk hgt
            omega
        · rw [hi] at hp; cases hp
        · right
          refine ⟨by rw [hp, hi], ?_⟩
          simp only [step, hj, if_true] at hs
          split at hs
          · cases hs; exact hsp
          · cases hs; exact hsp.congr rfl rfl rfl rfl
        · exact .inl hp

/-- An array or tuple combinator that completed because all its subfutures finished panics when it
is polled again, and polls nothing. Missing from the full claim: vectors, and combinators that
returned early; both are refuted below. -/
theorem repoll_panics_partial (g : Cfg V S O) (n : Nat) (hn : 0 < n) (hk : g.kind ≠ .vec)
    (tr : List (Entry V S O W)) (c c' : Comb g.kind.impl.σ S W) (h : Run g n tr c) (o : O) (ss : List S)
    (hss : ss ≠ []) (hr : ∃ e ∈ tr, .retReady o ss ∈ e.2) (w : W) (out : List (Effect S O W))
    (hs : step g c (.poll w) = some (c', out)) : out = [.panicked] := by
  have hg := (run_good g n tr c h).1
  have hcn := (run_good g n tr c h).2
  rcases spent_persists g n hn hk tr c h o ss hss hr with hd | ⟨-, hsp⟩
  · simp [step, hd] at hs
  · rcases step_forms g c c' _ out hg hs with ⟨w', -, -, hy⟩ | ⟨j, rest, ro, he, -⟩ | ⟨j, he, -⟩ | ⟨he, -⟩
    · rcases hy with ⟨hgt, -⟩ | ⟨-, -, rfl⟩ | ⟨r, -, hgt, -⟩
      · rw [hsp.pend] at hgt
        exact absurd hgt (gate_spent_pend _ _ _ _ hk (by omega))
      · rfl
      · rw [hsp.pend] at hgt
        have := gate_spent _ _ _ _ hk hgt
        omega
    · cases he
    · cases he
    · cases he

example : ∃ tr c, Run (W := Nat) (joinCfg .array false Nat) 2 tr c ∧
    (∃ e ∈ tr, .retReady [5, 7] [5, 7] ∈ e.2) ∧ ∃ c' out, step (joinCfg .array false Nat) c (.poll 3) = some (c', out) := by
  obtain ⟨c, h⟩ := run_of_trace (W := Nat) (joinCfg .array false Nat) 2
    [.poll 0, .sub 0 (.ready 5), .sub 1 (.ready 7), .wake 1] _ rfl
  obtain ⟨c', h'⟩ := run_of_trace (W := Nat) (joinCfg .array false Nat) 2
    [.poll 0, .sub 0 (.ready 5), .sub 1 (.ready 7), .wake 1, .poll 3] _ rfl
  obtain ⟨c0, h0, hs⟩ := run_cons_inv h'
  exact ⟨_, c0, h0, by decide, _, _, hs⟩

/-- Refutation for vectors: with debug assertions off, a completed join over a vector completes
again, with an empty output. -/
theorem repoll_vec_ready_again : ∃ tr c, Run (W := Nat) (joinCfg .vec false Nat) 1 tr c ∧
    (∃ e ∈ tr, .retReady [7] [7] ∈ e.2) ∧ (∃ e ∈ tr, .retReady [] [] ∈ e.2) ∧
    ∀ e ∈ tr, .panicked ∉ e.2 := by
  obtain ⟨c, h⟩ := run_of_trace (W := Nat) (joinCfg .vec false Nat) 1
    [.poll 0, .sub 0 (.ready 7), .poll 0] _ rfl
  exact ⟨_, c, h, by decide, by decide, by decide⟩

/-- Refutation for vectors: in every build a completed join over a vector polls a completed
subfuture again when that subfuture's waker has been woken. -/
theorem repoll_vec_polls_finished (dbg : Bool) : ∃ tr e out c,
    Run (W := Nat) (joinCfg .vec dbg Nat) 1 ((e, out) :: tr) c ∧
    (∃ e ∈ tr, .retReady [7] [7] ∈ e.2) ∧ Finished tr 0 ∧ out = [.subPoll 0] := by
  cases dbg
  · obtain ⟨c, h⟩ := run_of_trace (W := Nat) (joinCfg .vec false Nat) 1
      [.poll 0, .sub 0 (.ready 7), .wake 0, .poll 0] _ rfl
    exact ⟨_, _, _, c, h, by decide, by decide, rfl⟩
  · obtain ⟨c, h⟩ := run_of_trace (W := Nat) (joinCfg .vec true Nat) 1
      [.poll 0, .sub 0 (.ready 7), .wake 0, .poll 0] _ rfl
    exact ⟨_, _, _, c, h, by decide, by decide, rfl⟩

/-- Refutation for combinators that return early, in every implementation and build: a completed
race that is polled again polls the subfuture that won again when its waker has been woken. -/
theorem repoll_race_polls_finished (k : Kind) (dbg : Bool) : ∃ tr e out c,
    Run (W := Nat) (raceCfg k dbg Nat) 2 ((e, out) :: tr) c ∧
    (∃ e ∈ tr, .retReady 7 [] ∈ e.2) ∧ Finished tr 0 ∧ out = [.subPoll 0] := by
  have key : ∀ k dbg, ∃ tr, traceOf (W := Nat) (raceCfg k dbg Nat) 2
      [.poll 0, .sub 0 (.ready 7), .wake 0, .poll 0] = some tr ∧
      ∃ e out tr', tr = (e, out) :: tr' ∧
      (∃ e ∈ tr', .retReady 7 [] ∈ e.2) ∧ Finished tr' 0 ∧ out = [.subPoll 0] := by
    intro k dbg
    cases k <;> cases dbg <;>
      exact ⟨_, rfl, _, _, _, rfl, by decide, by decide, rfl⟩
  obtain ⟨tr, h, e, out, tr', rfl, h'⟩ := key k dbg
  obtain ⟨c, hr⟩ := run_of_trace _ _ _ _ h
  exact ⟨tr', e, out, c, hr, h'⟩

/-! ### C18: stored outputs -/

/-- Whatever happens, also after panics and after completion: no uninitialised slot is read and no
stored output is overwritten. -/
theorem no_memory_error (g : Cfg V S O) (n : Nat) (tr : List (Entry V S O W))
    (c : Comb g.kind.impl.σ S W) (h : Run g n tr c) :
    ∀ e ∈ tr, .ub ∉ e.2 ∧ ∀ s, .leaked s ∉ e.2 := by
  induction h with
  | nil => simp
  | @cons tr c e c' out hr hs ih =>
    intro x hx
    rcases List.mem_cons.1 hx with rfl | hx
    · exact (step_good g c c' e out (run_good g n tr c hr).1 hs).2.2
    · exact ih x hx

theorem conserved (g : Cfg V S O) (n : Nat) (tr : List (Entry V S O W))
    (c : Comb g.kind.impl.σ S W) (h : Run g n tr c) :
    (kept g.beh tr).Perm (live c ++ released tr) := by
  induction h with
  | nil => simp [kept, released, live, Comb.new]
  | @cons tr c e c' out hr hs ih =>
    have h1 := (step_good g c c' e out (run_good g n tr c hr).1 hs).2.1
    have e1 : kept g.beh ((e, out) :: tr) = keptBy g.beh e ++ kept g.beh tr := by
      unfold kept keptBy
      rw [List.filterMap_cons]
      cases e with
      | sub i ro =>
        cases ro with
        | ready v => cases hb : g.beh.maybeReturn v <;> simp [hb]
        | _ => simp
      | _ => simp
    have e2 : released ((e, out) :: tr) = releasedBy out ++ released tr := by
      simp only [released, releasedBy, List.flatMap_cons]
      rfl
    rw [e1, e2, ← List.append_assoc]
    refine (List.Perm.append_left _ ih).trans ?_
    rw [← List.append_assoc]
    exact List.Perm.append_right _ h1.symm

/-- At every moment each output kept for later has been released (moved into the returned value or
dropped) at most once. -/
theorem released_at_most_once (g : Cfg V S O) (n : Nat) (tr : List (Entry V S O W))
    (c : Comb g.kind.impl.σ S W) (h : Run g n tr c) :
    ∃ rest, (kept g.beh tr).Perm (rest ++ released tr) := ⟨live c, conserved g n tr c h⟩

/-- Once the combinator has been dropped, each output kept for later has been released exactly
once. -/
theorem released_exactly_once (g : Cfg V S O) (n : Nat) (tr : List (Entry V S O W))
    (c : Comb g.kind.impl.σ S W) (h : Run g n tr c) (hd : ∃ e ∈ tr, e.1 = .drop) :
    (kept g.beh tr).Perm (released tr) := by
  have hc := conserved g n tr c h
  have : c.phase = .dropped := by
    clear hc
    induction h with
    | nil => simp at hd
    | @cons tr c e c' out hr hs ih =>
      have hg := (run_good g n tr c hr).1
      obtain ⟨x, hx, he⟩ := hd
      rcases List.mem_cons.1 hx with rfl | hx
      · simp only at he; subst he
        rcases step_forms g c c' _ out hg hs with ⟨w, he, -⟩ | ⟨j, rest, ro, he, -⟩ | ⟨j, he, -⟩ | ⟨-, -, hp, -⟩
        · cases he
        · cases he
        · cases he
        · exact hp
      · have hd' := ih ⟨x, hx, he⟩
        rcases step_forms g c c' _ out hg hs with ⟨w, -, hp, -⟩ | ⟨j, rest, ro, -, hp, -⟩ | ⟨j, -, -, hp, -⟩ | ⟨-, -, hp, -⟩
        · rw [hd'] at hp; cases hp
        · rw [hd'] at hp; cases hp
        · rw [hp, hd']
        · exact hp
  have hl : live c = [] := by
    rcases (run_good g n tr c h).1.mode with hm | ⟨hp, -⟩
    · exact filterMap_id_none hm.items
    · exact absurd this hp
  rw [hl] at hc
  exact hc

/-- Two outputs are kept, then the join is dropped: both are dropped. -/
example : ∃ tr c, Run (W := Nat) (joinCfg .vec true Nat) 3 tr c ∧ (∃ e ∈ tr, e.1 = .drop) ∧
    kept (joinB Nat) tr = [9, 7] ∧ released tr = [7, 9] := by
  obtain ⟨c, h⟩ := run_of_trace (W := Nat) (joinCfg .vec true Nat) 3
    [.poll 0, .sub 0 (.ready 7), .sub 1 .pending, .sub 2 (.ready 9), .drop] _ rfl
  exact ⟨_, c, h, by decide, by decide, by decide⟩

/-- An output that is not kept is returned in the same step. -/
theorem not_kept_is_returned (g : Cfg V S O) (n : Nat) (tr : List (Entry V S O W)) (i : Nat) (v : V) (o : O)
    (out : List (Effect S O W)) (c : Comb g.kind.impl.σ S W) (hb : g.beh.maybeReturn v = .inr o)
    (h : Run g n ((.sub i (.ready v), out) :: tr) c) : out = [.retReady o []] := by
  match run_cons_inv h with
  | ⟨c0, hr, hs⟩ =>
    have hg := (run_good g n tr c0 hr).1
    rcases step_forms g c0 c _ out hg hs with ⟨w, he, -⟩ | ⟨j, rest, ro, he, -, -, hx⟩ | ⟨j, he, -⟩ | ⟨he, -⟩
    · cases he
    · cases he
      rcases hx with ⟨he, -⟩ | ⟨he, -⟩ | ⟨v', o', he, hb', -, rfl⟩ | ⟨v', s, he, hb', -⟩ | ⟨v', s, he, hb', -⟩
      · cases he
      · cases he
      · cases he
        rw [hb] at hb'; cases hb'; rfl
      · cases he; rw [hb] at hb'; cases hb'
      · cases he; rw [hb] at hb'; cases hb'
    · cases he
    · cases he

example : ∃ tr out c, (tryJoinB Nat Nat).maybeReturn (.error 7) = .inr (.error 7) ∧
    Run (W := Nat) (tryJoinCfg .array true Nat Nat) 2 ((.sub 1 (.ready (.error 7)), out) :: tr) c := by
  obtain ⟨c, h⟩ := run_of_trace (W := Nat) (tryJoinCfg .array true Nat Nat) 2
    [.poll 0, .sub 0 (.ready (.ok 1)), .sub 1 (.ready (.error 7))] _ rfl
  exact ⟨_, _, c, rfl, h⟩

end Verif.Comb
