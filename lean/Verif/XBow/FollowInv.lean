import Verif.XBow.Follow
import Verif.XBow.Props
import Verif.XBow.DataProps
/-! Invariant of the futures that follow data. -/
namespace Verif.XBow
open Data (Data Layer getOpt setOpt)

variable {hash : Path → BitVec 64} {enc : Layer → Seg}

theorem Run.append {s s1 s2 : Sys} {h g : Trace} (h1 : Run hash s h s1) (h2 : Run hash s1 g s2) :
    Run hash s (h ++ g) s2 := by
  induction h1 with
  | nil s => exact h2
  | cons e _ ih => exact .cons e (ih h2)

theorem Run.one {s s' : Sys} {op : Op} {o : Out} (h : step hash s op = some (s', o)) :
    Run hash s [(op, o)] s' := .cons h (.nil _)

theorem pollUntilChange_eq {s s' : Sys} {i : Nat} {w : Waker} {tr : Trace} {first ready : Bool}
    (h : pollUntilChange hash s i w = some (s', tr, first, ready)) :
    ∃ l, s.listeners[i]? = some (some l) ∧ step hash s (.poll i w) = some (s', .polled ready) ∧
      tr = [(.poll i w, .polled ready)] ∧ first = !l.hasBeenPolled := by
  simp only [pollUntilChange] at h
  split at h
  · rename_i l hl
    split at h
    · rename_i s1 r hs
      cases h
      exact ⟨l, hl, hs, rfl, rfl⟩
    · cases h
  · cases h

theorem pollForEach_eq {s : World} {p : List Layer} {i : Nat} {w : Waker} {r : Res}
    (h : pollForEach hash s p i w = some r) :
    ∃ sys tr first ready, pollUntilChange hash s.sys i w = some (sys, tr, first, ready) ∧
      r = ⟨⟨sys, s.data, s.running⟩, tr, .called (if first || ready then getOpt p s.data else none)⟩ := by
  simp only [pollForEach] at h
  cases e : pollUntilChange hash s.sys i w with
  | none => rw [e] at h; cases h
  | some x =>
    obtain ⟨sys, tr, first, ready⟩ := x
    rw [e] at h; cases h
    exact ⟨sys, tr, first, ready, rfl, rfl⟩

theorem write_eq {s : World} {p : List Layer} {v : Data} {o : Option (World × Trace)}
    (h : write hash enc s p v = some o) :
    (setOpt p v s.data = none ∧ o = none) ∨ ∃ d sys out, setOpt p v s.data = some d ∧
      step hash s.sys (.change (p.map enc)) = some (sys, out) ∧
      o = some (⟨sys, d, s.running⟩, [(.change (p.map enc), out)]) := by
  simp only [write] at h
  cases e : setOpt p v s.data with
  | none => rw [e] at h; cases h; exact .inl ⟨rfl, rfl⟩
  | some d =>
    rw [e] at h
    simp only at h
    cases e2 : step hash s.sys (.change (p.map enc)) with
    | none => rw [e2] at h; cases h
    | some x =>
      obtain ⟨sys, out⟩ := x
      rw [e2] at h; cases h
      exact .inr ⟨d, sys, out, rfl, rfl, rfl⟩

/-- What a poll of a binding does, by cases. -/
theorem pollBind_eq {s : World} {p : List Layer} {i : Nat} {w : Waker} {items : List Data} {ends : Bool}
    {r : Res} (h : pollBind hash enc s p i w items ends = some r) :
    (ends = true ∧ r = ⟨s, [], .done⟩) ∨
    (ends = false ∧ items = [] ∧ pollForEach hash s p i w = some r) ∨
    (ends = false ∧ ∃ v, items.getLast? = some v ∧ setOpt p v s.data = none ∧ r = ⟨s, [], .done⟩) ∨
    (ends = false ∧ ∃ v d sys out sys2 tr2 f rd r2, items.getLast? = some v ∧ setOpt p v s.data = some d ∧
      step hash s.sys (.change (p.map enc)) = some (sys, out) ∧
      pollUntilChange hash sys i w = some (sys2, tr2, f, rd) ∧
      pollForEach hash ⟨sys2, d, s.running⟩ p i w = some r2 ∧
      r = ⟨r2.world, [(.change (p.map enc), out)] ++ tr2 ++ r2.trace, r2.effect⟩) := by
  simp only [pollBind] at h
  cases ends with
  | true => cases h; exact .inl ⟨rfl, rfl⟩
  | false =>
    simp only [Bool.false_eq_true, if_false] at h
    cases e : items.getLast? with
    | none =>
      rw [e] at h
      exact .inr (.inl ⟨rfl, List.getLast?_eq_none_iff.1 e, h⟩)
    | some v =>
      rw [e] at h
      simp only at h
      cases e1 : write hash enc s p v with
      | none => rw [e1] at h; cases h
      | some o =>
        rw [e1] at h
        rcases write_eq e1 with ⟨h1, rfl⟩ | ⟨d, sys, out, h1, h2, rfl⟩
        · cases h; exact .inr (.inr (.inl ⟨rfl, v, rfl, h1, rfl⟩))
        · simp only [Option.bind_eq_bind, Option.bind_some] at h
          cases e2 : pollUntilChange hash sys i w with
          | none => rw [e2] at h; cases h
          | some x =>
            obtain ⟨sys2, tr2, f, rd⟩ := x
            rw [e2] at h
            simp only [Option.bind_some] at h
            cases e3 : pollForEach hash ⟨sys2, d, s.running⟩ p i w with
            | none => rw [e3] at h; cases h
            | some r2 =>
              rw [e3] at h
              cases h
              exact .inr (.inr (.inr ⟨rfl, v, d, sys, out, sys2, tr2, f, rd, r2, rfl, h1, h2, e2, e3, rfl⟩))

theorem pollUntilChange_run {s s' : Sys} {i : Nat} {w : Waker} {tr : Trace} {first ready : Bool}
    (h : pollUntilChange hash s i w = some (s', tr, first, ready)) : Run hash s tr s' := by
  obtain ⟨l, _, h2, rfl, _⟩ := pollUntilChange_eq h
  exact .one h2

theorem pollForEachAsync_eq {s : World} {p : List Layer} {i : Nat} {w : Waker} {fin : Bool} {r : Res}
    (h : pollForEachAsync hash s p i w fin = some r) :
    ∃ sys tr first ready, pollUntilChange hash s.sys i w = some (sys, tr, first, ready) ∧
      r.world.sys = sys ∧ r.world.data = s.data ∧ r.trace = tr ∧
      ((∃ d, (first || ready) = true ∧ getOpt p s.data = some d ∧ r.effect = .async (s.running i) (some d) ∧
        r.world.running = fun j => if j = i then (if fin then none else some d) else s.running j) ∨
       (((first || ready) = false ∨ getOpt p s.data = none) ∧ r.effect = .async none (s.running i) ∧
        r.world.running = fun j => if j = i then (if fin then none else s.running i) else s.running j)) := by
  simp only [pollForEachAsync] at h
  cases e : pollUntilChange hash s.sys i w with
  | none => rw [e] at h; cases h
  | some x =>
    obtain ⟨sys, tr, first, ready⟩ := x
    rw [e] at h; cases h
    refine ⟨sys, tr, first, ready, rfl, rfl, rfl, rfl, ?_⟩
    cases hf : (first || ready) with
    | false => exact .inr ⟨.inl rfl, rfl, rfl⟩
    | true =>
      cases hg : getOpt p s.data with
      | none => exact .inr ⟨.inr rfl, rfl, rfl⟩
      | some d => exact .inl ⟨d, rfl, rfl, rfl, rfl⟩

theorem pollSignal_eq {s : World} {f : Bool} {p : List Layer} {i : Nat} {w : Waker} {r : Res}
    (h : pollSignal hash s f p i w = some r) :
    ∃ sys tr first ready, pollUntilChange hash s.sys i w = some (sys, tr, first, ready) ∧
      r = ⟨⟨sys, s.data, s.running⟩, tr,
        if (first && f) || ready then .yielded (getOpt p s.data) else .pending⟩ := by
  simp only [pollSignal] at h
  cases e : pollUntilChange hash s.sys i w with
  | none => rw [e] at h; cases h
  | some x =>
    obtain ⟨sys, tr, first, ready⟩ := x
    rw [e] at h; cases h
    exact ⟨sys, tr, first, ready, rfl, rfl⟩

theorem pollForEach_run {s : World} {p : List Layer} {i : Nat} {w : Waker} {r : Res}
    (h : pollForEach hash s p i w = some r) : Run hash s.sys r.trace r.world.sys := by
  obtain ⟨sys, tr, f, rd, h1, rfl⟩ := pollForEach_eq h
  exact pollUntilChange_run h1

/-- Every operation acts on the subscriptions as its trace says. -/
theorem wstep_sys {s : World} {op : WOp} {r : Res} (h : wstep hash enc s op = some r) :
    Run hash s.sys r.trace r.world.sys := by
  cases op with
  | sub op =>
    simp only [wstep] at h
    cases e : step hash s.sys op with
    | none => rw [e] at h; cases h
    | some x => obtain ⟨sys, o⟩ := x; rw [e] at h; cases h; exact .one e
  | write p v =>
    simp only [wstep] at h
    cases e : write hash enc s p v with
    | none => rw [e] at h; cases h
    | some o =>
      rw [e] at h
      rcases write_eq e with ⟨_, rfl⟩ | ⟨d, sys, out, _, h2, rfl⟩
      · cases h; exact .nil _
      · cases h; exact .one h2
  | writeQuietly p v =>
    simp only [wstep] at h
    split at h <;> cases h <;> exact .nil _
  | pollForEach p i w => exact pollForEach_run h
  | pollForEachAsync p i w f =>
    obtain ⟨sys, tr, f, rd, h1, e1, _, e2, _⟩ := pollForEachAsync_eq h
    rw [e1, e2]
    exact pollUntilChange_run h1
  | pollSignal f p i w =>
    obtain ⟨sys, tr, f, rd, h1, rfl⟩ := pollSignal_eq h
    exact pollUntilChange_run h1
  | pollBind p i w items ends =>
    rcases pollBind_eq h with ⟨_, rfl⟩ | ⟨_, _, h⟩ | ⟨_, v, _, _, rfl⟩ |
      ⟨_, v, d, sys, out, sys2, tr2, f, rd, r2, _, _, h3, h4, h5, rfl⟩
    · exact .nil _
    · exact pollForEach_run h
    · exact .nil _
    · exact ((Run.one h3).append (pollUntilChange_run h4)).append (pollForEach_run h5)

theorem WRun.sys {s s' : World} {h : List Event} (hr : WRun hash enc s h s') :
    Run hash s.sys (h.flatMap (·.trace)) s'.sys := by
  induction hr with
  | nil s => exact .nil _
  | cons e _ ih => exact (wstep_sys e).append ih

/-! ## the listener of a follower -/

structure Fol (hash : Path → BitVec 64) (ks : List Key) (s : Sys) (i : Nat) (l : Listener) (A : Abs) : Prop where
  wf : WF s A
  get : s.listeners[i]? = some (some l)
  keys : l.slots.map (·.1) = ks

theorem Fol.run {ks : List Key} {s s' : Sys} {i : Nat} {l : Listener} {tr : Trace} (hr : Run hash s tr s') :
    ∀ A, Fol hash ks s i l A → (∀ e ∈ tr, e.1.touches i = false) →
      ∃ A', Fol hash ks s' i l A' ∧ sumVer A' l.slots = sumVer A l.slots + hits hash tr l.slots := by
  induction hr with
  | nil s => intro A h _; exact ⟨A, h, by simp [hits]⟩
  | cons e _ ih =>
    rename_i s op out s1 h s2 _
    intro A hf ht
    obtain ⟨A1, hw1, hu, _⟩ := step_inv hf.wf e
    obtain ⟨hl1, hy⟩ := hu i l (ht _ List.mem_cons_self) hf.get
    obtain ⟨A2, hf2, hs⟩ := ih A1 ⟨hw1, hl1, hf.keys⟩ (fun e he => ht e (List.mem_cons_of_mem _ he))
    refine ⟨A2, hf2, ?_⟩
    have h1 : sumVer A1 l.slots = sumVer A l.slots + (l.slots.map fun y => (op.keys hash).count y.1).sum := by
      simp only [sumVer]
      rw [← sum_add]
      congr 1
      apply List.map_congr_left
      intro y hym
      obtain ⟨w, v, hv⟩ := mem_pairs.1 (hf.wf.mem hf.get y hym)
      rw [(hy y hym w v hv).1.ver hw1.sim.keys, hv.ver hf.wf.sim.keys]
    rw [hs, h1]
    simp only [hits, List.map_cons, List.sum_cons]
    omega

theorem Fol.poll {ks : List Key} {s s' : Sys} {i : Nat} {w : Waker} {tr : Trace} {first ready : Bool}
    {l : Listener} {A : Abs} (hf : Fol hash ks s i l A)
    (h : pollUntilChange hash s i w = some (s', tr, first, ready)) :
    (first = true ↔ l.lastVersion = 0) ∧
    (ready = true ↔ 1 ≤ l.lastVersion ∧ l.lastVersion ≠ sumVer A l.slots) ∧
    ∃ A', Fol hash ks s' i ⟨sumVer A l.slots, l.slots⟩ A' ∧ sumVer A' l.slots = sumVer A l.slots ∧
      1 ≤ sumVer A l.slots := by
  obtain ⟨l', hl', hst, rfl, rfl⟩ := pollUntilChange_eq h
  rw [hf.get] at hl'; cases hl'
  obtain ⟨A', hw', _, l', hl', hset, ho, hver, hhas⟩ := step_inv hf.wf hst
  rw [hf.get] at hl'; cases hl'
  cases ho
  have hlt : i < s.listeners.length := (List.getElem?_eq_some_iff.1 hf.get).1
  refine ⟨?_, by simp, A', ⟨hw', by rw [hset]; exact List.getElem?_set_self hlt, hf.keys⟩, ?_,
    sumVer_pos hf.wf hf.get⟩
  · simp [Listener.hasBeenPolled]
  · simp only [sumVer, hver]

/-- The last value that the user of the follower knows is the data, unless a change is pending that
the listener will report, or the data is missing. -/
def Sync (hash : Path → BitVec 64) (enc : Layer → Seg) (p : List Layer) (i : Nat) (s : World)
    (last : Option Data) : Prop :=
  ∃ A l, Fol hash ((visited (p.map enc)).map (regularKey hash)) s.sys i l A ∧
    (l.lastVersion = 0 ∨ l.lastVersion ≤ sumVer A l.slots ∧
      (l.lastVersion = sumVer A l.slots → ∀ v, getOpt p s.data = some v → last = some v))

theorem sync_create {p : List Layer} {s s' : Sys} {d : Data} {rn} {last : Option Data} {o : Out} {A : Abs}
    (hw : WF s A) (h : step hash s (.listen (p.map enc)) = some (s', o)) :
    Sync hash enc p s.listeners.length ⟨s', d, rn⟩ last := by
  obtain ⟨A1, hw1, _, l, h1, h2, h3⟩ := step_inv hw h
  exact ⟨A1, l, ⟨hw1, by rw [h1]; simp, h3⟩, .inl h2⟩

/-- The event changed `p` or a path that encloses `p`, and told the listeners. Paths are compared as
the hasher sees them. -/
def TellsAbout (enc : Layer → Seg) (p : List Layer) (e : Event) : Prop :=
  ∃ q o, q <+: p.map enc ∧ (Op.change q, o) ∈ e.trace

/-- The event told about a change of a path that encloses `p`, or left the data at `p` alone. -/
def Announced (enc : Layer → Seg) (p : List Layer) (e : Event) : Prop :=
  getOpt p e.after = getOpt p e.before ∨ TellsAbout enc p e

theorem sync_other {p : List Layer} {i : Nat} {s : World} {last : Option Data} {op : WOp} {r : Res}
    (hs : Sync hash enc p i s last) (h : wstep hash enc s op = some r)
    (ht : ∀ e ∈ r.trace, e.1.touches i = false)
    (ha : Announced enc p ⟨op, r.trace, r.effect, s.data, r.world.data⟩) :
    Sync hash enc p i r.world last := by
  obtain ⟨A, l, hf, hl⟩ := hs
  obtain ⟨A', hf', hv⟩ := Fol.run (wstep_sys h) A hf ht
  refine ⟨A', l, hf', ?_⟩
  rcases hl with hl | ⟨hle, hl⟩
  · exact .inl hl
  · refine .inr ⟨by omega, ?_⟩
    intro heq v hg
    rcases ha with ha | ⟨q, o, hq, hm⟩
    · simp only at ha
      rw [ha] at hg
      exact hl (by omega) v hg
    · exfalso
      have : 0 < hits hash r.trace l.slots := by
        rw [hits_pos]
        refine ⟨_, hm, regularKey hash q, ?_, by simp [Op.keys]⟩
        rw [hf.keys]
        exact List.mem_map_of_mem (mem_visited.2 hq)
      omega

theorem sync_poll {p : List Layer} {i : Nat} {s : World} {last : Option Data} {w : Waker} {sys : Sys}
    {tr : Trace} {first ready : Bool} {rn}
    (hs : Sync hash enc p i s last) (h : pollUntilChange hash s.sys i w = some (sys, tr, first, ready)) :
    (∀ known, (∀ v, getOpt p s.data = some v → known = some v) →
      Sync hash enc p i ⟨sys, s.data, rn⟩ known) ∧
    ((first || ready) = false → ∀ v, getOpt p s.data = some v → last = some v) := by
  obtain ⟨A, l, hf, hl⟩ := hs
  obtain ⟨h1, h2, A', hf', hv, hpos⟩ := hf.poll h
  refine ⟨fun known hk => ⟨A', _, hf', .inr ⟨by simp only; omega, fun _ => hk⟩⟩, ?_⟩
  intro hno
  rcases hl with hl | ⟨hle, hl⟩
  · rw [h1.2 hl] at hno; cases hno
  · have : l.lastVersion = sumVer A l.slots := by
      apply Classical.byContradiction
      intro hne
      by_cases h0 : l.lastVersion = 0
      · rw [h1.2 h0] at hno; cases hno
      · rw [h2.2 ⟨by omega, hne⟩, Bool.or_true] at hno; cases hno
    exact hl this

theorem sync_forEach {p : List Layer} {i : Nat} {s : World} {last : Option Data} {w : Waker} {r : Res}
    (hs : Sync hash enc p i s last) (h : pollForEach hash s p i w = some r) :
    ∃ c, r.effect = .called c ∧ r.world.data = s.data ∧ Sync hash enc p i r.world (c.or last) ∧
      ∀ v, getOpt p s.data = some v → c.or last = some v := by
  obtain ⟨sys, tr, first, ready, h1, rfl⟩ := pollForEach_eq h
  obtain ⟨k1, k2⟩ := sync_poll (rn := s.running) hs h1
  have key : ∀ v, getOpt p s.data = some v →
      (if first || ready then getOpt p s.data else none).or last = some v := by
    intro v hv
    cases hb : (first || ready) with
    | true => rw [if_pos rfl, hv]; rfl
    | false => simp only [Bool.false_eq_true, if_false, Option.none_or]; exact k2 hb v hv
  exact ⟨_, rfl, rfl, k1 _ key, key⟩

theorem sync_write {p : List Layer} {i : Nat} {s : World} {last : Option Data} {d : Data} {sys : Sys} {out : Out}
    (hs : Sync hash enc p i s last) (h2 : step hash s.sys (.change (p.map enc)) = some (sys, out)) (known : Option Data) :
    Sync hash enc p i ⟨sys, d, s.running⟩ known := by
  obtain ⟨A, l, hf, hl⟩ := hs
  obtain ⟨A', hf', hv⟩ := Fol.run (Run.one h2) A hf (by simp [Op.touches])
  refine ⟨A', l, hf', ?_⟩
  rcases hl with hl | ⟨hle, hl⟩
  · exact .inl hl
  · refine .inr ⟨by omega, ?_⟩
    intro heq
    exfalso
    have : 0 < hits hash [(Op.change (p.map enc), out)] l.slots := by
      rw [hits_pos]
      refine ⟨_, List.mem_cons_self, regularKey hash (p.map enc), ?_, by simp [Op.keys]⟩
      rw [hf.keys]
      exact List.mem_map_of_mem (mem_visited.2 (List.prefix_refl _))
    omega

end Verif.XBow
