import Verif.Live.Example
import Verif.XBow.FollowProps
/-!
# C53: apps that follow an x-bow store
-/
namespace Verif.Live
open XBow.Data (Data Layer getOpt setOpt)

section
variable {V S O : Type} {hash : XBow.Path → BitVec 64} {enc : Layer → XBow.Seg}

/-- The listener that was polled, and the waker. -/
def pollIn : XBow.Op × XBow.Out → Option (Nat × Nat)
  | (.poll i (some n), _) => some (i, n)
  | _ => none

def dummyIn : XBow.Op × XBow.Out → Bool
  | (.poll _ none, _) => true
  | _ => false

def wokenBy : XBow.Op × XBow.Out → List Nat
  | (_, .woken ws) => ws.filterMap id
  | _ => []

/-- The wakers woken by an operation on the store. -/
def wokenWakers (e : XBow.Event) : List Nat := e.trace.flatMap wokenBy

/-- A store with its data and the futures that follow it (`Verif.XBow.Follow`) as something to wait for. A
future is identified by its listener. Nobody polls with the dummy waker. -/
abbrev storeSource (hash : XBow.Path → BitVec 64) (enc : Layer → XBow.Seg) : Source where
  σ := XBow.World
  Op := XBow.WOp
  Out := XBow.Event
  step s op := match XBow.wstep hash enc s op with
    | some r => if r.trace.any dummyIn then none else some (r.world, ⟨op, r.trace, r.effect, s.data, r.world.data⟩)
    | none => none
  wakes := wokenWakers
  Key := Nat
  dec := inferInstance
  polls _ e := e.trace.findSome? pollIn
  drops
    | .sub (.drop i) => some i
    | _ => none

/-- The operation makes a listener. -/
def makes (e : XBow.Event) : Bool :=
  match e.op with
  | .sub (.listen _) => true
  | .sub (.listenBubbling _) => true
  | _ => false

/-- A future on the path `p` was made, with listener number `i`; `h` is what has happened since. -/
def Follows (enc : Layer → XBow.Seg) (p : List Layer) (i : Nat) (hist h : List XBow.Event) : Prop :=
  ∃ pre e, hist = pre ++ e :: h ∧ e.op = .sub (.listen (p.map enc)) ∧ i = (pre.filter makes).length

theorem store_step {s s' : XBow.World} {op : XBow.WOp} {e : XBow.Event}
    (h : (storeSource hash enc).step s op = some (s', e)) : ∃ r, XBow.wstep hash enc s op = some r ∧
      r.trace.any dummyIn = false ∧ s' = r.world ∧ e = ⟨op, r.trace, r.effect, s.data, r.world.data⟩ := by
  simp only [storeSource] at h
  split at h
  · next r hr =>
    split at h
    · cases h
    · next hd => cases h; exact ⟨r, hr, by simpa using hd, rfl, rfl⟩
  · cases h

theorem wrun_append {s s1 s2 : XBow.World} {h h' : List XBow.Event} (h1 : XBow.WRun hash enc s h s1)
    (h2 : XBow.WRun hash enc s1 h' s2) : XBow.WRun hash enc s (h ++ h') s2 := by
  induction h1 with
  | nil => exact h2
  | cons e _ ih => exact .cons e (ih h2)

theorem wrun_split {h h' : List XBow.Event} {s s2 : XBow.World} (hr : XBow.WRun hash enc s (h ++ h') s2) :
    ∃ s1, XBow.WRun hash enc s h s1 ∧ XBow.WRun hash enc s1 h' s2 := by
  induction h generalizing s with
  | nil => exact ⟨s, .nil s, hr⟩
  | cons x h ih =>
    cases hr with
    | cons e hr =>
      obtain ⟨s1, h1, h2⟩ := ih hr
      exact ⟨s1, .cons e h1, h2⟩

theorem xrun_split {h h' : List (XBow.Op × XBow.Out)} {s s2 : XBow.Sys} (hr : XBow.Run hash s (h ++ h') s2) :
    ∃ s1, XBow.Run hash s h s1 ∧ XBow.Run hash s1 h' s2 := by
  induction h generalizing s with
  | nil => exact ⟨s, .nil s, hr⟩
  | cons x h ih =>
    cases hr with
    | cons e hr =>
      obtain ⟨s1, h1, h2⟩ := ih hr
      exact ⟨s1, .cons e h1, h2⟩

theorem store_hist {s s' : (storeSource hash enc).σ} {h : List ((storeSource hash enc).Op × (storeSource hash enc).Out)}
    (hh : Hist (storeSource hash enc) s h s') :
    XBow.WRun hash enc s (h.map (·.2)) s' ∧ ∀ e ∈ h, e.2.trace.any dummyIn = false := by
  induction hh with
  | nil => exact ⟨.nil _, by simp⟩
  | snoc _ hs ih =>
    obtain ⟨r, h1, h2, rfl, rfl⟩ := store_step hs
    refine ⟨?_, ?_⟩
    · rw [List.map_append]
      exact wrun_append ih.1 (.cons h1 (.nil _))
    · intro e he
      rcases List.mem_append.1 he with he | he
      · exact ih.2 e he
      · simp only [List.mem_singleton] at he
        subst he
        exact h2

/-- How many listeners an operation on the subscriptions makes. -/
def opMakes : XBow.Op → Nat
  | .listen _ => 1
  | .listenBubbling _ => 1
  | _ => 0

theorem step_len {s s' : XBow.Sys} {op : XBow.Op} {o : XBow.Out} (h : XBow.step hash s op = some (s', o)) :
    s'.listeners.length = s.listeners.length + opMakes op := by
  cases op with
  | listen p =>
    simp only [XBow.step, Option.bind_eq_bind, Option.bind_eq_some_iff, Option.pure_def, Option.some.injEq,
      Prod.mk.injEq] at h
    obtain ⟨_, _, rfl, _⟩ := h
    simp [opMakes]
  | listenBubbling p =>
    simp only [XBow.step, Option.bind_eq_bind, Option.bind_eq_some_iff, Option.pure_def, Option.some.injEq,
      Prod.mk.injEq] at h
    obtain ⟨_, _, rfl, _⟩ := h
    simp [opMakes]
  | poll i w =>
    simp only [XBow.step] at h
    split at h
    · simp only [Option.bind_eq_bind, Option.bind_eq_some_iff, Option.pure_def, Option.some.injEq,
        Prod.mk.injEq] at h
      obtain ⟨_, _, rfl, _⟩ := h
      simp [opMakes]
    · cases h
  | drop i =>
    simp only [XBow.step] at h
    split at h
    · simp only [Option.bind_eq_bind, Option.bind_eq_some_iff, Option.pure_def, Option.some.injEq,
        Prod.mk.injEq] at h
      obtain ⟨_, _, rfl, _⟩ := h
      simp [opMakes]
    · cases h
  | change p =>
    simp only [XBow.step, Option.bind_eq_bind, Option.bind_eq_some_iff, Option.pure_def, Option.some.injEq,
      Prod.mk.injEq] at h
    obtain ⟨_, _, rfl, _⟩ := h
    simp [opMakes]

theorem xrun_len {s s' : XBow.Sys} {tr : XBow.Trace} (hr : XBow.Run hash s tr s') :
    s'.listeners.length = s.listeners.length + (tr.map fun x => opMakes x.1).sum := by
  induction hr with
  | nil => simp
  | cons e _ ih =>
    rw [ih, step_len e]
    simp only [List.map_cons, List.sum_cons]
    omega

theorem trace_makes {s : XBow.World} {op : XBow.WOp} {r : XBow.Res} (h : XBow.wstep hash enc s op = some r) :
    (r.trace.map fun x => opMakes x.1).sum =
      if makes ⟨op, r.trace, r.effect, s.data, r.world.data⟩ then 1 else 0 := by
  have hpoll : ∀ {s s' : XBow.Sys} {i : Nat} {w : XBow.Waker} {tr : XBow.Trace} {f rd : Bool},
      XBow.pollUntilChange hash s i w = some (s', tr, f, rd) → (tr.map fun x => opMakes x.1).sum = 0 := by
    intro s s' i w tr f rd h
    obtain ⟨_, _, _, rfl, _⟩ := XBow.pollUntilChange_eq h
    rfl
  cases op with
  | sub op =>
    simp only [XBow.wstep] at h
    cases e : XBow.step hash s.sys op with
    | none => rw [e] at h; cases h
    | some x => obtain ⟨sys, o⟩ := x; rw [e] at h; cases h; cases op <;> rfl
  | write p v =>
    simp only [XBow.wstep] at h
    cases e : XBow.write hash enc s p v with
    | none => rw [e] at h; cases h
    | some o =>
      rw [e] at h
      rcases XBow.write_eq e with ⟨_, rfl⟩ | ⟨d, sys, out, _, h2, rfl⟩
      · cases h; rfl
      · cases h; rfl
  | writeQuietly p v =>
    simp only [XBow.wstep] at h
    split at h <;> cases h <;> rfl
  | pollForEach p i w =>
    obtain ⟨sys, tr, f, rd, h1, rfl⟩ := XBow.pollForEach_eq h
    exact hpoll h1
  | pollForEachAsync p i w f =>
    obtain ⟨sys, tr, f, rd, h1, e1, _, e2, _⟩ := XBow.pollForEachAsync_eq h
    rw [e2]
    exact hpoll h1
  | pollSignal f p i w =>
    obtain ⟨sys, tr, f, rd, h1, rfl⟩ := XBow.pollSignal_eq h
    exact hpoll h1
  | pollBind p i w items ends =>
    rcases XBow.pollBind_eq h with ⟨_, rfl⟩ | ⟨_, _, h⟩ | ⟨_, v, _, _, rfl⟩ |
      ⟨_, v, d, sys, out, sys2, tr2, f, rd, r2, _, _, h3, h4, h5, rfl⟩
    · rfl
    · obtain ⟨sys, tr, f, rd, h1, rfl⟩ := XBow.pollForEach_eq h
      exact hpoll h1
    · rfl
    · obtain ⟨sys, tr, f, rd, h1, rfl⟩ := XBow.pollForEach_eq h5
      simp only [List.map_append, List.sum_append, hpoll h1, hpoll h4]
      rfl

theorem wrun_len {s s' : XBow.World} {h : List XBow.Event} (hr : XBow.WRun hash enc s h s') :
    s'.sys.listeners.length = s.sys.listeners.length + (h.filter makes).length := by
  induction hr with
  | nil => simp
  | cons e _ ih =>
    rw [ih, xrun_len (XBow.wstep_sys e), trace_makes e]
    simp only [List.filter_cons]
    split <;> simp <;> omega

/-- A future whose listener is polled exists. -/
theorem polled_exists {s s' : XBow.Sys} {tr : XBow.Trace} (hr : XBow.Run hash s tr s') {i : Nat} {w : XBow.Waker}
    {o : XBow.Out} (hm : (.poll i w, o) ∈ tr) : i < s'.listeners.length := by
  obtain ⟨a, b, rfl⟩ := List.append_of_mem hm
  obtain ⟨s1, r1, r2⟩ := xrun_split hr
  cases r2 with
  | cons e r2 =>
  have h1 : i < s1.listeners.length := by
    simp only [XBow.step] at e
    split at e
    · next l hl => exact (List.getElem?_eq_some_iff.1 hl).1
    · cases e
  have h2 := step_len e
  have h3 := xrun_len r2
  omega

/-- The poll since which an awaited future has not been woken. -/
theorem told_follower {d : Data} {hist : List (XBow.WOp × XBow.Event)} {s : XBow.World} {i : Nat}
    (ht : Told (storeSource hash enc) (XBow.World.init d) hist s i) {p : List Layer}
    {h' : List XBow.Event} (hf : Follows enc p i (hist.map (·.2)) h') (own : XBow.WOp → Prop)
    (hn : ∀ e ∈ h', own e.op ∨ (XBow.Leaves i e ∧ XBow.Announced enc p e))
    (hown : ∀ s op r, XBow.wstep hash enc s op = some r → own op → ∃ wk b, r.trace = [(.poll i wk, .polled b)]) :
    ∃ h1 mid s1 op r, h' = h1 ++ ⟨op, r.trace, r.effect, s1.data, r.world.data⟩ :: mid ∧
      XBow.Created hash enc p i h1 s1 ∧ XBow.wstep hash enc s1 op = some r ∧ own op ∧
      XBow.WRun hash enc r.world mid s ∧
      ∀ e ∈ mid, XBow.Leaves i e ∧ getOpt p e.after = getOpt p e.before := by
  obtain ⟨n, pre, mid, o, out, hh, hp, hhist, hmid, hwk⟩ := ht
  obtain ⟨hrun, hdum⟩ := store_hist hhist
  obtain ⟨pre', e0, hh', he0, hi⟩ := hf
  obtain ⟨⟨op1, o1⟩, hx, hpx⟩ := List.exists_of_findSome?_eq_some hp
  have hx' : op1 = .poll i (some n) := by
    simp only [pollIn] at hpx
    split at hpx
    · next heq => cases hpx; cases heq; rfl
    · cases hpx
  subst hx'
  rw [hh'] at hrun
  obtain ⟨s0, r0, r1⟩ := wrun_split hrun
  have hlen := wrun_len r0
  have hinit : (XBow.World.init d).sys.listeners.length = 0 := rfl
  rw [hinit, Nat.zero_add, ← hi] at hlen
  have hsplit : pre.map (·.2) ++ out :: mid.map (·.2) = pre' ++ e0 :: h' := by
    rw [← hh', hh, List.map_append, List.map_cons]
  -- where the poll is
  have hwhere : ∃ h1, h' = h1 ++ out :: mid.map (·.2) := by
    rcases List.append_eq_append_iff.1 hsplit with ⟨a, ha1, ha2⟩ | ⟨a, ha1, ha2⟩
    · -- the poll is before the future is made
      cases a with
      | nil =>
        simp only [List.nil_append, List.cons.injEq] at ha2
        obtain ⟨rfl, -⟩ := ha2
        exfalso
        cases r1 with
        | cons e r1 =>
        simp only at he0
        subst he0
        simp only [XBow.wstep] at e
        cases e2 : XBow.step hash s0.sys (.listen (p.map enc)) with
        | none => rw [e2] at e; cases e
        | some x => obtain ⟨sys, o⟩ := x; rw [e2] at e; cases e; simp at hx
      | cons x a =>
        simp only [List.cons_append, List.cons.injEq] at ha2
        obtain ⟨rfl, -⟩ := ha2
        exfalso
        rw [ha1] at r0
        obtain ⟨s2, r2, r3⟩ := wrun_split r0
        cases r3 with
        | cons e r3 =>
        have h3 := polled_exists (XBow.wstep_sys e) hx
        have h4 := wrun_len r3
        omega
    · cases a with
      | nil =>
        simp only [List.nil_append, List.cons.injEq] at ha2
        obtain ⟨rfl, -⟩ := ha2
        exfalso
        cases r1 with
        | cons e r1 =>
        simp only at he0
        subst he0
        simp only [XBow.wstep] at e
        cases e2 : XBow.step hash s0.sys (.listen (p.map enc)) with
        | none => rw [e2] at e; cases e
        | some x => obtain ⟨sys, o⟩ := x; rw [e2] at e; cases e; simp at hx
      | cons x a =>
        simp only [List.cons_append, List.cons.injEq] at ha2
        exact ⟨a, ha2.2⟩
  obtain ⟨h1, rfl⟩ := hwhere
  cases r1 with
  | cons e1 r1 =>
  rename_i op0 rr0
  simp only at he0
  subst he0
  obtain ⟨s1, r2, r3⟩ := wrun_split r1
  have hcr : XBow.Created hash enc p i h1 s1 := ⟨d, pre', s0, rr0, r0, hlen.symm, e1, r2⟩
  cases r3 with
  | cons e3 r3 =>
  rename_i op2 rr2
  have hnotL : ¬ XBow.Leaves i ⟨op2, rr2.trace, rr2.effect, s1.data, rr2.world.data⟩ := by
    intro hl
    have := hl _ hx
    simp [XBow.Op.touches] at this
  have hop2 : own op2 := by
    rcases hn _ (List.mem_append_right _ (.head _)) with h4 | h4
    · exact h4
    · exact (hnotL h4.1).elim
  obtain ⟨wk, b, htr⟩ := hown _ _ _ e3 hop2
  rw [htr] at hx
  simp only [List.mem_singleton, Prod.mk.injEq, XBow.Op.poll.injEq, true_and] at hx
  obtain ⟨rfl, -⟩ := hx
  have hleaves : ∀ e ∈ mid.map (·.2), XBow.Leaves i e ∧ XBow.Announced enc p e := by
    intro e he
    rcases hn _ (List.mem_append_right _ (.tail _ he)) with h4 | h4
    · exfalso
      obtain ⟨a, b', hab⟩ := List.append_of_mem he
      rw [hab] at r3
      obtain ⟨s4, _, r4⟩ := wrun_split r3
      obtain ⟨⟨o', e'⟩, he', rfl⟩ := List.mem_map.1 he
      cases r4 with
      | cons e4 r4 =>
      obtain ⟨wk, b2, htr2⟩ := hown _ _ _ e4 h4
      have hd := hdum _ (by rw [hh]; exact List.mem_append_right _ (.tail _ he'))
      simp only [htr2, List.any_cons, List.any_nil, Bool.or_false] at hd
      cases wk with
      | none => simp [dummyIn] at hd
      | some m =>
        refine (hmid _ he').1 m ?_
        simp only [storeSource, htr2, List.findSome?_cons, pollIn]
    · exact h4
  refine ⟨h1, _, s1, op2, rr2, rfl, hcr, e3, hop2, r3, ?_⟩
  intro e he
  obtain ⟨hl, ha⟩ := hleaves e he
  refine ⟨hl, ?_⟩
  rcases ha with ha | ⟨q, o', hq, hmem⟩
  · exact ha
  exfalso
  -- the change would have woken the waker
  obtain ⟨a, b', hab⟩ := List.append_of_mem he
  obtain ⟨ta, tb, htab⟩ := List.append_of_mem hmem
  have hsys := r3.sys
  have hflat : (mid.map (·.2)).flatMap (·.trace) = (a.flatMap (·.trace) ++ ta) ++ (.change q, o') :: (tb ++ b'.flatMap (·.trace)) := by
    rw [hab, List.flatMap_append, List.flatMap_cons, htab]
    simp [List.append_assoc]
  rw [hflat] at hsys
  obtain ⟨s5, r5, r6⟩ := xrun_split hsys
  have hl5 : ∀ x ∈ a.flatMap (·.trace) ++ ta, x.1.touches i = false := by
    intro x hx
    rcases List.mem_append.1 hx with hx | hx
    · obtain ⟨e5, he5, hx⟩ := List.mem_flatMap.1 hx
      exact (hleaves e5 (by rw [hab]; exact List.mem_append_left _ he5)).1 x hx
    · exact hl x (by rw [htab]; exact List.mem_append_left _ hx)
  have hst : XBow.step hash s1.sys (.poll i (some n)) = some (rr2.world.sys, .polled b) := by
    have := XBow.wstep_sys e3
    rw [htr] at this
    cases this with
    | cons e6 r7 => cases r7; exact e6
  obtain ⟨d', pre'', s0', rr, A, o6, hpre, _, hi6, hc6, _, _, hr6⟩ := hcr.wf
  have hwatch : XBow.Watch hash (.listen (p.map enc)) i (some n) (a.flatMap (·.trace) ++ ta) s5 :=
    ⟨_, _, s0'.sys, rr.world.sys, s1.sys, rr2.world.sys, o6, _, hpre.sys, hi6, hc6, hr6.sys, hst, r5, hl5⟩
  cases r6 with
  | cons e7 r7 =>
  obtain ⟨ws, rfl, hws⟩ := XBow.change_wakes_below hwatch hq e7
  obtain ⟨⟨o8, e8⟩, he8, rfl⟩ := List.mem_map.1 he
  refine hwk _ he8 ?_
  simp only [wokenWakers]
  refine List.mem_flatMap.2 ⟨_, hmem, ?_⟩
  simp only [wokenBy]
  exact List.mem_filterMap.2 ⟨_, hws, rfl⟩

theorem same_data {p : List Layer} {s s' : XBow.World} {h : List XBow.Event} (hr : XBow.WRun hash enc s h s')
    (he : ∀ e ∈ h, getOpt p e.after = getOpt p e.before) : getOpt p s'.data = getOpt p s.data := by
  induction hr with
  | nil => rfl
  | cons e _ ih =>
    rw [ih fun e' he' => he e' (.tail _ he')]
    exact he _ (.head _)

theorem lastOf_append (given : XBow.Event → Option Data) (h h' : List XBow.Event) :
    XBow.lastOf given (h ++ h') = (XBow.lastOf given h').or (XBow.lastOf given h) := by
  induction h with
  | nil => simp [XBow.lastOf]
  | cons e h ih => simp only [List.cons_append, XBow.lastOf, ih, Option.or_assoc]

theorem lastOf_none {given : XBow.Event → Option Data} {i : Nat} (hg : ∀ (s : XBow.World) (op : XBow.WOp) (r : XBow.Res),
    XBow.wstep hash enc s op = some r → XBow.Leaves i ⟨op, r.trace, r.effect, s.data, r.world.data⟩ →
    given ⟨op, r.trace, r.effect, s.data, r.world.data⟩ = none) {s s' : XBow.World} {h : List XBow.Event}
    (hr : XBow.WRun hash enc s h s') (hl : ∀ e ∈ h, XBow.Leaves i e) : XBow.lastOf given h = none := by
  induction hr with
  | nil => rfl
  | cons e _ ih =>
    simp only [XBow.lastOf, ih fun e' he' => hl e' (.tail _ he'), Option.none_or]
    exact hg _ _ _ e (hl _ (.head _))

/-- **C53, `for_each`**, from what is known of the store. -/
theorem told_store_forEach {d : Data} {hist : List (XBow.WOp × XBow.Event)} {s : XBow.World} {i : Nat}
    (ht : Told (storeSource hash enc) (XBow.World.init d) hist s i) {p : List Layer}
    {h' : List XBow.Event} (hf : Follows enc p i (hist.map (·.2)) h')
    (hn : ∀ e ∈ h', (∃ wk, e.op = .pollForEach p i wk) ∨ (XBow.Leaves i e ∧ XBow.Announced enc p e)) {v : Data}
    (hv : getOpt p s.data = some v) : XBow.lastOf (XBow.calledAt i) h' = some v := by
  obtain ⟨h1, mid, s1, op, r, rfl, hc, hw, ⟨wk, rfl⟩, hr, hmid⟩ := told_follower ht hf
    (fun op => ∃ wk, op = .pollForEach p i wk) hn (by
      rintro s op r hw ⟨wk, rfl⟩
      obtain ⟨sys, tr, f, rd, h1, rfl⟩ := XBow.pollForEach_eq hw
      obtain ⟨_, _, _, rfl, _⟩ := XBow.pollUntilChange_eq h1
      exact ⟨_, _, rfl⟩)
  obtain ⟨c, h2, h3, h4⟩ := XBow.forEach_up_to_date hc (fun e he => hn e (List.mem_append_left _ he)) hw
  rw [same_data hr fun e he => (hmid e he).2, h3] at hv
  rw [lastOf_append, XBow.lastOf, lastOf_none (fun s op r => XBow.calledAt_leaves) hr fun e he => (hmid e he).1,
    Option.none_or, ← h4 v hv]
  simp [XBow.calledAt, h2]

/-- **C53, `for_each`.** Whenever the browser is idle, the value that the closure of an awaited `for_each` was
called with last is the data at its path (if there is any), provided that this data was only changed through the
path itself, enclosing paths, and with a notification. -/
theorem idle_store_forEach {d : Data} {es : List (Event (storeSource hash enc) V S O)}
    {w : World (storeSource hash enc) V S O} (h : run (init (XBow.World.init d)) es = some w)
    (hm : ∃ t, .app (.mount t) ∈ es) (hidle : Idle w) {i : Nat} (hk : Awaited w i) {p : List Layer}
    {h' : List XBow.Event} (hf : Follows enc p i (w.hist.map (·.2)) h')
    (hn : ∀ e ∈ h', (∃ wk, e.op = .pollForEach p i wk) ∨ (XBow.Leaves i e ∧ XBow.Announced enc p e)) {v : Data}
    (hv : getOpt p w.src.data = some v) : XBow.lastOf (XBow.calledAt i) h' = some v :=
  told_store_forEach (idle_not_woken h hm hidle hk) hf hn hv

/-- **C53, `signal_stream`**, from what is known of the store. -/
theorem told_store_signal {d : Data} {hist : List (XBow.WOp × XBow.Event)} {s : XBow.World} {i : Nat}
    (ht : Told (storeSource hash enc) (XBow.World.init d) hist s i) {p : List Layer}
    {h' : List XBow.Event} (hf : Follows enc p i (hist.map (·.2)) h')
    (hn : ∀ e ∈ h', (∃ wk, e.op = .pollSignal true p i wk) ∨ (XBow.Leaves i e ∧ XBow.Announced enc p e)) {v : Data}
    (hv : getOpt p s.data = some v) : XBow.lastOf (XBow.yieldedAt i) h' = some v := by
  obtain ⟨h1, mid, s1, op, r, rfl, hc, hw, ⟨wk, rfl⟩, hr, hmid⟩ := told_follower ht hf
    (fun op => ∃ wk, op = .pollSignal true p i wk) hn (by
      rintro s op r hw ⟨wk, rfl⟩
      obtain ⟨sys, tr, f, rd, h1, rfl⟩ := XBow.pollSignal_eq hw
      obtain ⟨_, _, _, rfl, _⟩ := XBow.pollUntilChange_eq h1
      exact ⟨_, _, rfl⟩)
  have hd : r.world.data = s1.data := by
    obtain ⟨sys, tr, f, rd, h1, rfl⟩ := XBow.pollSignal_eq hw
    rfl
  rw [same_data hr fun e he => (hmid e he).2, hd] at hv
  rw [lastOf_append, XBow.lastOf, lastOf_none (fun s op r => XBow.yieldedAt_leaves) hr fun e he => (hmid e he).1,
    Option.none_or]
  rcases XBow.signal_up_to_date hc (fun e he => hn e (List.mem_append_left _ he)) hw with ⟨h2, h3⟩ | h2
  · rw [← h3 v hv]; simp [XBow.yieldedAt, h2]
  · simp [XBow.yieldedAt, h2, hv]

/-- **C53, `signal_stream`.** The same for a `signal_stream(true)`: what it yielded last is the data at its path. -/
theorem idle_store_signal {d : Data} {es : List (Event (storeSource hash enc) V S O)}
    {w : World (storeSource hash enc) V S O} (h : run (init (XBow.World.init d)) es = some w)
    (hm : ∃ t, .app (.mount t) ∈ es) (hidle : Idle w) {i : Nat} (hk : Awaited w i) {p : List Layer}
    {h' : List XBow.Event} (hf : Follows enc p i (w.hist.map (·.2)) h')
    (hn : ∀ e ∈ h', (∃ wk, e.op = .pollSignal true p i wk) ∨ (XBow.Leaves i e ∧ XBow.Announced enc p e)) {v : Data}
    (hv : getOpt p w.src.data = some v) : XBow.lastOf (XBow.yieldedAt i) h' = some v :=
  told_store_signal (idle_not_woken h hm hidle hk) hf hn hv

/-! ### Concrete cases -/

theorem ex_follows {hist : List (XBow.WOp × XBow.Event)} {o1 o2 : XBow.WOp} {t1 t2 : XBow.Trace}
    {own : XBow.WOp → Prop}
    (h : hist.map (fun e => (e.2.op, e.2.trace)) =
      [(.sub (.listen (XBow.samplePath.map XBow.sampleEnc)), [(.listen (XBow.samplePath.map XBow.sampleEnc), .unit)]),
        (o1, t1), (.write [.field 0] (.enum 0 [.leaf 6]), [(.change [0], .woken [some 0])]), (o2, t2)])
    (h1 : own o1) (h2 : own o2) :
    ∃ h', Follows XBow.sampleEnc XBow.samplePath 0 (hist.map (·.2)) h' ∧ h'.length = 3 ∧
      ∀ e ∈ h', own e.op ∨ (XBow.Leaves 0 e ∧ XBow.Announced XBow.sampleEnc XBow.samplePath e) := by
  rcases hist with _ | ⟨e0, _ | ⟨e1, _ | ⟨e2, _ | ⟨e3, _ | ⟨e4, r⟩⟩⟩⟩⟩
  all_goals simp only [List.map_cons, List.map_nil, List.cons.injEq, Prod.mk.injEq, and_true, reduceCtorEq, and_false] at h
  obtain ⟨⟨a1, a2⟩, ⟨b1, b2⟩, ⟨c1, c2⟩, d1, d2⟩ := h
  refine ⟨[e1.2, e2.2, e3.2], ⟨[], e0.2, rfl, a1, rfl⟩, rfl, ?_⟩
  intro e he
  simp only [List.mem_cons, List.not_mem_nil, or_false] at he
  rcases he with rfl | rfl | rfl
  · exact .inl (b1 ▸ h1)
  · exact .inr ⟨by simp [XBow.Leaves, c2, XBow.Op.touches],
      .inr ⟨[0], _, by decide, by rw [c2]; exact List.mem_cons_self⟩⟩
  · exact .inl (d1 ▸ h2)

theorem exFe_view : (run (init (XBow.World.init (XBow.sampleData 1 2)))
    (exEvents (storeSource XBow.sampleHash XBow.sampleEnc)
      [.sub (.listen (XBow.samplePath.map XBow.sampleEnc)), .pollForEach XBow.samplePath 0 (some 0)]
      [.write [.field 0] (.enum 0 [.leaf 6])] [.pollForEach XBow.samplePath 0 (some 1)])).map
        (fun (w : World (storeSource XBow.sampleHash XBow.sampleEnc) Nat Nat (List Nat)) =>
          (view w, getOpt XBow.samplePath w.src.data, w.hist.map fun e => (e.2.op, e.2.trace))) =
    some (exView (0 : Nat), some (.leaf 6),
      [(.sub (.listen (XBow.samplePath.map XBow.sampleEnc)), [(.listen (XBow.samplePath.map XBow.sampleEnc), .unit)]),
        (.pollForEach XBow.samplePath 0 (some 0), [(.poll 0 (some 0), .polled false)]),
        (.write [.field 0] (.enum 0 [.leaf 6]), [(.change [0], .woken [some 0])]),
        (.pollForEach XBow.samplePath 0 (some 1), [(.poll 0 (some 1), .polled true)])]) := by rfl

/-- A `for_each` deep inside a task; the enclosing field is replaced. -/
example : ∃ w h', run (init (XBow.World.init (XBow.sampleData 1 2)))
    (exEvents (storeSource XBow.sampleHash XBow.sampleEnc)
      [.sub (.listen (XBow.samplePath.map XBow.sampleEnc)), .pollForEach XBow.samplePath 0 (some 0)]
      [.write [.field 0] (.enum 0 [.leaf 6])] [.pollForEach XBow.samplePath 0 (some 1)]) = some w ∧
    Idle w ∧ Awaited w (0 : Nat) ∧ Follows XBow.sampleEnc XBow.samplePath 0 (w.hist.map (·.2)) h' ∧ h'.length = 3 ∧
    (∀ e ∈ h', (∃ wk, e.op = .pollForEach XBow.samplePath 0 wk) ∨
      (XBow.Leaves 0 e ∧ XBow.Announced XBow.sampleEnc XBow.samplePath e)) ∧
    getOpt XBow.samplePath w.src.data = some (.leaf 6) ∧
    XBow.lastOf (XBow.calledAt 0) h' = some (.leaf 6) := by
  obtain ⟨w, hw, hv⟩ := Option.map_eq_some_iff.1 exFe_view
  simp only [Prod.mk.injEq] at hv
  obtain ⟨h1, h2, h3⟩ := hv
  obtain ⟨i1, i2⟩ := ex_idle h1
  obtain ⟨h', f1, f2, f3⟩ := ex_follows h3 (own := fun o => ∃ wk, o = .pollForEach XBow.samplePath 0 wk) ⟨_, rfl⟩ ⟨_, rfl⟩
  refine ⟨w, h', hw, i1, i2, f1, f2, f3, h2, ?_⟩
  exact idle_store_forEach hw ⟨0, by simp [exEvents]⟩ i1 i2 f1 f3 h2

theorem exSig_view : (run (init (XBow.World.init (XBow.sampleData 1 2)))
    (exEvents (storeSource XBow.sampleHash XBow.sampleEnc)
      [.sub (.listen (XBow.samplePath.map XBow.sampleEnc)), .pollSignal true XBow.samplePath 0 (some 0)]
      [.write [.field 0] (.enum 0 [.leaf 6])] [.pollSignal true XBow.samplePath 0 (some 1)])).map
        (fun (w : World (storeSource XBow.sampleHash XBow.sampleEnc) Nat Nat (List Nat)) =>
          (view w, getOpt XBow.samplePath w.src.data, w.hist.map fun e => (e.2.op, e.2.trace))) =
    some (exView (0 : Nat), some (.leaf 6),
      [(.sub (.listen (XBow.samplePath.map XBow.sampleEnc)), [(.listen (XBow.samplePath.map XBow.sampleEnc), .unit)]),
        (.pollSignal true XBow.samplePath 0 (some 0), [(.poll 0 (some 0), .polled false)]),
        (.write [.field 0] (.enum 0 [.leaf 6]), [(.change [0], .woken [some 0])]),
        (.pollSignal true XBow.samplePath 0 (some 1), [(.poll 0 (some 1), .polled true)])]) := by rfl

/-- A `signal_stream(true)` deep inside a task. -/
example : ∃ w h', run (init (XBow.World.init (XBow.sampleData 1 2)))
    (exEvents (storeSource XBow.sampleHash XBow.sampleEnc)
      [.sub (.listen (XBow.samplePath.map XBow.sampleEnc)), .pollSignal true XBow.samplePath 0 (some 0)]
      [.write [.field 0] (.enum 0 [.leaf 6])] [.pollSignal true XBow.samplePath 0 (some 1)]) = some w ∧
    Idle w ∧ Awaited w (0 : Nat) ∧ Follows XBow.sampleEnc XBow.samplePath 0 (w.hist.map (·.2)) h' ∧ h'.length = 3 ∧
    (∀ e ∈ h', (∃ wk, e.op = .pollSignal true XBow.samplePath 0 wk) ∨
      (XBow.Leaves 0 e ∧ XBow.Announced XBow.sampleEnc XBow.samplePath e)) ∧
    getOpt XBow.samplePath w.src.data = some (.leaf 6) ∧
    XBow.lastOf (XBow.yieldedAt 0) h' = some (.leaf 6) := by
  obtain ⟨w, hw, hv⟩ := Option.map_eq_some_iff.1 exSig_view
  simp only [Prod.mk.injEq] at hv
  obtain ⟨h1, h2, h3⟩ := hv
  obtain ⟨i1, i2⟩ := ex_idle h1
  obtain ⟨h', f1, f2, f3⟩ := ex_follows h3 (own := fun o => ∃ wk, o = .pollSignal true XBow.samplePath 0 wk) ⟨_, rfl⟩ ⟨_, rfl⟩
  refine ⟨w, h', hw, i1, i2, f1, f2, f3, h2, ?_⟩
  exact idle_store_signal hw ⟨0, by simp [exEvents]⟩ i1 i2 f1 f3 h2

end
end Verif.Live
