import Verif.XBow.FollowInv
/-!
# C31, C32: futures that follow data

A follower on the path `p` is made by creating its listener (number `i`); `h` is what happened since.
Events are operations with what they did and the data of the store before and after them.
-/
namespace Verif.XBow
open Data (Data Layer getOpt setOpt)

variable {hash : Path → BitVec 64} {enc : Layer → Seg}

/-- In a store, a follower on `p` got the listener number `i`; then `h` happened, which led to `s`. -/
def Created (hash : Path → BitVec 64) (enc : Layer → Seg) (p : List Layer) (i : Nat) (h : List Event)
    (s : World) : Prop :=
  ∃ d pre s0, ∃ r : Res, WRun hash enc (World.init d) pre s0 ∧ i = s0.sys.listeners.length ∧
    wstep hash enc s0 (.sub (.listen (p.map enc))) = some r ∧ WRun hash enc r.world h s

/-- The event does not poll or drop the listener `i`. -/
def Leaves (i : Nat) (e : Event) : Prop := ∀ x ∈ e.trace, x.1.touches i = false

/-- No key of a path changed by the event collides with those of a follower on `p`; different paths
write different things to the hasher. -/
def NoClashEvent (hash : Path → BitVec 64) (enc : Layer → Seg) (p : List Layer) (e : Event) : Prop :=
  ∀ q o, (Op.change q, o) ∈ e.trace → NoClash hash (p.map enc) q

/-! ## What counts as announced -/

/-- Writes through `p`, through enclosing paths and through disjoint paths are announced. -/
theorem announced_of_write {p q : List Layer} {v : Data} {s : World} {r : Res}
    (h : wstep hash enc s (.write q v) = some r) (hq : q <+: p ∨ Data.Disjoint q p) :
    Announced enc p ⟨.write q v, r.trace, r.effect, s.data, r.world.data⟩ := by
  simp only [wstep] at h
  cases e : write hash enc s q v with
  | none => rw [e] at h; cases h
  | some o =>
    rw [e] at h
    rcases write_eq e with ⟨_, rfl⟩ | ⟨d, sys, out, h1, h2, rfl⟩
    · cases h; exact .inl rfl
    · cases h
      rcases hq with hq | hq
      · exact .inr ⟨q.map enc, out, hq.map enc, List.mem_cons_self⟩
      · exact .inl (Data.get_set_disjoint hq h1)

/-- Operations on subscriptions are announced. -/
theorem announced_of_sub {p : List Layer} {op : Op} {s : World} {r : Res}
    (h : wstep hash enc s (.sub op) = some r) :
    Announced enc p ⟨.sub op, r.trace, r.effect, s.data, r.world.data⟩ := by
  simp only [wstep] at h
  cases e : step hash s.sys op with
  | none => rw [e] at h; cases h
  | some x => obtain ⟨sys, o⟩ := x; rw [e] at h; cases h; exact .inl rfl

theorem Created.wf {p : List Layer} {i : Nat} {h : List Event} {s : World} (hc : Created hash enc p i h s) :
    ∃ d pre s0, ∃ r : Res, ∃ A o, WRun hash enc (World.init d) pre s0 ∧ WF s0.sys A ∧ i = s0.sys.listeners.length ∧
      step hash s0.sys (.listen (p.map enc)) = some (r.world.sys, o) ∧ r.world.data = s0.data ∧
      r.world.running = s0.running ∧ WRun hash enc r.world h s := by
  obtain ⟨d, pre, s0, r, h1, h2, h3, h4⟩ := hc
  obtain ⟨A, hA⟩ := run_inv h1.sys _ init_wf
  simp only [wstep] at h3
  cases e : step hash s0.sys (.listen (p.map enc)) with
  | none => rw [e] at h3; cases h3
  | some x =>
    obtain ⟨sys, o⟩ := x
    rw [e] at h3; cases h3
    exact ⟨d, pre, s0, _, A, o, h1, hA, h2, e, rfl, rfl, h4⟩

theorem Created.sync {p : List Layer} {i : Nat} {h : List Event} {s : World} (hc : Created hash enc p i h s) :
    ∃ s1, Sync hash enc p i s1 none ∧ WRun hash enc s1 h s := by
  obtain ⟨d, pre, s0, r, A, o, _, hA, rfl, e, _, _, hr⟩ := hc.wf
  exact ⟨r.world, sync_create hA e, hr⟩

/-- A follower that has not been polled. -/
theorem Created.fresh {p : List Layer} {i : Nat} {h : List Event} {s : World} (hc : Created hash enc p i h s)
    (hn : ∀ e ∈ h, Leaves i e) :
    ∃ A l, Fol hash ((visited (p.map enc)).map (regularKey hash)) s.sys i l A ∧ l.lastVersion = 0 := by
  obtain ⟨d, pre, s0, r, A, o, _, hA, rfl, e, _, _, hr⟩ := hc.wf
  obtain ⟨A1, hw1, _, l, h1, h2, h3⟩ := step_inv hA e
  obtain ⟨A2, hf, _⟩ := Fol.run hr.sys A1 (i := s0.sys.listeners.length) (l := l) ⟨hw1, by rw [h1]; simp, h3⟩ (by
    intro x hx
    obtain ⟨ev, hev, hx⟩ := List.mem_flatMap.1 hx
    exact hn ev hev x hx)
  exact ⟨A2, l, hf, h2⟩

/-- Two consecutive polls of a follower, as an instance of C25 and C26. -/
theorem Created.watch {p : List Layer} {i : Nat} {h1 h2 : List Event} {s1 s2 : World} {w : Waker} {sys : Sys}
    {tr : Trace} {f rd : Bool} {s1' : World}
    (hc : Created hash enc p i h1 s1) (hp : pollUntilChange hash s1.sys i w = some (sys, tr, f, rd))
    (hs : s1'.sys = sys) (hr : WRun hash enc s1' h2 s2) (hn : ∀ e ∈ h2, Leaves i e) :
    Watch hash (.listen (p.map enc)) i w (h2.flatMap (·.trace)) s2.sys := by
  obtain ⟨d, pre, s0, r, A, o, hpre, _, hi, e, _, _, hr1⟩ := hc.wf
  obtain ⟨l, _, hst, _⟩ := pollUntilChange_eq hp
  refine ⟨_, _, s0.sys, r.world.sys, s1.sys, sys, o, _, hpre.sys, hi, e, hr1.sys, hst, hs ▸ hr.sys, ?_⟩
  intro x hx
  obtain ⟨ev, hev, hx⟩ := List.mem_flatMap.1 hx
  exact hn ev hev x hx

/-- Readiness of the listener of a follower. -/
theorem ready_iff {p : List Layer} {i : Nat} {mid : List Event} {s : World} {w w' : Waker} {sys : Sys}
    {tr : Trace} {f rd : Bool} (hw : Watch hash (.listen (p.map enc)) i w (mid.flatMap (·.trace)) s.sys)
    (hp : pollUntilChange hash s.sys i w' = some (sys, tr, f, rd)) :
    f = false ∧ ((∃ e ∈ mid, TellsAbout enc p e) → rd = true) ∧
    ((∀ e ∈ mid, NoClashEvent hash enc p e) → rd = true → ∃ e ∈ mid, TellsAbout enc p e) := by
  obtain ⟨A, l, hwf, hl, _, _, hlv, _⟩ := watch_spec hw (.inl ⟨_, rfl⟩)
  obtain ⟨l', hl', hst, _, rfl⟩ := pollUntilChange_eq hp
  rw [hl] at hl'; cases hl'
  refine ⟨by simp [Listener.hasBeenPolled]; omega, ?_, ?_⟩
  · rintro ⟨e, he, q, o, hq, hm⟩
    have := change_ready_below hw hq (List.mem_flatMap.2 ⟨e, he, hm⟩) hst
    cases this; rfl
  · intro hn hr
    obtain ⟨b, hb, hiff⟩ := ready_iff_enclosing_changed hw (by
      intro q o hm
      obtain ⟨e, he, hm⟩ := List.mem_flatMap.1 hm
      exact hn e he q o hm) hst
    cases hb
    obtain ⟨q, o, hm, hq⟩ := hiff.1 hr
    obtain ⟨e, he, hm⟩ := List.mem_flatMap.1 hm
    exact ⟨e, he, q, o, hq, hm⟩


/-! ## C31: for_each -/

/-- The last value that the events of a history gave. -/
def lastOf (given : Event → Option Data) : List Event → Option Data
  | [] => none
  | e :: h => (lastOf given h).or (given e)

/-- What the event gave to the closure of the `for_each` future with listener `i`. -/
def calledAt (i : Nat) (e : Event) : Option Data :=
  match e.op, e.effect with
  | .pollForEach _ j _, .called c => if j = i then c else none
  | _, _ => none

theorem calledAt_leaves {i : Nat} {s : World} {op : WOp} {r : Res} (h : wstep hash enc s op = some r)
    (hl : Leaves i ⟨op, r.trace, r.effect, s.data, r.world.data⟩) :
    calledAt i ⟨op, r.trace, r.effect, s.data, r.world.data⟩ = none := by
  simp only [calledAt]
  cases op <;> try rfl
  rename_i p j w
  split
  · rename_i hop heff
    split
    · rename_i hj
      cases hop
      subst hj
      obtain ⟨sys, tr, f, rd, h1, hr⟩ := pollForEach_eq h
      obtain ⟨_, _, _, rfl, _⟩ := pollUntilChange_eq h1
      have := hl _ (by rw [hr]; exact List.mem_cons_self)
      simp [Op.touches] at this
    · rfl
  · rfl

/-- **C31.** The first poll of `for_each` calls the closure with the data (if there is any). -/
theorem forEach_first {p : List Layer} {i : Nat} {h : List Event} {s : World} {w : Waker} {r : Res}
    (hc : Created hash enc p i h s) (hn : ∀ e ∈ h, Leaves i e)
    (hp : wstep hash enc s (.pollForEach p i w) = some r) : r.effect = .called (getOpt p s.data) := by
  obtain ⟨A, l, hf, h0⟩ := hc.fresh hn
  obtain ⟨sys, tr, f, rd, h1, rfl⟩ := pollForEach_eq hp
  simp only [(hf.poll h1).1.2 h0, Bool.true_or, if_true]

/-- **C31.** At every later poll the closure is called with the data if `p` or an enclosing path was
changed since the last poll, and, unless keys collide, it is not called otherwise. -/
theorem forEach_next {p : List Layer} {i : Nat} {h mid : List Event} {s s' : World} {w w' : Waker} {r r' : Res}
    (hc : Created hash enc p i h s) (hp : wstep hash enc s (.pollForEach p i w) = some r)
    (hm : WRun hash enc r.world mid s') (hn : ∀ e ∈ mid, Leaves i e)
    (hp' : wstep hash enc s' (.pollForEach p i w') = some r') :
    ((∃ e ∈ mid, TellsAbout enc p e) → r'.effect = .called (getOpt p s'.data)) ∧
    ((∀ e ∈ mid, NoClashEvent hash enc p e) → (¬ ∃ e ∈ mid, TellsAbout enc p e) →
      r'.effect = .called none) := by
  obtain ⟨sys, tr, f, rd, h1, rfl⟩ := pollForEach_eq hp
  obtain ⟨sys', tr', f', rd', h1', rfl⟩ := pollForEach_eq hp'
  obtain ⟨rfl, k1, k2⟩ := ready_iff (hc.watch h1 rfl hm hn) h1'
  constructor
  · intro ht; simp only [k1 ht, Bool.or_true, if_true]
  · intro hcl hno
    have : rd' = false := by
      rw [Bool.eq_false_iff]; exact fun e => hno (k2 hcl e)
    simp only [this, Bool.or_self, Bool.false_eq_true, if_false]

theorem sync_events {p : List Layer} {i : Nat} (known : Event → Option Data → Option Data) {h : List Event}
    (hown : ∀ (s : World) op r last, wstep hash enc s op = some r →
      (⟨op, r.trace, r.effect, s.data, r.world.data⟩ : Event) ∈ h →
      Sync hash enc p i s last →
      Sync hash enc p i r.world (known ⟨op, r.trace, r.effect, s.data, r.world.data⟩ last)) {s s' : World}
    (hr : WRun hash enc s h s') : ∀ last, Sync hash enc p i s last →
      Sync hash enc p i s' (h.foldl (fun l e => known e l) last) := by
  induction hr with
  | nil s => intro last hs; exact hs
  | cons e _ ih =>
    intro last hs
    exact ih (fun s op r last he hm hs => hown s op r last he (List.mem_cons_of_mem _ hm) hs) _
      (hown _ _ _ last e List.mem_cons_self hs)

theorem lastOf_foldl (given : Event → Option Data) (h : List Event) (last : Option Data) :
    h.foldl (fun l e => (given e).or l) last = (lastOf given h).or last := by
  induction h generalizing last with
  | nil => simp [lastOf]
  | cons e h ih =>
    simp only [List.foldl_cons, lastOf]
    rw [ih, Option.or_assoc]

/-- **C31.** After every poll of `for_each` the last value that the closure was given is the data now
(if there is any), provided that the data at `p` was only changed through `p` and enclosing paths. -/
theorem forEach_up_to_date {p : List Layer} {i : Nat} {h : List Event} {s : World} {w : Waker} {r : Res}
    (hc : Created hash enc p i h s)
    (hn : ∀ e ∈ h, (∃ w, e.op = .pollForEach p i w) ∨ (Leaves i e ∧ Announced enc p e))
    (hp : wstep hash enc s (.pollForEach p i w) = some r) :
    ∃ c, r.effect = .called c ∧ r.world.data = s.data ∧
      ∀ v, getOpt p s.data = some v → c.or (lastOf (calledAt i) h) = some v := by
  obtain ⟨s1, hs, hr⟩ := hc.sync
  have hs' := sync_events (hash := hash) (enc := enc) (p := p) (i := i) (h := h)
    (fun e l => (calledAt i e).or l) (by
    intro s op r last he hm hs
    rcases hn _ hm with ⟨w, hop⟩ | ⟨hl, ha⟩
    · simp only at hop
      subst hop
      obtain ⟨c, h1, h2, h3, _⟩ := sync_forEach hs he
      simp only [calledAt, h1, if_true]
      exact h3
    · simp only [calledAt_leaves he hl, Option.none_or]
      exact sync_other hs he hl ha) hr none hs
  rw [lastOf_foldl, Option.or_none] at hs'
  obtain ⟨c, h1, h2, _, h4⟩ := sync_forEach hs' hp
  exact ⟨c, h1, h2, h4⟩

/-- **C31.** Between two polls a change of `p` or of an enclosing path wakes the task that polled. -/
theorem forEach_woken {p q : List Layer} {i : Nat} {h mid : List Event} {s s' : World} {w : Waker} {v : Data}
    {r r' : Res} (hc : Created hash enc p i h s) (hp : wstep hash enc s (.pollForEach p i w) = some r)
    (hm : WRun hash enc r.world mid s') (hn : ∀ e ∈ mid, Leaves i e) (hq : q <+: p)
    (hw : wstep hash enc s' (.write q v) = some r') (hs : setOpt q v s'.data ≠ none) :
    ∃ ws, r'.trace = [(.change (q.map enc), .woken ws)] ∧ w ∈ ws := by
  obtain ⟨sys, tr, f, rd, h1, rfl⟩ := pollForEach_eq hp
  have hwatch := hc.watch h1 rfl hm hn
  simp only [wstep] at hw
  cases e : write hash enc s' q v with
  | none => rw [e] at hw; cases hw
  | some o =>
    rw [e] at hw
    rcases write_eq e with ⟨hno, _⟩ | ⟨d, sys, out, _, h2, rfl⟩
    · exact (hs hno).elim
    · cases hw
      obtain ⟨ws, rfl, hm⟩ := change_wakes_below hwatch (hq.map enc) h2
      exact ⟨ws, rfl, hm⟩

/-! ## C31: signal_stream -/

/-- What the stream with listener `i` yielded at the event. -/
def yieldedAt (i : Nat) (e : Event) : Option Data :=
  match e.op, e.effect with
  | .pollSignal _ _ j _, .yielded d => if j = i then d else none
  | _, _ => none

theorem yieldedAt_leaves {i : Nat} {s : World} {op : WOp} {r : Res} (h : wstep hash enc s op = some r)
    (hl : Leaves i ⟨op, r.trace, r.effect, s.data, r.world.data⟩) :
    yieldedAt i ⟨op, r.trace, r.effect, s.data, r.world.data⟩ = none := by
  simp only [yieldedAt]
  cases op <;> try rfl
  rename_i fire p j w
  split
  · rename_i hop heff
    split
    · rename_i hj
      cases hop
      subst hj
      obtain ⟨sys, tr, f, rd, h1, hr⟩ := pollSignal_eq h
      obtain ⟨_, _, _, rfl, _⟩ := pollUntilChange_eq h1
      have := hl _ (by rw [hr]; exact List.mem_cons_self)
      simp [Op.touches] at this
    · rfl
  · rfl

/-- **C31.** The first poll of `signal_stream(true)` yields the data (or ends the stream if there is
none); that of `signal_stream(false)` is pending. -/
theorem signal_first {p : List Layer} {i : Nat} {h : List Event} {s : World} {w : Waker} {r : Res}
    {fire : Bool} (hc : Created hash enc p i h s) (hn : ∀ e ∈ h, Leaves i e)
    (hp : wstep hash enc s (.pollSignal fire p i w) = some r) :
    r.effect = if fire then .yielded (getOpt p s.data) else .pending := by
  obtain ⟨A, l, hf, h0⟩ := hc.fresh hn
  obtain ⟨sys, tr, f, rd, h1, rfl⟩ := pollSignal_eq hp
  obtain ⟨k1, k2, _⟩ := hf.poll h1
  have : rd = false := by
    rw [Bool.eq_false_iff]; intro e; have := (k2.1 e).1; omega
  simp only [k1.2 h0, Bool.true_and, this, Bool.or_false]

/-- **C31.** At later polls the stream yields the data (or ends if there is none) if `p` or an
enclosing path was changed since the last poll; without collisions it is pending otherwise. -/
theorem signal_next {p : List Layer} {i : Nat} {h mid : List Event} {s s' : World} {w w' : Waker} {r r' : Res}
    {fire : Bool} (hc : Created hash enc p i h s) (hp : wstep hash enc s (.pollSignal fire p i w) = some r)
    (hm : WRun hash enc r.world mid s') (hn : ∀ e ∈ mid, Leaves i e)
    (hp' : wstep hash enc s' (.pollSignal fire p i w') = some r') :
    ((∃ e ∈ mid, TellsAbout enc p e) → r'.effect = .yielded (getOpt p s'.data)) ∧
    ((∀ e ∈ mid, NoClashEvent hash enc p e) → (¬ ∃ e ∈ mid, TellsAbout enc p e) →
      r'.effect = .pending) := by
  obtain ⟨sys, tr, f, rd, h1, rfl⟩ := pollSignal_eq hp
  obtain ⟨sys', tr', f', rd', h1', rfl⟩ := pollSignal_eq hp'
  obtain ⟨rfl, k1, k2⟩ := ready_iff (hc.watch h1 rfl hm hn) h1'
  constructor
  · intro ht; simp only [k1 ht, Bool.or_true, if_true]
  · intro hcl hno
    have : rd' = false := by
      rw [Bool.eq_false_iff]; exact fun e => hno (k2 hcl e)
    simp only [this, Bool.false_and, Bool.or_self, Bool.false_eq_true, if_false]

theorem sync_signal {p : List Layer} {i : Nat} {s : World} {last : Option Data} {w : Waker} {r : Res}
    (hs : Sync hash enc p i s last) (h : pollSignal hash s true p i w = some r) :
    ((r.effect = .pending ∧ Sync hash enc p i r.world last ∧ ∀ v, getOpt p s.data = some v → last = some v) ∨
      (r.effect = .yielded (getOpt p s.data) ∧ Sync hash enc p i r.world ((getOpt p s.data).or last))) := by
  obtain ⟨sys, tr, first, ready, h1, rfl⟩ := pollSignal_eq h
  obtain ⟨k1, k2⟩ := sync_poll (rn := s.running) hs h1
  cases hb : (first || ready) with
  | true =>
    refine .inr ⟨by simp only [Bool.and_true, hb, if_true], k1 _ ?_⟩
    intro v hv; rw [hv]; rfl
  | false =>
    refine .inl ⟨by simp only [Bool.and_true, hb, Bool.false_eq_true, if_false], k1 _ (k2 hb), k2 hb⟩

/-- **C31.** Whenever `signal_stream(true)` is pending, the last value it yielded is the data now (if
there is any); whatever it yields is the data now. -/
theorem signal_up_to_date {p : List Layer} {i : Nat} {h : List Event} {s : World} {w : Waker} {r : Res}
    (hc : Created hash enc p i h s)
    (hn : ∀ e ∈ h, (∃ w, e.op = .pollSignal true p i w) ∨ (Leaves i e ∧ Announced enc p e))
    (hp : wstep hash enc s (.pollSignal true p i w) = some r) :
    (r.effect = .pending ∧ ∀ v, getOpt p s.data = some v → lastOf (yieldedAt i) h = some v) ∨
    r.effect = .yielded (getOpt p s.data) := by
  obtain ⟨s1, hs, hr⟩ := hc.sync
  have hs' := sync_events (hash := hash) (enc := enc) (p := p) (i := i) (h := h)
    (fun e l => (yieldedAt i e).or l) (by
    intro s op r last he hm hs
    rcases hn _ hm with ⟨w, hop⟩ | ⟨hl, ha⟩
    · simp only at hop
      subst hop
      rcases sync_signal hs he with ⟨h1, h2, _⟩ | ⟨h1, h2⟩
      · simp only [yieldedAt, h1, Option.none_or]; exact h2
      · simp only [yieldedAt, h1, if_true]; exact h2
    · simp only [yieldedAt_leaves he hl, Option.none_or]
      exact sync_other hs he hl ha) hr none hs
  rw [lastOf_foldl, Option.or_none] at hs'
  rcases sync_signal hs' hp with ⟨h1, _, h3⟩ | ⟨h1, _⟩
  · exact .inl ⟨h1, h3⟩
  · exact .inr h1

/-! ## C31: for_each_async -/

/-- The future (named by the data it was made from) that `for_each_async` with listener `i` polled at
the event. A new future is polled as soon as it is made. -/
def polledAt (i : Nat) (e : Event) : Option Data :=
  match e.op, e.effect with
  | .pollForEachAsync _ j _ _, .async _ d => if j = i then d else none
  | _, _ => none

theorem running_other {i : Nat} {s : World} {op : WOp} {r : Res} (h : wstep hash enc s op = some r)
    (hl : Leaves i ⟨op, r.trace, r.effect, s.data, r.world.data⟩) :
    r.world.running i = s.running i ∧ polledAt i ⟨op, r.trace, r.effect, s.data, r.world.data⟩ = none := by
  cases op with
  | sub op =>
    simp only [wstep] at h
    cases e : step hash s.sys op with
    | none => rw [e] at h; cases h
    | some x => obtain ⟨sys, o⟩ := x; rw [e] at h; cases h; exact ⟨rfl, rfl⟩
  | write p v =>
    simp only [wstep] at h
    cases e : write hash enc s p v with
    | none => rw [e] at h; cases h
    | some o =>
      rw [e] at h
      rcases write_eq e with ⟨_, rfl⟩ | ⟨d, sys, out, _, h2, rfl⟩
      · cases h; exact ⟨rfl, rfl⟩
      · cases h; exact ⟨rfl, rfl⟩
  | writeQuietly p v =>
    simp only [wstep] at h
    split at h <;> cases h <;> exact ⟨rfl, rfl⟩
  | pollForEach p j w =>
    obtain ⟨sys, tr, f, rd, _, rfl⟩ := pollForEach_eq h
    exact ⟨rfl, rfl⟩
  | pollForEachAsync p j w fin =>
    obtain ⟨sys, tr, f, rd, h1, _, _, ht, hr⟩ := pollForEachAsync_eq h
    obtain ⟨_, _, _, rfl, _⟩ := pollUntilChange_eq h1
    have hj : j ≠ i := by
      intro e
      have := hl _ (by rw [ht]; exact List.mem_cons_self)
      simp [Op.touches, e] at this
    refine ⟨?_, ?_⟩
    · rcases hr with ⟨d, _, _, _, hr⟩ | ⟨_, _, hr⟩ <;> rw [hr] <;> simp only [if_neg (Ne.symm hj)]
    · rcases hr with ⟨d, _, _, hr, _⟩ | ⟨_, hr, _⟩ <;> simp only [polledAt, hr, if_neg hj]
  | pollSignal f p j w =>
    obtain ⟨sys, tr, f, rd, _, rfl⟩ := pollSignal_eq h
    exact ⟨rfl, rfl⟩
  | pollBind p j w items ends =>
    rcases pollBind_eq h with ⟨_, rfl⟩ | ⟨_, _, h⟩ | ⟨_, v, _, _, rfl⟩ |
      ⟨_, v, d, sys, out, sys2, tr2, f, rd, r2, _, _, h3, h4, h5, rfl⟩
    · exact ⟨rfl, rfl⟩
    · obtain ⟨sys, tr, f, rd, _, rfl⟩ := pollForEach_eq h
      exact ⟨rfl, rfl⟩
    · exact ⟨rfl, rfl⟩
    · obtain ⟨sys, tr, f, rd, _, rfl⟩ := pollForEach_eq h5
      exact ⟨rfl, rfl⟩

theorem run_len {s s' : Sys} {tr : Trace} (hr : Run hash s tr s') {A : Abs} (hw : WF s A) :
    s.listeners.length ≤ s'.listeners.length := by
  cases hn : s.listeners.length with
  | zero => exact Nat.zero_le _
  | succ n =>
    have hlt : n < s.listeners.length := by omega
    obtain ⟨o, ho, _⟩ := run_slots hr A n _ hw (List.getElem?_eq_getElem hlt)
    have := (List.getElem?_eq_some_iff.1 ho).1
    omega

/-- Only followers have futures. -/
theorem running_none {s s' : World} {h : List Event} (hr : WRun hash enc s h s') :
    ∀ A, WF s.sys A → (∀ j, s.sys.listeners.length ≤ j → s.running j = none) →
      ∀ j, s'.sys.listeners.length ≤ j → s'.running j = none := by
  induction hr with
  | nil s => intro A _ h; exact h
  | cons e _ ih =>
    rename_i s op r h s2 _
    intro A hw hn
    have hrun := wstep_sys e
    obtain ⟨A1, hw1⟩ := run_inv hrun A hw
    have hlen := run_len hrun hw
    refine ih A1 hw1 ?_
    intro j hj
    have h0 := hn j (by omega)
    by_cases hl : ∀ x ∈ r.trace, x.1.touches j = false
    · rw [(running_other e hl).1, h0]
    · cases op with
      | pollForEachAsync p i w fin =>
        obtain ⟨sys, tr, f, rd, h1, _, _, ht, hr⟩ := pollForEachAsync_eq e
        obtain ⟨l, hl', _, _, _⟩ := pollUntilChange_eq h1
        have hlt := (List.getElem?_eq_some_iff.1 hl').1
        have hj' : j ≠ i := by omega
        rcases hr with ⟨d, _, _, _, hr⟩ | ⟨_, _, hr⟩ <;> rw [hr] <;> simp only [if_neg hj', h0]
      | sub op =>
        simp only [wstep] at e
        cases e1 : step hash s.sys op with
        | none => rw [e1] at e; cases e
        | some x => obtain ⟨sys, o⟩ := x; rw [e1] at e; cases e; exact h0
      | write p v =>
        simp only [wstep] at e
        cases e1 : write hash enc s p v with
        | none => rw [e1] at e; cases e
        | some o =>
          rw [e1] at e
          rcases write_eq e1 with ⟨_, rfl⟩ | ⟨d, sys, out, _, h2, rfl⟩
          · cases e; exact h0
          · cases e; exact h0
      | writeQuietly p v =>
        simp only [wstep] at e
        split at e <;> cases e <;> exact h0
      | pollForEach p j w =>
        obtain ⟨sys, tr, f, rd, _, rfl⟩ := pollForEach_eq e
        exact h0
      | pollSignal f p j w =>
        obtain ⟨sys, tr, f, rd, _, rfl⟩ := pollSignal_eq e
        exact h0
      | pollBind p j w items ends =>
        rcases pollBind_eq e with ⟨_, rfl⟩ | ⟨_, _, h⟩ | ⟨_, v, _, _, rfl⟩ |
          ⟨_, v, d, sys, out, sys2, tr2, f, rd, r2, _, _, h3, h4, h5, rfl⟩
        · exact h0
        · obtain ⟨sys, tr, f, rd, _, rfl⟩ := pollForEach_eq h
          exact h0
        · exact h0
        · obtain ⟨sys, tr, f, rd, _, rfl⟩ := pollForEach_eq h5
          exact h0

theorem sync_async {p : List Layer} {i : Nat} {s : World} {last : Option Data} {w : Waker} {fin : Bool} {r : Res}
    (hs : Sync hash enc p i s last) (hrn : s.running i = none ∨ s.running i = last)
    (h : pollForEachAsync hash s p i w fin = some r) :
    ∃ dropped polled, r.effect = .async dropped polled ∧ Sync hash enc p i r.world (polled.or last) ∧
      (r.world.running i = none ∨ r.world.running i = polled.or last) ∧
      ∀ v, getOpt p s.data = some v → polled.or last = some v := by
  obtain ⟨sys, tr, first, ready, h1, e1, e2, e3, hr⟩ := pollForEachAsync_eq h
  obtain ⟨k1, k2⟩ := sync_poll (rn := r.world.running) hs h1
  have hworld : r.world = ⟨sys, s.data, r.world.running⟩ := by rw [← e1, ← e2]
  rcases hr with ⟨d, hf, hg, heff, hrun⟩ | ⟨hno, heff, hrun⟩
  · refine ⟨_, _, heff, ?_, ?_, ?_⟩
    · rw [hworld]
      apply k1
      intro v hv; rw [hg] at hv; cases hv; rfl
    · rw [hrun]; simp only [if_true]
      cases fin <;> simp
    · intro v hv; rw [hg] at hv; cases hv; rfl
  · have key : ∀ v, getOpt p s.data = some v → (s.running i).or last = some v := by
      intro v hv
      rcases hno with hno | hno
      · have := k2 hno v hv
        rcases hrn with hrn | hrn <;> rw [hrn, this] <;> rfl
      · rw [hno] at hv; cases hv
    refine ⟨_, _, heff, ?_, ?_, key⟩
    · rw [hworld]; exact k1 _ key
    · rw [hrun]; simp only [if_true]
      cases fin
      · rcases hrn with hrn | hrn <;> rw [hrn] <;> simp
      · simp

theorem sync_async_events {p : List Layer} {i : Nat} {h : List Event}
    (hn : ∀ e ∈ h, (∃ w fin, e.op = .pollForEachAsync p i w fin) ∨ (Leaves i e ∧ Announced enc p e))
    {s s' : World} (hr : WRun hash enc s h s') : ∀ last, Sync hash enc p i s last →
      (s.running i = none ∨ s.running i = last) →
      Sync hash enc p i s' ((lastOf (polledAt i) h).or last) ∧
      (s'.running i = none ∨ s'.running i = (lastOf (polledAt i) h).or last) := by
  induction hr with
  | nil s => intro last hs hrn; simp only [lastOf, Option.none_or]; exact ⟨hs, hrn⟩
  | cons e _ ih =>
    rename_i s op r h s2 _
    intro last hs hrn
    have hn' := fun e he => hn e (List.mem_cons_of_mem _ he)
    simp only [lastOf]
    rw [Option.or_assoc]
    apply ih hn'
    · rcases hn _ List.mem_cons_self with ⟨w, fin, hop⟩ | ⟨hl, ha⟩
      · simp only at hop
        subst hop
        obtain ⟨dr, po, h1, h2, h3, _⟩ := sync_async hs hrn e
        simp only [polledAt, h1, if_true]
        exact h2
      · rw [(running_other e hl).2, Option.none_or]
        exact sync_other hs e hl ha
    · rcases hn _ List.mem_cons_self with ⟨w, fin, hop⟩ | ⟨hl, ha⟩
      · simp only at hop
        subst hop
        obtain ⟨dr, po, h1, h2, h3, _⟩ := sync_async hs hrn e
        simp only [polledAt, h1, if_true]
        exact h3
      · rw [(running_other e hl).1, (running_other e hl).2, Option.none_or]
        exact hrn

/-- **C31.** At every poll of `for_each_async`, if there is data, the last future made (and, if one is
still running, the one polled) was made from the data now. -/
theorem forEachAsync_up_to_date {p : List Layer} {i : Nat} {h : List Event} {s : World} {w : Waker}
    {fin : Bool} {r : Res} (hc : Created hash enc p i h s)
    (hn : ∀ e ∈ h, (∃ w fin, e.op = .pollForEachAsync p i w fin) ∨ (Leaves i e ∧ Announced enc p e))
    (hp : wstep hash enc s (.pollForEachAsync p i w fin) = some r) :
    ∃ dropped polled, r.effect = .async dropped polled ∧
      ∀ v, getOpt p s.data = some v →
        polled.or (lastOf (polledAt i) h) = some v ∧ (polled = none ∨ polled = some v) := by
  obtain ⟨d, pre, s0, r0, A, o, hpre, hA, rfl, e, _, hrn, hr⟩ := hc.wf
  have h0 : s0.running s0.sys.listeners.length = none :=
    running_none hpre _ init_wf (fun _ _ => rfl) _ (Nat.le_refl _)
  obtain ⟨h1, h2⟩ := sync_async_events hn hr none (sync_create hA e) (.inl (by rw [hrn]; exact h0))
  rw [Option.or_none] at h1 h2
  obtain ⟨dr, po, k1, _, _, k4⟩ := sync_async h1 h2 hp
  refine ⟨dr, po, k1, fun v hv => ⟨k4 v hv, ?_⟩⟩
  have := k4 v hv
  cases po with
  | none => exact .inl rfl
  | some x => exact .inr this

/-- **C31.** If `p` or an enclosing path was changed since the last poll and the data is there, the
running future is dropped and one made from the data now is polled. -/
theorem forEachAsync_replaces {p : List Layer} {i : Nat} {h mid : List Event} {s s' : World} {w w' : Waker}
    {fin fin' : Bool} {r r' : Res} {v : Data} (hc : Created hash enc p i h s)
    (hp : wstep hash enc s (.pollForEachAsync p i w fin) = some r)
    (hm : WRun hash enc r.world mid s') (hn : ∀ e ∈ mid, Leaves i e)
    (ht : ∃ e ∈ mid, TellsAbout enc p e) (hv : getOpt p s'.data = some v)
    (hp' : wstep hash enc s' (.pollForEachAsync p i w' fin') = some r') :
    r'.effect = .async (s'.running i) (some v) := by
  obtain ⟨sys, tr, f, rd, h1, e1, _⟩ := pollForEachAsync_eq hp
  obtain ⟨sys', tr', f', rd', h1', _, _, _, hr⟩ := pollForEachAsync_eq hp'
  obtain ⟨rfl, k1, _⟩ := ready_iff (hc.watch h1 e1 hm hn) h1'
  rcases hr with ⟨d, _, hg, heff, _⟩ | ⟨hno, _⟩
  · rw [hv] at hg; cases hg; exact heff
  · rcases hno with hno | hno
    · rw [k1 ht] at hno; cases hno
    · rw [hv] at hno; cases hno

/-- When the data is gone, the future made from the old data is kept and polled. -/
theorem forEachAsync_missing {p : List Layer} {i : Nat} {s : World} {w : Waker} {fin : Bool} {r : Res}
    (hv : getOpt p s.data = none) (hp : wstep hash enc s (.pollForEachAsync p i w fin) = some r) :
    r.effect = .async none (s.running i) := by
  obtain ⟨sys, tr, f, rd, _, _, _, _, hr⟩ := pollForEachAsync_eq hp
  rcases hr with ⟨d, _, hg, _⟩ | ⟨_, heff, _⟩
  · rw [hv] at hg; cases hg
  · exact heff

/-! ## C32: bind_for_each -/

/-- What the user of the binding with listener `i` last knew: the closure was given it, or it came
from the incoming stream. -/
def knownAt (i : Nat) (e : Event) : Option Data :=
  match e.op, e.effect with
  | .pollBind _ j _ items _, .called c => if j = i then c.or items.getLast? else none
  | _, _ => none

theorem knownAt_leaves {i : Nat} {s : World} {op : WOp} {r : Res} (h : wstep hash enc s op = some r)
    (hl : Leaves i ⟨op, r.trace, r.effect, s.data, r.world.data⟩) :
    knownAt i ⟨op, r.trace, r.effect, s.data, r.world.data⟩ = none := by
  simp only [knownAt]
  cases op <;> try rfl
  rename_i p j w items ends
  by_cases hj : j = i
  · subst hj
    rcases pollBind_eq h with ⟨_, rfl⟩ | ⟨_, _, h⟩ | ⟨_, v, _, _, rfl⟩ |
      ⟨_, v, d, sys, out, sys2, tr2, f, rd, r2, _, _, h3, h4, h5, rfl⟩
    · rfl
    · obtain ⟨sys, tr, f, rd, h1, rfl⟩ := pollForEach_eq h
      obtain ⟨_, _, _, rfl, _⟩ := pollUntilChange_eq h1
      have := hl _ List.mem_cons_self
      simp [Op.touches] at this
    · rfl
    · obtain ⟨_, _, _, rfl, _⟩ := pollUntilChange_eq h4
      have := hl (.poll j w, .polled rd) (by simp)
      simp [Op.touches] at this
  · split
    · rename_i hop _
      cases hop
      rw [if_neg hj]
    · rfl

theorem sync_bind {p : List Layer} {i : Nat} {s : World} {last : Option Data} {w : Waker} {items : List Data}
    {ends : Bool} {r : Res} (hs : Sync hash enc p i s last) (h : pollBind hash enc s p i w items ends = some r) :
    (r.effect = .done ∧ r.world = s) ∨ ∃ c, r.effect = .called c ∧
      Sync hash enc p i r.world ((c.or items.getLast?).or last) ∧
      ∀ v, getOpt p r.world.data = some v → (c.or items.getLast?).or last = some v := by
  rcases pollBind_eq h with ⟨_, rfl⟩ | ⟨_, rfl, h'⟩ | ⟨_, v, _, _, rfl⟩ |
    ⟨_, v, d, sys, out, sys2, tr2, f, rd, r2, hv, hset, h3, h4, h5, rfl⟩
  · exact .inl ⟨rfl, rfl⟩
  · obtain ⟨c, h1, h2, h3, h4⟩ := sync_forEach hs h'
    refine .inr ⟨c, h1, ?_, ?_⟩
    · simpa using h3
    · rw [h2]; simpa using h4
  · exact .inl ⟨rfl, rfl⟩
  · have hget := Data.get_set hset
    have hs1 : Sync hash enc p i ⟨sys, d, s.running⟩ (some v) := sync_write hs h3 _
    have hs2 := (sync_poll (rn := s.running) hs1 h4).1 (some v) (by
      intro x hx; rw [hget] at hx; cases hx; rfl)
    obtain ⟨c, k1, k2, k3, k4⟩ := sync_forEach hs2 h5
    refine .inr ⟨c, k1, ?_, ?_⟩
    · rw [hv, Option.or_assoc]; exact k3
    · intro x hx
      simp only [k2] at hx
      rw [hv, Option.or_assoc]
      exact k4 x hx

/-- **C32.** After every poll of a binding that is not over, what its user last knew (given to the
closure or taken from the incoming stream) is the data now, if there is any. -/
theorem bind_in_sync {p : List Layer} {i : Nat} {h : List Event} {s : World} {w : Waker} {items : List Data}
    {ends : Bool} {r : Res} (hc : Created hash enc p i h s)
    (hn : ∀ e ∈ h, (∃ w items ends, e.op = .pollBind p i w items ends) ∨ (Leaves i e ∧ Announced enc p e))
    (hp : wstep hash enc s (.pollBind p i w items ends) = some r) :
    r.effect = .done ∨ ∃ c, r.effect = .called c ∧
      ∀ v, getOpt p r.world.data = some v → (c.or items.getLast?).or (lastOf (knownAt i) h) = some v := by
  obtain ⟨s1, hs, hr⟩ := hc.sync
  have hs' := sync_events (hash := hash) (enc := enc) (p := p) (i := i) (h := h)
    (fun e l => (knownAt i e).or l) (by
    intro s op r last he hm hs
    rcases hn _ hm with ⟨w, items, ends, hop⟩ | ⟨hl, ha⟩
    · simp only at hop
      subst hop
      rcases sync_bind hs he with ⟨h1, h2⟩ | ⟨c, h1, h2, _⟩
      · simp only [knownAt, h1, Option.none_or]
        rw [h2]; exact hs
      · simp only [knownAt, h1, if_true]
        exact h2
    · simp only [knownAt_leaves he hl, Option.none_or]
      exact sync_other hs he hl ha) hr none hs
  rw [lastOf_foldl, Option.or_none] at hs'
  rcases sync_bind hs' hp with ⟨h1, _⟩ | ⟨c, h1, _, h3⟩
  · exact .inl h1
  · exact .inr ⟨c, h1, h3⟩

/-- Followers keep their listener. -/
theorem Created.fol {p : List Layer} {i : Nat} {h : List Event} {s : World} (hc : Created hash enc p i h s)
    {l : Listener} (hl : s.sys.listeners[i]? = some (some l)) :
    ∃ A, Fol hash ((visited (p.map enc)).map (regularKey hash)) s.sys i l A := by
  obtain ⟨d, pre, s0, r, A, o, _, hA, rfl, e, _, _, hr⟩ := hc.wf
  obtain ⟨A1, hw1, _, l0, h1, h2, h3⟩ := step_inv hA e
  obtain ⟨A2, hw2⟩ := run_inv hr.sys A1 hw1
  obtain ⟨o', ho', hk⟩ := run_slots hr.sys A1 s0.sys.listeners.length (some l0) hw1 (by rw [h1]; simp)
  rw [hl] at ho'; cases ho'
  obtain ⟨l1, e1, hsl⟩ := hk l rfl
  cases e1
  exact ⟨A2, hw2, hl, by rw [hsl]; exact h3⟩

/-- **C32.** A poll at which values came in writes the last of them and tells the listeners, and does
not call the closure. -/
theorem bind_incoming {p : List Layer} {i : Nat} {h : List Event} {s : World} {w : Waker} {items : List Data}
    {v : Data} {r : Res} (hc : Created hash enc p i h s) (hv : items.getLast? = some v)
    (hp : wstep hash enc s (.pollBind p i w items false) = some r) :
    (setOpt p v s.data = none ∧ r.effect = .done ∧ r.world = s) ∨
    (setOpt p v s.data = some r.world.data ∧ getOpt p r.world.data = some v ∧ r.effect = .called none ∧
      ∃ o, (.change (p.map enc), o) ∈ r.trace) := by
  rcases pollBind_eq hp with ⟨h, _⟩ | ⟨_, rfl, _⟩ | ⟨_, v', hv', hset, rfl⟩ |
    ⟨_, v', d, sys, out, sys2, tr2, f, rd, r2, hv', hset, h3, h4, h5, rfl⟩
  · cases h
  · cases hv
  · rw [hv] at hv'; cases hv'; exact .inl ⟨hset, rfl, rfl⟩
  · rw [hv] at hv'; cases hv'
    obtain ⟨sys3, tr3, f3, rd3, h6, rfl⟩ := pollForEach_eq h5
    refine .inr ⟨hset, Data.get_set hset, ?_, out, by simp⟩
    obtain ⟨l, hl, _⟩ := pollUntilChange_eq h4
    obtain ⟨l0, hl0⟩ : ∃ l0, s.sys.listeners[i]? = some (some l0) := by
      obtain ⟨d, pre, s0, r, A, o, _, hA, hi, e, _, _, hr⟩ := hc.wf
      obtain ⟨A1, hw1, _⟩ := step_inv hA e
      obtain ⟨A2, hw2⟩ := run_inv hr.sys A1 hw1
      obtain ⟨_, _, _, hd⟩ := step_inv hw2 h3
      have hd' : sys.listeners = s.sys.listeners := hd
      exact ⟨l, hd' ▸ hl⟩
    obtain ⟨A, hf⟩ := hc.fol hl0
    obtain ⟨A1, hf1, _⟩ := Fol.run (Run.one h3) A hf (by simp [Op.touches])
    obtain ⟨_, _, A2, hf2, hsv, hpos⟩ := hf1.poll h4
    obtain ⟨k1, k2, _⟩ := hf2.poll h6
    have hf3 : f3 = false := by
      rw [Bool.eq_false_iff]; intro e; have := k1.1 e; simp only at this; omega
    have hr3 : rd3 = false := by
      rw [Bool.eq_false_iff]; intro e; have := (k2.1 e).2; simp only at this; omega
    simp only [hf3, hr3, Bool.or_self, Bool.false_eq_true, if_false]

/-- **C32.** A poll without incoming values calls the closure with the data if `p` or an enclosing
path was changed from outside since the last poll; without collisions not otherwise. -/
theorem bind_next {p : List Layer} {i : Nat} {h mid : List Event} {s s' : World} {w w' : Waker}
    {items : List Data} {r r' : Res} {c : Option Data} (hc : Created hash enc p i h s)
    (hp : wstep hash enc s (.pollBind p i w items false) = some r) (heff : r.effect = .called c)
    (hm : WRun hash enc r.world mid s') (hn : ∀ e ∈ mid, Leaves i e)
    (hp' : wstep hash enc s' (.pollBind p i w' [] false) = some r') :
    ((∃ e ∈ mid, TellsAbout enc p e) → r'.effect = .called (getOpt p s'.data)) ∧
    ((∀ e ∈ mid, NoClashEvent hash enc p e) → (¬ ∃ e ∈ mid, TellsAbout enc p e) →
      r'.effect = .called none) := by
  have hw : Watch hash (.listen (p.map enc)) i w (mid.flatMap (·.trace)) s'.sys := by
    rcases pollBind_eq hp with ⟨_, rfl⟩ | ⟨_, _, h1⟩ | ⟨_, v', _, _, rfl⟩ |
      ⟨_, v', d, sys, out, sys2, tr2, f, rd, r2, hv', hset, h3, h4, h5, rfl⟩
    · cases heff
    · obtain ⟨sys, tr, f, rd, h1', rfl⟩ := pollForEach_eq h1
      exact hc.watch h1' rfl hm hn
    · cases heff
    · obtain ⟨sys3, tr3, f3, rd3, h6, rfl⟩ := pollForEach_eq h5
      obtain ⟨d, pre, s0, r, A, o, hpre, _, hi, e, _, _, hr1⟩ := hc.wf
      obtain ⟨l, _, hst, _⟩ := pollUntilChange_eq h6
      refine ⟨_, _, s0.sys, r.world.sys, sys2, sys3, o, _, hpre.sys, hi, e,
        (hr1.sys.append (Run.one h3)).append (pollUntilChange_run h4), hst, hm.sys, ?_⟩
      intro x hx
      obtain ⟨ev, hev, hx⟩ := List.mem_flatMap.1 hx
      exact hn ev hev x hx
  have hp'' : pollBind hash enc s' p i w' [] false = some r' := hp'
  rcases pollBind_eq hp'' with ⟨h, _⟩ | ⟨_, _, h1⟩ | ⟨_, v', h, _⟩ | ⟨_, v', d, sys, out, sys2, tr2, f, rd, r2, h, _⟩
  · cases h
  · obtain ⟨sys', tr', f', rd', h1', rfl⟩ := pollForEach_eq h1
    obtain ⟨rfl, k1, k2⟩ := ready_iff hw h1'
    constructor
    · intro ht; simp only [k1 ht, Bool.or_true, if_true]
    · intro hcl hno
      have : rd' = false := by
        rw [Bool.eq_false_iff]; exact fun e => hno (k2 hcl e)
      simp only [this, Bool.or_self, Bool.false_eq_true, if_false]
  · cases h
  · cases h

/-- **C32 (partial).** The closure is called with the data at the first poll, if nothing came in by
then. Without the last condition this is false, see `bind_incoming` and `bind_first_call_skipped`. -/
theorem bind_first_partial {p : List Layer} {i : Nat} {h : List Event} {s : World} {w : Waker} {r : Res}
    (hc : Created hash enc p i h s) (hn : ∀ e ∈ h, Leaves i e)
    (hp : wstep hash enc s (.pollBind p i w [] false) = some r) : r.effect = .called (getOpt p s.data) :=
  forEach_first (enc := enc) hc hn (r := r) (w := w) hp

/-- **C32.** The future ends when the incoming stream ends. **Negation** of "the last incoming value is
written": values that come in together with the end are lost. -/
theorem bind_ends (s : World) (p : List Layer) (i : Nat) (w : Waker) (items : List Data) :
    wstep hash enc s (.pollBind p i w items true) = some ⟨s, [], .done⟩ := rfl

/-! ## Examples -/

/-- Running operations, for the examples. -/
def wexec (hash : Path → BitVec 64) (enc : Layer → Seg) (s : World) : List WOp → Option (World × List Event)
  | [] => some (s, [])
  | op :: ops =>
    match wstep hash enc s op with
    | none => none
    | some r =>
      match wexec hash enc r.world ops with
      | none => none
      | some (s2, h) => some (s2, ⟨op, r.trace, r.effect, s.data, r.world.data⟩ :: h)

theorem wrun_of_wexec : ∀ (ops : List WOp) (s s' : World) (h : List Event),
    wexec hash enc s ops = some (s', h) → WRun hash enc s h s'
  | [], s, s', h, e => by cases e; exact .nil s
  | op :: ops, s, s', h, e => by
    simp only [wexec] at e
    split at e
    · cases e
    · rename_i r h1
      split at e
      · cases e
      · rename_i s2 h2 h3
        cases e
        exact .cons h1 (wrun_of_wexec ops _ s' h2 h3)

def sampleEnc : Layer → Seg
  | .field i => i
  | .variant t i => 10 + 5 * t + i
  | .index i => 40 + i
  | .key k => 60 + k
  | .deref => 0
  | .rcContent => 0

/-- Two fields, the first an option. -/
def sampleData (a b : Nat) : Data := .struct [.enum 0 [.leaf a], .leaf b]

/-- The path to the content of the option. -/
def samplePath : List Layer := [.field 0, .variant 0 0]

/-- A `for_each` on the content of an option: first poll, an outside write, removal and insertion. -/
example : (wexec sampleHash sampleEnc (World.init (sampleData 1 2)) [
      .sub (.listen (samplePath.map sampleEnc)),
      .pollForEach samplePath 0 (some 7),
      .write samplePath (.leaf 3),
      .pollForEach samplePath 0 (some 7),
      .write [.field 0] (.enum 1 []),
      .pollForEach samplePath 0 (some 7),
      .write [.field 1] (.leaf 9),
      .pollForEach samplePath 0 (some 7),
      .write [] (sampleData 4 5),
      .pollForEach samplePath 0 (some 7)]).map (fun x => x.2.map (·.effect)) =
    some [.none, .called (some (.leaf 1)), .none, .called (some (.leaf 3)), .none, .called none, .none,
      .called none, .none, .called (some (.leaf 4))] := by rfl

/-- A `signal_stream(true)` and a `for_each_async` on the same path. -/
example : (wexec sampleHash sampleEnc (World.init (sampleData 1 2)) [
      .sub (.listen (samplePath.map sampleEnc)),
      .sub (.listen (samplePath.map sampleEnc)),
      .pollSignal true samplePath 0 (some 7),
      .pollForEachAsync samplePath 1 (some 8) false,
      .write samplePath (.leaf 3),
      .pollSignal true samplePath 0 (some 7),
      .pollForEachAsync samplePath 1 (some 8) false,
      .pollSignal true samplePath 0 (some 7),
      .write [.field 0] (.enum 1 []),
      .pollForEachAsync samplePath 1 (some 8) true,
      .pollSignal true samplePath 0 (some 7)]).map (fun x => x.2.map (·.effect)) =
    some [.none, .none, .yielded (some (.leaf 1)), .async none (some (.leaf 1)), .none,
      .yielded (some (.leaf 3)), .async (some (.leaf 1)) (some (.leaf 3)), .pending, .none,
      .async none (some (.leaf 3)), .yielded none] := by rfl

/-- A binding: first call, incoming values, an outside write. -/
example : (wexec sampleHash sampleEnc (World.init (sampleData 1 2)) [
      .sub (.listen (samplePath.map sampleEnc)),
      .pollBind samplePath 0 (some 7) [] false,
      .pollBind samplePath 0 (some 7) [.leaf 5, .leaf 6] false,
      .write samplePath (.leaf 8),
      .pollBind samplePath 0 (some 7) [] false,
      .pollBind samplePath 0 (some 7) [.leaf 9] true]).map (fun x => (x.2.map (·.effect), x.1.data)) =
    some ([.none, .called (some (.leaf 1)), .called none, .none, .called (some (.leaf 8)), .done],
      sampleData 8 2) := by rfl

theorem created_of_wexec {p : List Layer} {d : Data} {ops : List WOp} {s : World} {e : Event} {h : List Event}
    (hx : wexec hash enc (World.init d) (.sub (.listen (p.map enc)) :: ops) = some (s, e :: h)) :
    Created hash enc p 0 h s := by
  simp only [wexec] at hx
  split at hx
  · cases hx
  · rename_i r h1
    split at hx
    · cases hx
    · rename_i s2 h2 h3
      cases hx
      exact ⟨d, [], _, r, .nil _, rfl, h1, wrun_of_wexec _ _ _ _ h3⟩

/-- **C32, negation**: the closure is not called in the beginning if a value comes in before the first
poll, although the data is there. -/
theorem bind_first_call_skipped : ∃ s r,
    Created sampleHash sampleEnc samplePath 0 [] s ∧
    wstep sampleHash sampleEnc s (.pollBind samplePath 0 (some 7) [.leaf 5] false) = some r ∧
    getOpt samplePath s.data = some (.leaf 1) ∧ r.effect = .called none := by
  have hx : ∃ s e, wexec sampleHash sampleEnc (World.init (sampleData 1 2))
      [.sub (.listen (samplePath.map sampleEnc))] = some (s, [e]) ∧ s.data = sampleData 1 2 := ⟨_, _, rfl, rfl⟩
  obtain ⟨s, e, hx, hd⟩ := hx
  have hc := created_of_wexec hx
  have hp : ∃ r, wstep sampleHash sampleEnc s (.pollBind samplePath 0 (some 7) [.leaf 5] false) = some r := by
    cases hx; exact ⟨_, rfl⟩
  obtain ⟨r, hp⟩ := hp
  refine ⟨s, r, hc, hp, by rw [hd]; rfl, ?_⟩
  rcases bind_incoming hc rfl hp with ⟨hno, _⟩ | ⟨_, _, h, _⟩
  · rw [hd] at hno; cases hno
  · exact h

/-- The hypotheses of `forEach_up_to_date` are met by a history with writes and polls. -/
example : ∃ s h, Created sampleHash sampleEnc samplePath 0 h s ∧ h.length = 3 ∧
    ∀ e ∈ h, (∃ w, e.op = .pollForEach samplePath 0 w) ∨ (Leaves 0 e ∧ Announced sampleEnc samplePath e) := by
  have hx : ∃ s e1 e2 e3 e4, wexec sampleHash sampleEnc (World.init (sampleData 1 2))
      [.sub (.listen (samplePath.map sampleEnc)), .pollForEach samplePath 0 (some 7),
        .write [.field 0] (.enum 0 [.leaf 6]), .write [.field 1] (.leaf 9)] = some (s, [e1, e2, e3, e4]) ∧
      e2.op = .pollForEach samplePath 0 (some 7) ∧ e3.trace = [(.change [0], .woken [some 7])] ∧
      e4.trace = [(.change [1], .woken [])] ∧ getOpt samplePath e4.after = getOpt samplePath e4.before :=
    ⟨_, _, _, _, _, rfl, rfl, rfl, rfl, rfl⟩
  obtain ⟨s, e1, e2, e3, e4, hx, h2, h3, h4, h5⟩ := hx
  refine ⟨s, _, created_of_wexec hx, rfl, ?_⟩
  intro e he
  simp only [List.mem_cons, List.not_mem_nil, or_false] at he
  rcases he with rfl | rfl | rfl
  · exact .inl ⟨_, h2⟩
  · exact .inr ⟨by simp [Leaves, h3, Op.touches], .inr ⟨[0], _, by decide, by rw [h3]; exact List.mem_cons_self⟩⟩
  · exact .inr ⟨by simp [Leaves, h4, Op.touches], .inl h5⟩

end Verif.XBow
