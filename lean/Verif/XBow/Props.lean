import Verif.XBow.Inv
/-!
# C25-C29 and the x-bow half of C23

A path `p` encloses `q` (or is `q`) if the list `p` is a prefix of `q`, written `p <+: q`. The hash
function is arbitrary unless a hypothesis says otherwise.
-/
namespace Verif.XBow

theorem mem_visited {p q : Path} : p ∈ visited q ↔ p <+: q := by
  induction q generalizing p with
  | nil => simp [visited]
  | cons a q ih =>
    simp only [visited, List.mem_cons, List.mem_map]
    constructor
    · rintro (rfl | ⟨p', hp, rfl⟩)
      · exact List.nil_prefix
      · exact (List.prefix_cons_inj a).2 (ih.1 hp)
    · intro h
      cases p with
      | nil => exact .inl rfl
      | cons b p =>
        obtain ⟨rfl, h'⟩ := List.cons_prefix_cons.1 h
        exact .inr ⟨p, ih.2 h', rfl⟩

/-- Listener number `i` was created by the operation `create`, was polled with the waker `w`, and
`mid` is what has happened since that poll (no poll and no drop of this listener); `s` is the state
now. Anything may have happened before, also between creation and that poll. -/
def Watch (hash : Path → BitVec 64) (create : Op) (i : Nat) (w : Waker) (mid : List (Op × Out))
    (s : Sys) : Prop :=
  ∃ pre m1 s0 s1 s2 s3 o o', Run hash init pre s0 ∧ i = s0.listeners.length ∧
    step hash s0 create = some (s1, o) ∧ Run hash s1 m1 s2 ∧
    step hash s2 (.poll i w) = some (s3, o') ∧ Run hash s3 mid s ∧ ∀ e ∈ mid, e.1.touches i = false

/-- The keys a new listener subscribes to. -/
def createKeys (hash : Path → BitVec 64) : Op → List Key
  | .listen p => (visited p).map (regularKey hash)
  | .listenBubbling p => [bubblingKey hash p]
  | _ => []

theorem watch_spec {hash : Path → BitVec 64} {create : Op} {i : Nat} {w : Waker}
    {mid : List (Op × Out)} {s : Sys} (h : Watch hash create i w mid s)
    (hc : (∃ q, create = .listen q) ∨ ∃ q, create = .listenBubbling q) :
    ∃ A l, WF s A ∧ s.listeners[i]? = some (some l) ∧ l.slots.map (·.1) = createKeys hash create ∧
      (∀ y ∈ l.slots, ∃ v, Has A y.1 y.2 w v) ∧ 1 ≤ l.lastVersion ∧
      sumVer A l.slots = l.lastVersion + hits hash mid l.slots := by
  obtain ⟨pre, m1, s0, s1, s2, s3, o, o', hpre, hi, hcr, hm1, hp, hmid, hno⟩ := h
  obtain ⟨A0, hw0⟩ := run_inv hpre _ init_wf
  obtain ⟨A1, hw1, _, hd⟩ := step_inv hw0 hcr
  obtain ⟨l0, hl0, hk0⟩ : ∃ l, s1.listeners = s0.listeners ++ [some l] ∧
      l.slots.map (·.1) = createKeys hash create := by
    rcases hc with ⟨q, rfl⟩ | ⟨q, rfl⟩
    · obtain ⟨l, h1, _, h3⟩ := hd; exact ⟨l, h1, h3⟩
    · obtain ⟨l, h1, _, h3⟩ := hd; exact ⟨l, h1, h3⟩
  have hg0 : s1.listeners[i]? = some (some l0) := by rw [hl0, hi]; simp
  obtain ⟨A2, hw2⟩ := run_inv hm1 _ hw1
  obtain ⟨o2, ho2, hs2⟩ := run_slots hm1 A1 i _ hw1 hg0
  obtain ⟨A3, hw3, _, l2, hl2, hset, _, hver, hhas⟩ := step_inv hw2 hp
  rw [ho2] at hl2; cases hl2
  obtain ⟨l0', e0, hsl⟩ := hs2 l2 rfl
  cases e0
  have hlt : i < s2.listeners.length := (List.getElem?_eq_some_iff.1 ho2).1
  have hg3 : s3.listeners[i]? = some (some ⟨sumVer A2 l2.slots, l2.slots⟩) := by
    rw [hset]; exact List.getElem?_set_self hlt
  have hsv : sumVer A3 l2.slots = sumVer A2 l2.slots := by
    simp only [sumVer, hver]
  obtain ⟨A, hw, hl, hh, hs⟩ := run_same hmid A3 i ⟨sumVer A2 l2.slots, l2.slots⟩ w hw3 hg3 hhas hno
  refine ⟨A, ⟨sumVer A2 l2.slots, l2.slots⟩, hw, hl, ?_, hh, sumVer_pos hw2 ho2, ?_⟩
  · rw [← hk0, ← hsl]
  · rw [hs]; simp only; rw [hsv]

/-- The keys of a listener and the keys of the changes since its poll decide about readiness. -/
theorem ready_iff_key {hash : Path → BitVec 64} {create : Op} {i : Nat} {w w' : Waker}
    {mid : List (Op × Out)} {s s' : Sys} {o : Out} (h : Watch hash create i w mid s)
    (hc : (∃ q, create = .listen q) ∨ ∃ q, create = .listenBubbling q)
    (hp : step hash s (.poll i w') = some (s', o)) :
    ∃ b, o = .polled b ∧
      (b = true ↔ ∃ e ∈ mid, ∃ k ∈ createKeys hash create, k ∈ e.1.keys hash) := by
  obtain ⟨A, l, hw, hl, hk, _, h1, hs⟩ := watch_spec h hc
  obtain ⟨A', _, _, l', hl', _, ho, _⟩ := step_inv hw hp
  rw [hl] at hl'; cases hl'
  refine ⟨_, ho, ?_⟩
  rw [← hk, ← hits_pos, hs]
  simp only [Bool.and_eq_true, decide_eq_true_eq]
  omega

theorem woken_of_key {hash : Path → BitVec 64} {create : Op} {i : Nat} {w : Waker}
    {mid : List (Op × Out)} {s s' : Sys} {o : Out} {p : Path} (h : Watch hash create i w mid s)
    (hc : (∃ q, create = .listen q) ∨ ∃ q, create = .listenBubbling q)
    (hp : step hash s (.change p) = some (s', o))
    (hk : ∃ k ∈ createKeys hash create, k ∈ (Op.change p).keys hash) : ∃ ws, o = .woken ws ∧ w ∈ ws := by
  obtain ⟨A, l, hw, hl, hks, hh, _, _⟩ := watch_spec h hc
  obtain ⟨A', _, hu, _⟩ := step_inv hw hp
  obtain ⟨k, hk1, hk2⟩ := hk
  rw [← hks] at hk1
  obtain ⟨y, hy, rfl⟩ := List.mem_map.1 hk1
  obtain ⟨v, hv⟩ := hh y hy
  exact ((hu i l rfl hl).2 y hy w v hv).2 hk2

/-- No operation on existing listeners panics, whatever the hash function does (C29: in particular
dropping a listener). -/
theorem no_panic {hash : Path → BitVec 64} {pre : List (Op × Out)} {s : Sys} (h : Run hash init pre s)
    (op : Op) (ha : allowed s op) : ∃ s' o, step hash s op = some (s', o) := by
  obtain ⟨A, hw⟩ := run_inv h _ init_wf
  obtain ⟨s', o, _, e, _⟩ := step_wf (hash := hash) hw op ha
  exact ⟨s', o, e⟩

/-- **C25, wake-up.** A change of `p` calls the waker with which a listener on `p` or on a path below
`p` was last polled. -/
theorem change_wakes_below {hash : Path → BitVec 64} {p q : Path} {i : Nat} {w : Waker}
    {mid : List (Op × Out)} {s s' : Sys} {o : Out} (h : Watch hash (.listen q) i w mid s)
    (hpq : p <+: q) (hc : step hash s (.change p) = some (s', o)) : ∃ ws, o = .woken ws ∧ w ∈ ws :=
  woken_of_key h (.inl ⟨q, rfl⟩) hc
    ⟨regularKey hash p, List.mem_map_of_mem (mem_visited.2 hpq), by simp [Op.keys]⟩

/-- **C25, readiness.** After a change of `p` since its last poll, a listener on `p` or on a path
below `p` is ready at its next poll. -/
theorem change_ready_below {hash : Path → BitVec 64} {p q : Path} {i : Nat} {w w' : Waker}
    {mid : List (Op × Out)} {s s' : Sys} {o o' : Out} (h : Watch hash (.listen q) i w mid s)
    (hpq : p <+: q) (hm : (.change p, o') ∈ mid) (hp : step hash s (.poll i w') = some (s', o)) :
    o = .polled true := by
  obtain ⟨b, rfl, hb⟩ := ready_iff_key h (.inl ⟨q, rfl⟩) hp
  rw [hb.2 ⟨_, hm, regularKey hash p, List.mem_map_of_mem (mem_visited.2 hpq), by simp [Op.keys]⟩]

/-- The keys of the changed path `p` do not collide with those of a listener on `q`. -/
structure NoClash (hash : Path → BitVec 64) (q p : Path) : Prop where
  regular : ∀ q', q' <+: q → regularKey hash q' = regularKey hash p → q' = p
  bubbling : ∀ q' p', q' <+: q → p' <+: p → regularKey hash q' ≠ bubblingKey hash p'

/-- **C26.** If the keys of the paths involved do not collide, a listener on `q` that has been
polled is ready at its next poll exactly if `q` or a path enclosing `q` was changed in between. -/
theorem ready_iff_enclosing_changed {hash : Path → BitVec 64} {q : Path} {i : Nat} {w w' : Waker}
    {mid : List (Op × Out)} {s s' : Sys} {o : Out} (h : Watch hash (.listen q) i w mid s)
    (hn : ∀ p o, (.change p, o) ∈ mid → NoClash hash q p)
    (hp : step hash s (.poll i w') = some (s', o)) :
    ∃ b, o = .polled b ∧ (b = true ↔ ∃ p o, (.change p, o) ∈ mid ∧ p <+: q) := by
  obtain ⟨b, rfl, hb⟩ := ready_iff_key h (.inl ⟨q, rfl⟩) hp
  refine ⟨b, rfl, hb.trans ?_⟩
  constructor
  · rintro ⟨⟨op, o⟩, he, k, hk, hke⟩
    obtain ⟨q', hq', rfl⟩ := List.mem_map.1 hk
    cases op with
    | change p =>
      have hnc := hn p o he
      simp only [Op.keys, List.mem_append, List.mem_map, List.mem_singleton] at hke
      rcases hke with ⟨p', hp', e⟩ | e
      · exact (hnc.bubbling q' p' (mem_visited.1 hq') (mem_visited.1 hp') e.symm).elim
      · have := hnc.regular q' (mem_visited.1 hq') e
        exact ⟨p, o, he, this ▸ mem_visited.1 hq'⟩
    | listen p => simp [Op.keys] at hke
    | listenBubbling p => simp [Op.keys] at hke
    | poll j w => simp [Op.keys] at hke
    | drop j => simp [Op.keys] at hke
  · rintro ⟨p, o, he, hpq⟩
    exact ⟨_, he, regularKey hash p, List.mem_map_of_mem (mem_visited.2 hpq), by simp [Op.keys]⟩

/-- The keys of the changed path `p` do not collide with that of a bubbling listener on `q`. -/
structure NoClashBubbling (hash : Path → BitVec 64) (q p : Path) : Prop where
  bubbling : ∀ p', p' <+: p → bubblingKey hash q = bubblingKey hash p' → q = p'
  regular : bubblingKey hash q ≠ regularKey hash p

/-- **C27, wake-up.** -/
theorem change_wakes_above {hash : Path → BitVec 64} {p q : Path} {i : Nat} {w : Waker}
    {mid : List (Op × Out)} {s s' : Sys} {o : Out} (h : Watch hash (.listenBubbling q) i w mid s)
    (hpq : q <+: p) (hc : step hash s (.change p) = some (s', o)) : ∃ ws, o = .woken ws ∧ w ∈ ws :=
  woken_of_key h (.inr ⟨q, rfl⟩) hc
    ⟨bubblingKey hash q, by simp [createKeys], List.mem_append_left _ (List.mem_map_of_mem (mem_visited.2 hpq))⟩

/-- **C27, must fire**, for any hash function: a bubbling listener on `q` is ready after a change of
`q` or of a path below `q`. -/
theorem change_ready_above {hash : Path → BitVec 64} {p q : Path} {i : Nat} {w w' : Waker}
    {mid : List (Op × Out)} {s s' : Sys} {o o' : Out} (h : Watch hash (.listenBubbling q) i w mid s)
    (hpq : q <+: p) (hm : (.change p, o') ∈ mid) (hp : step hash s (.poll i w') = some (s', o)) :
    o = .polled true := by
  obtain ⟨b, rfl, hb⟩ := ready_iff_key h (.inr ⟨q, rfl⟩) hp
  rw [hb.2 ⟨_, hm, bubblingKey hash q, by simp [createKeys],
    List.mem_append_left _ (List.mem_map_of_mem (mem_visited.2 hpq))⟩]

/-- **C27, must not fire** without collisions: ready exactly if `q` or a path below was changed. -/
theorem ready_iff_inside_changed {hash : Path → BitVec 64} {q : Path} {i : Nat} {w w' : Waker}
    {mid : List (Op × Out)} {s s' : Sys} {o : Out} (h : Watch hash (.listenBubbling q) i w mid s)
    (hn : ∀ p o, (.change p, o) ∈ mid → NoClashBubbling hash q p)
    (hp : step hash s (.poll i w') = some (s', o)) :
    ∃ b, o = .polled b ∧ (b = true ↔ ∃ p o, (.change p, o) ∈ mid ∧ q <+: p) := by
  obtain ⟨b, rfl, hb⟩ := ready_iff_key h (.inr ⟨q, rfl⟩) hp
  refine ⟨b, rfl, hb.trans ?_⟩
  constructor
  · rintro ⟨⟨op, o⟩, he, k, hk, hke⟩
    simp only [createKeys, List.mem_singleton] at hk
    subst hk
    cases op with
    | change p =>
      have hnc := hn p o he
      simp only [Op.keys, List.mem_append, List.mem_map, List.mem_singleton] at hke
      rcases hke with ⟨p', hp', e⟩ | e
      · have := hnc.bubbling p' (mem_visited.1 hp') e.symm
        exact ⟨p, o, he, this ▸ mem_visited.1 hp'⟩
      · exact (hnc.regular e).elim
    | listen p => simp [Op.keys] at hke
    | listenBubbling p => simp [Op.keys] at hke
    | poll j w => simp [Op.keys] at hke
    | drop j => simp [Op.keys] at hke
  · rintro ⟨p, o, he, hpq⟩
    exact ⟨_, he, bubblingKey hash q, by simp [createKeys],
      List.mem_append_left _ (List.mem_map_of_mem (mem_visited.2 hpq))⟩

/-- **C23, x-bow, negation.** The first poll of a listener is pending, whatever changed since it was
created. -/
theorem fresh_listener_pending {hash : Path → BitVec 64} {create : Op} {pre mid : List (Op × Out)}
    {s s1 s2 s3 : Sys} {w : Waker} {o o' : Out}
    (hc : (∃ q, create = .listen q) ∨ ∃ q, create = .listenBubbling q) (hr : Run hash init pre s)
    (hl : step hash s create = some (s1, o)) (hm : Run hash s1 mid s2)
    (hno : ∀ e ∈ mid, e.1.touches s.listeners.length = false)
    (hp : step hash s2 (.poll s.listeners.length w) = some (s3, o')) : o' = .polled false := by
  obtain ⟨A0, hw0⟩ := run_inv hr _ init_wf
  obtain ⟨A1, hw1, _, hd⟩ := step_inv hw0 hl
  obtain ⟨l0, hl0, hv0⟩ : ∃ l, s1.listeners = s.listeners ++ [some l] ∧ l.lastVersion = 0 := by
    rcases hc with ⟨q, rfl⟩ | ⟨q, rfl⟩
    · obtain ⟨l, h1, h2, _⟩ := hd; exact ⟨l, h1, h2⟩
    · obtain ⟨l, h1, h2, _⟩ := hd; exact ⟨l, h1, h2⟩
  have hg0 : s1.listeners[s.listeners.length]? = some (some l0) := by rw [hl0]; simp
  have key : ∀ (s1 s2 : Sys) (mid : List (Op × Out)), Run hash s1 mid s2 → ∀ A, WF s1 A → ∀ i l,
      s1.listeners[i]? = some (some l) → (∀ e ∈ mid, e.1.touches i = false) →
      ∃ A', WF s2 A' ∧ s2.listeners[i]? = some (some l) := by
    intro s1 s2 mid hm
    induction hm with
    | nil s => intro A hw i l hl _; exact ⟨A, hw, hl⟩
    | cons e _ ih =>
      intro A hw i l hl ht
      obtain ⟨A1, hw1, hu, _⟩ := step_inv hw e
      exact ih A1 hw1 i l (hu i l (ht _ List.mem_cons_self) hl).1
        (fun e he => ht e (List.mem_cons_of_mem _ he))
  obtain ⟨A2, hw2, hg2⟩ := key _ _ _ hm A1 hw1 _ l0 hg0 hno
  obtain ⟨_, _, _, l', hl', _, ho, _⟩ := step_inv hw2 hp
  rw [hg2] at hl'; cases hl'
  rw [ho, hv0]; rfl

/-- **C29.** When all listeners are dropped no entry is left in the map, and the arena is one in
which everything was given back. -/
theorem all_released {hash : Path → BitVec 64} {pre : List (Op × Out)} {s : Sys}
    (h : Run hash init pre s) (hd : ∀ o ∈ s.listeners, o = none) :
    s.wakers.map = [] ∧ Arena.Run none s.wakers.all [] := by
  obtain ⟨A, hw⟩ := run_inv h _ init_wf
  have hown : own s = [] := by
    simp only [own, List.flatMap_eq_nil_iff]
    intro o ho
    rw [hd o ho]; rfl
  have hA : A = [] := by
    cases hA : A with
    | nil => rfl
    | cons r B =>
      have hr := (hw.ok r (by rw [hA]; simp)).1
      obtain ⟨y, hy⟩ := List.exists_mem_of_ne_nil _ hr
      have hm : (r.key, y.1) ∈ pairs A := by
        rw [hA]; exact List.mem_flatMap.2 ⟨r, by simp, List.mem_map.2 ⟨y, hy, rfl⟩⟩
      have h1 := hw.count (r.key, y.1)
      rw [hown, List.count_nil] at h1
      have h2 := List.count_pos_iff.2 hm
      omega
  subst hA
  exact ⟨hw.sim.map, hw.sim.run⟩

/-- While a listener lives, the store holds an entry for each of its keys; entries exist only for keys
of listeners that live. -/
theorem entries_are_needed {hash : Path → BitVec 64} {pre : List (Op × Out)} {s : Sys}
    (h : Run hash init pre s) (k : Key) :
    k ∈ s.wakers.map.map (·.1) ↔ ∃ l, some l ∈ s.listeners ∧ k ∈ l.slots.map (·.1) := by
  obtain ⟨A, hw⟩ := run_inv h _ init_wf
  have hperm := hw.perm
  rw [hw.sim.map]
  simp only [toMap, List.map_map, Function.comp_def]
  constructor
  · intro hk
    obtain ⟨r, hr, rfl⟩ := List.mem_map.1 hk
    obtain ⟨y, hy⟩ := List.exists_mem_of_ne_nil _ (hw.ok r hr).1
    have hm : (r.key, y.1) ∈ own s :=
      hperm.mem_iff.2 (List.mem_flatMap.2 ⟨r, hr, List.mem_map.2 ⟨y, hy, rfl⟩⟩)
    obtain ⟨o, ho, hm⟩ := List.mem_flatMap.1 hm
    cases o with
    | none => cases hm
    | some l => exact ⟨l, ho, List.mem_map.2 ⟨_, hm, rfl⟩⟩
  · rintro ⟨l, hl, hk⟩
    obtain ⟨y, hy, rfl⟩ := List.mem_map.1 hk
    have hm : y ∈ pairs A := hperm.mem_iff.1 (List.mem_flatMap.2 ⟨_, hl, hy⟩)
    obtain ⟨r, hr, hm⟩ := List.mem_flatMap.1 hm
    obtain ⟨z, _, e⟩ := List.mem_map.1 hm
    exact List.mem_map.2 ⟨r, hr, by rw [← e]⟩

/-! ## C28 -/

theorem regularFrom_low (h : BitVec 64) (d : BitVec 8) : (regularFrom h d).setWidth 8 = d := by
  apply BitVec.eq_of_getLsbD_eq
  intro i hi
  simp only [regularFrom, BitVec.getLsbD_setWidth, BitVec.getLsbD_or, BitVec.getLsbD_and,
    BitVec.getLsbD_not, hi, decide_true, Bool.true_and]
  have h64 : i < 64 := by omega
  have : (0xFF#64).getLsbD i = true := by
    have : i = 0 ∨ i = 1 ∨ i = 2 ∨ i = 3 ∨ i = 4 ∨ i = 5 ∨ i = 6 ∨ i = 7 := by omega
    rcases this with rfl | rfl | rfl | rfl | rfl | rfl | rfl | rfl <;> rfl
  rw [this]; simp [h64]

/-- **C28 (partial: regular keys, lengths that differ modulo 256).** Whatever the hash function
does, listeners of `until_change` at paths of such different lengths do not share a key. -/
theorem regular_keys_differ_partial (hash : Path → BitVec 64) (p q : Path)
    (h : p.length % 256 ≠ q.length % 256) : regularKey hash p ≠ regularKey hash q := by
  intro e
  have := congrArg (BitVec.setWidth 8) e
  simp only [regularKey, regularFrom_low, depthOf] at this
  have := congrArg BitVec.toNat this
  simp only [BitVec.toNat_ofNat] at this
  omega

/-- **C28, consequence**: a change at another depth (modulo 256) does not make an `until_change`
listener of the root ready, unless a bubbling key collides with its key. -/
theorem root_not_ready_for_deep_change_partial {hash : Path → BitVec 64} {i : Nat} {w w' : Waker}
    {mid : List (Op × Out)} {s s' : Sys} {o : Out} (h : Watch hash (.listen []) i w mid s)
    (hd : ∀ p o, (.change p, o) ∈ mid → p.length % 256 ≠ 0 ∧
      ∀ p', p' <+: p → regularKey hash [] ≠ bubblingKey hash p')
    (hp : step hash s (.poll i w') = some (s', o)) : o = .polled false := by
  obtain ⟨b, rfl, hb⟩ := ready_iff_enclosing_changed h (fun p o hm => ⟨by
      intro q' hq' e
      have : q' = [] := List.prefix_nil.1 hq'
      subst this
      exact (regular_keys_differ_partial hash [] p (by simpa using fun e => (hd p o hm).1 e.symm) e).elim, by
      intro q' p' hq' hp'
      have : q' = [] := List.prefix_nil.1 hq'
      subst this
      exact (hd p o hm).2 p' hp'⟩) hp
  congr 1
  rw [Bool.eq_false_iff]
  intro e
  obtain ⟨p, o, hm, hpq⟩ := hb.1 e
  have : p = [] := List.prefix_nil.1 hpq
  subst this
  exact (hd [] o hm).1 rfl

/-- **C28, negation**: the depth is kept in one byte; two paths whose lengths differ by 256 can have
the same key. -/
theorem regular_keys_wrap (h : BitVec 64) (p q : Path) (hl : q.length = p.length + 256) :
    regularKey (fun _ => h) p = regularKey (fun _ => h) q ∧ p.length ≠ q.length := by
  refine ⟨?_, by omega⟩
  simp only [regularKey, depthOf]
  congr 1
  apply BitVec.eq_of_toNat_eq
  simp only [BitVec.toNat_ofNat]
  omega

/-- **C28, negation**: bubbling keys do not contain the depth. If the segment `a` does not change the
hash (a map key of type `()` writes nothing to the hasher), the child has the bubbling key of its
parent, and a bubbling listener on the child becomes ready when only the parent was changed. -/
theorem bubbling_ignores_depth {hash : Path → BitVec 64} {q : Path} {a : Seg} {i : Nat} {w w' : Waker}
    {mid : List (Op × Out)} {s s' : Sys} {o o' : Out} (hq : hash (q ++ [a]) = hash q)
    (h : Watch hash (.listenBubbling (q ++ [a])) i w mid s) (hm : (.change q, o') ∈ mid)
    (hp : step hash s (.poll i w') = some (s', o)) : o = .polled true := by
  obtain ⟨b, rfl, hb⟩ := ready_iff_key h (.inr ⟨_, rfl⟩) hp
  rw [hb.2 ⟨_, hm, bubblingKey hash q, by simp [createKeys, bubblingKey, hq],
    List.mem_append_left _ (List.mem_map_of_mem (mem_visited.2 (List.prefix_refl q)))⟩]

/-- **C28, negation**: a regular key can be equal to a bubbling key of a path of another depth. -/
theorem regular_meets_bubbling : ∃ hash : Path → BitVec 64, regularKey hash [] = bubblingKey hash [0] := by
  refine ⟨fun p => if p = [0] then regularFrom 0 1 ^^^ 0x33b741db0040f7e#64 else 0, ?_⟩
  decide

/-! ## Examples -/

/-- Running operations, for the examples. -/
def exec (hash : Path → BitVec 64) (s : Sys) : List Op → Option (Sys × List (Op × Out))
  | [] => some (s, [])
  | op :: ops =>
    match step hash s op with
    | none => none
    | some (s1, o) =>
      match exec hash s1 ops with
      | none => none
      | some (s2, h) => some (s2, (op, o) :: h)

theorem run_of_exec {hash : Path → BitVec 64} : ∀ (ops : List Op) (s s' : Sys) (h : List (Op × Out)),
    exec hash s ops = some (s', h) → Run hash s h s'
  | [], s, s', h, e => by cases e; exact .nil s
  | op :: ops, s, s', h, e => by
    simp only [exec] at e
    split at e
    · cases e
    · rename_i s1 o h1
      split at e
      · cases e
      · rename_i s2 h2 h3
        cases e
        exact .cons h1 (run_of_exec ops s1 s' h2 h3)

theorem run_of_outs {hash : Path → BitVec 64} {ops : List Op} {h : List (Op × Out)}
    (e : (exec hash init ops).map (·.2) = some h) : ∃ s, Run hash init h s := by
  simp only [Option.map_eq_some_iff] at e
  obtain ⟨⟨s, h'⟩, e, rfl⟩ := e
  exact ⟨s, run_of_exec ops _ _ _ e⟩

/-- A hash function without collisions among short paths with small segments. -/
def sampleHash (p : Path) : BitVec 64 := BitVec.ofNat 64 ((p.foldl (fun n a => n * 100 + a + 1) 1) * 256 * 256)

/-- Two listeners at `[0]` and `[0, 1]`, a bubbling listener at `[0]`; changes at the root, at `[0, 1]`
and at a sibling, then polls. -/
example : ∃ s, Run sampleHash init [
    (.listen [0], .unit), (.listen [0, 1], .unit), (.listenBubbling [0], .unit),
    (.poll 0 (some 7), .polled false), (.poll 1 (some 8), .polled false), (.poll 2 (some 9), .polled false),
    (.change [0, 1], .woken [some 9, some 8]),
    (.poll 0 (some 7), .polled false), (.poll 1 (some 8), .polled true), (.poll 2 (some 9), .polled true),
    (.change [], .woken [some 7, some 8]), (.drop 1, .unit),
    (.change [3], .woken []),
    (.poll 0 (some 7), .polled true), (.poll 2 (some 9), .polled false), (.drop 0, .unit), (.drop 2, .unit)] s :=
  run_of_outs (ops := [.listen [0], .listen [0, 1], .listenBubbling [0], .poll 0 (some 7), .poll 1 (some 8),
    .poll 2 (some 9), .change [0, 1], .poll 0 (some 7), .poll 1 (some 8), .poll 2 (some 9), .change [],
    .drop 1, .change [3], .poll 0 (some 7), .poll 2 (some 9), .drop 0, .drop 2]) (by rfl)

/-- The constant hash function: everything of the same depth collides, nothing panics. -/
example : ∃ s, Run (fun _ => 0) init [
    (.listen [0], .unit), (.listen [1], .unit), (.poll 0 (some 7), .polled false),
    (.poll 1 (some 8), .polled false), (.change [1], .woken [some 7, some 8]), (.drop 0, .unit),
    (.poll 1 (some 8), .polled true), (.drop 1, .unit)] s :=
  run_of_outs (ops := [.listen [0], .listen [1], .poll 0 (some 7), .poll 1 (some 8), .change [1], .drop 0,
    .poll 1 (some 8), .drop 1]) (by rfl)

/-- C23: a change between creation and first poll is not noticed. -/
theorem change_before_first_poll_is_lost : ∃ s, Run sampleHash init [
    (.listen [0], .unit), (.change [0], .woken [none]), (.poll 0 (some 7), .polled false)] s :=
  run_of_outs (ops := [.listen [0], .change [0], .poll 0 (some 7)]) (by rfl)

theorem watch_of_outs {hash : Path → BitVec 64} {create : Op} {w : Waker} {ops : List Op}
    {o o' : Out} {mid : List (Op × Out)}
    (e : (exec hash init (create :: .poll 0 w :: ops)).map (·.2) = some ((create, o) :: (.poll 0 w, o') :: mid))
    (hn : ∀ e ∈ mid, e.1.touches 0 = false) : ∃ s, Watch hash create 0 w mid s := by
  obtain ⟨s, hr⟩ := run_of_outs e
  cases hr with
  | cons h1 hr => cases hr with
    | cons h2 hr => exact ⟨s, [], [], _, _, _, _, _, _, .nil _, rfl, h1, .nil _, h2, hr, hn⟩

/-- A state as in C25 and C26: a listener at `[0, 1]`, polled, then changes at a sibling, below and
at the parent. -/
theorem sample_watch : ∃ s, Watch sampleHash (.listen [0, 1]) 0 (some 7)
    [(.change [0, 2], .woken []), (.change [0, 1, 5], .woken []), (.change [0], .woken [some 7])] s :=
  watch_of_outs (ops := [.change [0, 2], .change [0, 1, 5], .change [0]]) (o := .unit) (o' := .polled false)
    (by rfl) (by simp [Op.touches])

/-- The same for C27: a bubbling listener at `[0]`, another listener comes and goes. -/
example : ∃ s, Watch sampleHash (.listenBubbling [0]) 0 (some 7)
    [(.change [1], .woken []), (.listen [0], .unit), (.drop 1, .unit), (.change [0, 1], .woken [some 7])] s :=
  watch_of_outs (ops := [.change [1], .listen [0], .drop 1, .change [0, 1]]) (o := .unit) (o' := .polled false)
    (by rfl) (by simp [Op.touches])

/-- For `root_not_ready_for_deep_change_partial`: a listener at the root, a change at `[4]`. -/
example : (∃ s, Watch sampleHash (.listen []) 0 (some 7) [(.change [4], .woken [])] s) ∧
    ∀ p', p' <+: [4] → regularKey sampleHash [] ≠ bubblingKey sampleHash p' := by
  refine ⟨watch_of_outs (ops := [.change [4]]) (o := .unit) (o' := .polled false) (by rfl)
    (by simp [Op.touches]), ?_⟩
  intro p' hp'
  rw [← mem_visited] at hp'
  revert p'
  decide

/-- For `bubbling_ignores_depth`: the segment 9 does not contribute to the hash; the listener at `[0, 9]`
is woken by a change of `[0]`. -/
example : ∃ s, Watch (fun p => sampleHash (p.filter (· ≠ 9))) (.listenBubbling [0, 9]) 0 (some 7)
    [(.change [0], .woken [some 7])] s :=
  watch_of_outs (ops := [.change [0]]) (o := .unit) (o' := .polled false) (by rfl) (by simp [Op.touches])

example : NoClash sampleHash [0, 1] [0] ∧ NoClash sampleHash [0, 1] [0, 2] ∧
    NoClash sampleHash [0, 1] [0, 1, 5] := by
  have h : ∀ p ∈ [[0], [0, 2], [0, 1, 5]], NoClash sampleHash [0, 1] p := by
    intro p hp
    refine ⟨?_, ?_⟩
    · intro q' hq' e
      rw [← mem_visited] at hq'
      revert q' p
      decide
    · intro q' p' hq' hp'
      rw [← mem_visited] at hq' hp'
      have : ∀ p ∈ [[0], [0, 2], [0, 1, 5]], ∀ q' ∈ visited [0, 1], ∀ p' ∈ visited p,
          regularKey sampleHash q' ≠ bubblingKey sampleHash p' := by decide
      exact this p hp q' hq' p' hp'
  exact ⟨h _ (by simp), h _ (by simp), h _ (by simp)⟩

example : NoClashBubbling sampleHash [0] [0, 1] ∧ NoClashBubbling sampleHash [0] [1] := by
  have h : ∀ p ∈ [[0, 1], [1]], NoClashBubbling sampleHash [0] p := by
    intro p hp
    refine ⟨?_, ?_⟩
    · intro p' hp' e
      rw [← mem_visited] at hp'
      revert p' p
      decide
    · revert p
      decide
  exact ⟨h _ (by simp), h _ (by simp)⟩

end Verif.XBow
