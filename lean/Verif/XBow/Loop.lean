import Verif.XBow.FollowProps
/-!
# C67: reading the data of a store and then waiting until it changes
-/
namespace Verif.XBow
open Data (Data Layer getOpt setOpt)

variable {hash : Path → BitVec 64} {enc : Layer → Seg}

/-- At some poll of `until_change` on the path `p` (listener `i`), the data at `p` was `x`; and all polls of it since
then were pending. This is a round of `loop { .. p.borrow_opt() ..; p.until_change().await }` that has not ended. -/
def ReadThenWaits (p : List Layer) (i : Nat) (h : List Event) (x : Option Data) : Prop :=
  ∃ a e c w, h = a ++ e :: c ∧ e.op = .sub (.poll i w) ∧ x = getOpt p e.before ∧
    ∀ e' ∈ c, ∀ w b, (.poll i w, .polled b) ∈ e'.trace → b = false

/-- Unless a change is pending that the listener will report, the data is `x`. -/
def Held (hash : Path → BitVec 64) (enc : Layer → Seg) (p : List Layer) (i : Nat) (s : World) (x : Option Data) :
    Prop :=
  ∃ A l, Fol hash ((visited (p.map enc)).map (regularKey hash)) s.sys i l A ∧ 1 ≤ l.lastVersion ∧
    l.lastVersion ≤ sumVer A l.slots ∧ (l.lastVersion = sumVer A l.slots → getOpt p s.data = x)

theorem sub_poll_eq {s : World} {i : Nat} {w : Waker} {r : Res} (h : wstep hash enc s (.sub (.poll i w)) = some r) :
    ∃ sys f rd, pollUntilChange hash s.sys i w = some (sys, r.trace, f, rd) ∧
      r.trace = [(.poll i w, .polled rd)] ∧ r.world = ⟨sys, s.data, s.running⟩ := by
  simp only [wstep, Option.bind_eq_bind, Option.bind_eq_some_iff, Option.pure_def, Option.some.injEq] at h
  obtain ⟨⟨sys, o⟩, h1, rfl⟩ := h
  have h2 := h1
  simp only [step] at h2
  split at h2
  · next l hl =>
    simp only [Option.bind_eq_bind, Option.bind_eq_some_iff, Option.pure_def, Option.some.injEq, Prod.mk.injEq] at h2
    obtain ⟨_, _, _, rfl⟩ := h2
    refine ⟨sys, !l.hasBeenPolled, _, ?_, rfl, rfl⟩
    simp only [pollUntilChange, hl, h1]
  · cases h2

theorem Held.other {p : List Layer} {i : Nat} {s : World} {x : Option Data} {op : WOp} {r : Res}
    (hs : Held hash enc p i s x) (h : wstep hash enc s op = some r) (ht : ∀ e ∈ r.trace, e.1.touches i = false)
    (ha : Announced enc p ⟨op, r.trace, r.effect, s.data, r.world.data⟩) : Held hash enc p i r.world x := by
  obtain ⟨A, l, hf, h1, hle, hl⟩ := hs
  obtain ⟨A', hf', hv⟩ := Fol.run (wstep_sys h) A hf ht
  refine ⟨A', l, hf', h1, by omega, ?_⟩
  intro heq
  rcases ha with ha | ⟨q, o, hq, hm⟩
  · simp only at ha
    rw [ha]
    exact hl (by omega)
  · exfalso
    have : 0 < hits hash r.trace l.slots := by
      rw [hits_pos]
      refine ⟨_, hm, regularKey hash q, ?_, by simp [Op.keys]⟩
      rw [hf.keys]
      exact List.mem_map_of_mem (mem_visited.2 hq)
    omega

theorem Held.poll {p : List Layer} {i : Nat} {s : World} {x : Option Data} {w : Waker} {sys : Sys} {tr : Trace}
    {first : Bool} {rn} (hs : Held hash enc p i s x)
    (h : pollUntilChange hash s.sys i w = some (sys, tr, first, false)) :
    Held hash enc p i ⟨sys, s.data, rn⟩ x ∧ getOpt p s.data = x := by
  obtain ⟨A, l, hf, h1, hle, hl⟩ := hs
  obtain ⟨-, h2, A', hf', hv, hpos⟩ := hf.poll h
  have heq : l.lastVersion = sumVer A l.slots := Classical.byContradiction fun hne => by
    have := h2.2 ⟨h1, hne⟩
    cases this
  refine ⟨⟨A', _, hf', hpos, by simp only; omega, fun _ => hl heq⟩, hl heq⟩

/-- Whatever the listener is, once it was polled it holds on to the data. -/
theorem Held.first {p : List Layer} {i : Nat} {s : World} {w : Waker} {sys : Sys} {tr : Trace}
    {first ready : Bool} {rn} {A : Abs} {l : Listener}
    (hf : Fol hash ((visited (p.map enc)).map (regularKey hash)) s.sys i l A)
    (h : pollUntilChange hash s.sys i w = some (sys, tr, first, ready)) :
    Held hash enc p i ⟨sys, s.data, rn⟩ (getOpt p s.data) := by
  obtain ⟨-, h2, A', hf', hv, hpos⟩ := hf.poll h
  exact ⟨A', _, hf', hpos, by simp only; omega, fun _ => rfl⟩

theorem Held.run {p : List Layer} {i : Nat} {s s' : World} {x : Option Data} {h : List Event}
    (hr : WRun hash enc s h s') : Held hash enc p i s x →
    (∀ e ∈ h, (∃ w, e.op = .sub (.poll i w)) ∨ (Leaves i e ∧ Announced enc p e)) →
    (∀ e' ∈ h, ∀ w b, (.poll i w, .polled b) ∈ e'.trace → b = false) → Held hash enc p i s' x := by
  induction hr with
  | nil => intro hs _ _; exact hs
  | cons e _ ih =>
    intro hs hn hp
    refine ih ?_ (fun e he => hn e (.tail _ he)) (fun e he => hp e (.tail _ he))
    rcases hn _ (.head _) with ⟨w, hop⟩ | ⟨hl, ha⟩
    · simp only at hop
      subst hop
      obtain ⟨sys, f, rd, h1, h2, h3⟩ := sub_poll_eq e
      have := hp _ (.head _) w rd (by simp [h2])
      subst this
      rw [h3]
      exact (hs.poll h1).1
    · exact hs.other e hl ha

theorem WRun.split {h h' : List Event} {s s2 : World} (hr : WRun hash enc s (h ++ h') s2) :
    ∃ s1, WRun hash enc s h s1 ∧ WRun hash enc s1 h' s2 := by
  induction h generalizing s with
  | nil => exact ⟨s, .nil s, hr⟩
  | cons x h ih =>
    cases hr with
    | cons e hr =>
      obtain ⟨s1, h1, h2⟩ := ih hr
      exact ⟨s1, .cons e h1, h2⟩

/-- A listener that exists. -/
theorem Created.fol_now {p : List Layer} {i : Nat} {h : List Event} {s : World} (hc : Created hash enc p i h s)
    (hn : ∀ e ∈ h, (∃ w, e.op = .sub (.poll i w)) ∨ (Leaves i e ∧ Announced enc p e)) :
    ∃ A l, Fol hash ((visited (p.map enc)).map (regularKey hash)) s.sys i l A := by
  obtain ⟨s1, ⟨A, l, hf, -⟩, hr⟩ := hc.sync
  clear hc
  induction hr generalizing A l with
  | nil => exact ⟨A, l, hf⟩
  | cons e _ ih =>
    rcases hn _ (.head _) with ⟨w, hop⟩ | ⟨hl, ha⟩
    · simp only at hop
      subst hop
      obtain ⟨sys, f, rd, h1, h2, h3⟩ := sub_poll_eq e
      obtain ⟨-, -, A', hf', -⟩ := hf.poll h1
      exact ih (fun e he => hn e (.tail _ he)) A' _ (by rw [h3]; exact hf')
    · obtain ⟨A', hf', -⟩ := Fol.run (wstep_sys e) A hf hl
      exact ih (fun e he => hn e (.tail _ he)) A' l hf'

/-- At the last poll of a loop that has read the data and waits, the data is the same. -/
theorem read_then_waits {p : List Layer} {i : Nat} {h1 : List Event} {s1 : World} {x : Option Data} {w : Waker} {r : Res}
    {mid : List Event} (hc : Created hash enc p i h1 s1) (hp : wstep hash enc s1 (.sub (.poll i w)) = some r)
    (hn : ∀ e ∈ h1, (∃ w, e.op = .sub (.poll i w)) ∨ (Leaves i e ∧ Announced enc p e))
    {s : World} (hm : WRun hash enc r.world mid s) (hmid : ∀ e ∈ mid, Leaves i e)
    (hr : ReadThenWaits p i (h1 ++ ⟨.sub (.poll i w), r.trace, r.effect, s1.data, r.world.data⟩ :: mid) x) :
    getOpt p s1.data = x := by
  obtain ⟨a, e, c, w', heq, hop, rfl, hpend⟩ := hr
  obtain ⟨sys, f, rd, k1, k2, k3⟩ := sub_poll_eq hp
  rcases List.append_eq_append_iff.1 heq with ⟨b, hb1, hb2⟩ | ⟨b, hb1, hb2⟩
  · cases b with
    | nil =>
      simp only [List.nil_append, List.cons.injEq] at hb2
      obtain ⟨rfl, -⟩ := hb2
      rfl
    | cons y b =>
      simp only [List.cons_append, List.cons.injEq] at hb2
      obtain ⟨-, rfl⟩ := hb2
      exfalso
      obtain ⟨s2, -, r2⟩ := hm.split
      cases r2 with
      | cons e2 r2 =>
      simp only at hop
      subst hop
      obtain ⟨_, _, rd2, -, k4, -⟩ := sub_poll_eq e2
      have := hmid _ (List.mem_append_right _ (.head _)) (.poll i w', .polled rd2) (by simp [k4])
      simp [Op.touches] at this
  · cases b with
    | nil =>
      simp only [List.nil_append, List.cons.injEq] at hb2
      obtain ⟨rfl, -⟩ := hb2
      rfl
    | cons y b =>
      simp only [List.cons_append, List.cons.injEq] at hb2
      obtain ⟨rfl, rfl⟩ := hb2
      subst hb1
      have hrd : rd = false := hpend _ (List.mem_append_right _ (.head _)) w rd (by simp [k2])
      subst hrd
      obtain ⟨d, pre, s0, r0, q1, q2, q3, q4⟩ := hc
      obtain ⟨s2, r1, r2⟩ := q4.split
      cases r2 with
      | cons e2 r2 =>
      simp only at hop
      subst hop
      obtain ⟨A, l, hf⟩ := Created.fol_now ⟨d, pre, s0, r0, q1, q2, q3, r1⟩ fun e he => hn e (List.mem_append_left _ he)
      obtain ⟨_, _, _, k4, k5, k6⟩ := sub_poll_eq e2
      have hh := Held.first (rn := s2.running) hf k4
      rw [← k6] at hh
      exact ((hh.run r2 (fun e he => hn e (List.mem_append_right _ (.tail _ he)))
        (fun e he => hpend e (List.mem_append_left _ he))).poll (rn := s1.running) k1).2

end Verif.XBow
