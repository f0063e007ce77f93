import Mathlib.Tactic.Tauto
import Verif.Live.Every
import Verif.XBow.Since
/-!
# C72: what awaited listeners have reported between two moments at which an app is idle
-/
namespace Verif.Live
open XBow.Data (Data Layer)

section
variable {D : Type} {hash : XBow.Path → BitVec 64} {enc : Layer → XBow.Seg}

/-- What happened to the subscriptions of a store. -/
def traces (h : List XBow.Event) : List (XBow.Op × XBow.Out) := h.flatMap (·.trace)

/-- Every event polls the listener `i` or leaves it alone. -/
def PollsOrLeaves (i : Nat) (h : List XBow.Event) : Prop :=
  ∀ e ∈ h, (∃ wk r, e.trace = [(.poll i wk, .polled r)]) ∨ XBow.Leaves i e

/-- A listener that is told of everything is quiet. -/
theorem told_store_quiet {d : Data} {hist : List (XBow.WOp × XBow.Event)} {s : XBow.World} {i : Nat}
    (ht : Told (storeSource hash enc) (XBow.World.init d) hist s i) {pre h' : List XBow.Event} {e0 : XBow.Event}
    {create : XBow.Op} (hh : hist.map (·.2) = pre ++ e0 :: h') (he0 : e0.op = .sub create)
    (hc : (∃ q, create = .listen q) ∨ ∃ q, create = .listenBubbling q) (hi : i = (pre.filter makes).length)
    (hall : PollsOrLeaves i (hist.map (·.2))) :
    XBow.Has' hash create i (traces h') s.sys ∧ XBow.Quiet hash create i (traces h') := by
  obtain ⟨n, p1, mid, o, out, heq, hp, hhist, hmid, hwk⟩ := ht
  obtain ⟨hrun, hdum⟩ := store_hist hhist
  rw [hh] at hrun
  obtain ⟨s0, r0, r1⟩ := wrun_split hrun
  have hlen := wrun_len r0
  have hinit : (XBow.World.init d).sys.listeners.length = 0 := rfl
  rw [hinit, Nat.zero_add, ← hi] at hlen
  cases r1 with
  | cons e1 r1 =>
  rename_i op0 rr0
  simp only at he0
  subst he0
  have htr0 : ∃ o0, rr0.trace = [(create, o0)] ∧ XBow.step hash s0.sys create = some (rr0.world.sys, o0) := by
    simp only [XBow.wstep] at e1
    cases e2 : XBow.step hash s0.sys create with
    | none => rw [e2] at e1; cases e1
    | some x => obtain ⟨sys, o⟩ := x; rw [e2] at e1; cases e1; exact ⟨o, rfl, rfl⟩
  obtain ⟨o0, htr0, hst0⟩ := htr0
  have hhas : XBow.Has' hash create i (traces h') s.sys :=
    ⟨_, s0.sys, rr0.world.sys, o0, r0.sys, hlen.symm, hst0, r1.sys⟩
  refine ⟨hhas, ?_⟩
  -- the poll
  obtain ⟨⟨op1, o1⟩, hx, hpx⟩ := List.exists_of_findSome?_eq_some hp
  have hx' : op1 = .poll i (some n) := by
    simp only [pollIn] at hpx
    split at hpx
    · next heq => cases hpx; cases heq; rfl
    · cases hpx
  subst hx'
  have hout : out.trace = [(.poll i (some n), o1)] := by
    rcases hall out (by rw [heq]; simp) with ⟨wk, r, h1⟩ | h1
    · rw [h1] at hx ⊢
      simp only [List.mem_singleton, Prod.mk.injEq, XBow.Op.poll.injEq, true_and] at hx
      obtain ⟨rfl, rfl⟩ := hx
      rfl
    · have := h1 _ hx
      simp [XBow.Op.touches] at this
  have hnew : ∀ e, e = (⟨.sub create, rr0.trace, rr0.effect, s0.data, rr0.world.data⟩ : XBow.Event) → e ≠ out := by
    rintro e rfl rfl
    rw [htr0] at hout
    simp only [List.cons.injEq, Prod.mk.injEq, and_true] at hout
    obtain ⟨rfl, -⟩ := hout
    rcases hc with ⟨_, hc⟩ | ⟨_, hc⟩ <;> cases hc
  have hsplit : p1.map (·.2) ++ out :: mid.map (·.2) =
      pre ++ ⟨.sub create, rr0.trace, rr0.effect, s0.data, rr0.world.data⟩ :: h' := by
    rw [← hh, heq, List.map_append, List.map_cons]
  have hwhere : ∃ h1, h' = h1 ++ out :: mid.map (·.2) := by
    rcases List.append_eq_append_iff.1 hsplit with ⟨a, ha1, ha2⟩ | ⟨a, ha1, ha2⟩
    · cases a with
      | nil =>
        simp only [List.nil_append, List.cons.injEq] at ha2
        exact (hnew _ rfl ha2.1.symm).elim
      | cons x a =>
        simp only [List.cons_append, List.cons.injEq] at ha2
        obtain ⟨rfl, -⟩ := ha2
        exfalso
        rw [ha1] at r0
        obtain ⟨s2, r2, r3⟩ := wrun_split r0
        cases r3 with
        | cons e r3 =>
        have h3 := polled_exists (XBow.wstep_sys e) hx
        have h4 := wrun_len r3
        omega
    · cases a with
      | nil =>
        simp only [List.nil_append, List.cons.injEq] at ha2
        exact (hnew _ rfl ha2.1).elim
      | cons x a =>
        simp only [List.cons_append, List.cons.injEq] at ha2
        exact ⟨a, ha2.2⟩
  obtain ⟨h1, rfl⟩ := hwhere
  have hleaves : ∀ e ∈ mid.map (·.2), XBow.Leaves i e := by
    intro e he
    rcases hall e (by rw [heq, List.map_append, List.map_cons]; simp [he]) with ⟨wk, r, h4⟩ | h4
    · exfalso
      obtain ⟨⟨o', e'⟩, he', rfl⟩ := List.mem_map.1 he
      have h4 : e'.trace = [(.poll i wk, .polled r)] := h4
      have hd : e'.trace.any dummyIn = false := hdum _ (by rw [heq]; exact List.mem_append_right _ (.tail _ he'))
      simp only [h4, List.any_cons, List.any_nil, Bool.or_false] at hd
      cases wk with
      | none => simp [dummyIn] at hd
      | some m =>
        refine (hmid _ he').1 m ?_
        simp only [storeSource, h4, List.findSome?_cons, pollIn]
    · exact h4
  refine ⟨traces h1, some n, o1, traces (mid.map (·.2)), ?_, ?_⟩
  · simp only [traces, List.flatMap_append, List.flatMap_cons, hout, List.cons_append, List.nil_append]
  · intro x hxm
    obtain ⟨e, he, hxe⟩ := List.mem_flatMap.1 hxm
    refine ⟨hleaves e he x hxe, ?_⟩
    rintro hit
    obtain ⟨q, o', rfl⟩ := XBow.hits_change hit
    obtain ⟨s1, r2, r3⟩ := wrun_split r1
    cases r3 with
    | cons e3 r3 =>
    rename_i op2 rr2
    obtain ⟨a, b', hab⟩ := List.append_of_mem he
    obtain ⟨ta, tb, htab⟩ := List.append_of_mem hxe
    have hsys := r3.sys
    have hflat : (mid.map (·.2)).flatMap (·.trace) = (a.flatMap (·.trace) ++ ta) ++ (.change q, o') :: (tb ++ b'.flatMap (·.trace)) := by
      rw [hab, List.flatMap_append, List.flatMap_cons, htab]
      simp [List.append_assoc]
    rw [hflat] at hsys
    obtain ⟨s5, r5, r6⟩ := xrun_split hsys
    have hl5 : ∀ x ∈ a.flatMap (·.trace) ++ ta, x.1.touches i = false := by
      intro x hx
      rcases List.mem_append.1 hx with hx | hx
      · obtain ⟨e5, he5, hx⟩ := List.mem_flatMap.1 hx
        exact hleaves e5 (by rw [hab]; exact List.mem_append_left _ he5) x hx
      · exact hleaves e he x (by rw [htab]; exact List.mem_append_left _ hx)
    have hst : XBow.step hash s1.sys (.poll i (some n)) = some (rr2.world.sys, o1) := by
      have := XBow.wstep_sys e3
      have hout : rr2.trace = _ := hout
      rw [hout] at this
      cases this with
      | cons e6 r7 => cases r7; exact e6
    have hwatch : XBow.Watch hash create i (some n) (a.flatMap (·.trace) ++ ta) s5 :=
      ⟨_, _, s0.sys, rr0.world.sys, s1.sys, rr2.world.sys, o0, _, r0.sys, hlen.symm, hst0, r2.sys, hst, r5, hl5⟩
    cases r6 with
    | cons e7 r7 =>
    obtain ⟨ws, rfl, hws⟩ := XBow.woken_of_key hwatch hc e7 hit
    obtain ⟨⟨o8, e8⟩, he8, rfl⟩ := List.mem_map.1 he
    refine hwk _ he8 ?_
    simp only [wokenWakers]
    refine List.mem_flatMap.2 ⟨_, hxe, ?_⟩
    simp only [wokenBy]
    exact List.mem_filterMap.2 ⟨_, hws, rfl⟩

/-- Between two moments at which a listener is told of everything, it is ready exactly if it was hit. -/
theorem store_ready_between {d : Data} {t a b : List (XBow.WOp × XBow.Event)} {s1 s2 : XBow.World} {i : Nat}
    (ht1 : Told (storeSource hash enc) (XBow.World.init d) t s1 i)
    (ht2 : Told (storeSource hash enc) (XBow.World.init d) (t ++ (a ++ b)) s2 i) {pre h' : List XBow.Event} {e0 : XBow.Event}
    {create : XBow.Op} (hh : t.map (·.2) = pre ++ e0 :: h') (he0 : e0.op = .sub create)
    (hc : (∃ q, create = .listen q) ∨ ∃ q, create = .listenBubbling q) (hi : i = (pre.filter makes).length)
    (hall : PollsOrLeaves i ((t ++ (a ++ b)).map (·.2)))
    (ha : ∀ e ∈ traces (a.map (·.2)), ¬ XBow.Hits hash create e) :
    (∃ wk, (.poll i wk, .polled true) ∈ traces (b.map (·.2))) ↔ ∃ e ∈ traces (b.map (·.2)), XBow.Hits hash create e := by
  obtain ⟨-, q1⟩ := told_store_quiet ht1 hh he0 hc hi fun e he => hall e (by
    rw [List.map_append]; exact List.mem_append_left _ he)
  have hh2 : (t ++ (a ++ b)).map (·.2) = pre ++ e0 :: (h' ++ (a ++ b).map (·.2)) := by
    rw [List.map_append, hh]; simp only [List.append_assoc, List.cons_append]
  obtain ⟨has, q2⟩ := told_store_quiet ht2 hh2 he0 hc hi hall
  have htr : traces (h' ++ (a ++ b).map (·.2)) = traces h' ++ (traces (a.map (·.2)) ++ traces (b.map (·.2))) := by
    simp only [traces, List.map_append, List.flatMap_append]
  rw [htr] at has q2
  have hd : ∀ e ∈ traces (a.map (·.2)) ++ traces (b.map (·.2)), e.1 ≠ .drop i := by
    intro e he hdr
    have he : e ∈ traces ((a ++ b).map (·.2)) := by simpa only [traces, List.map_append, List.flatMap_append] using he
    obtain ⟨ev, hev, he⟩ := List.mem_flatMap.1 he
    rcases hall ev (by rw [List.map_append]; exact List.mem_append_right _ hev) with ⟨wk, r, h1⟩ | h1
    · rw [h1, List.mem_singleton] at he
      subst he; cases hdr
    · have := h1 _ he
      rw [hdr] at this
      simp [XBow.Op.touches] at this
  constructor
  · rintro ⟨wk, hw⟩
    obtain ⟨b1, b2, hb⟩ := List.append_of_mem hw
    rw [hb, ← List.append_assoc (traces (a.map (·.2)))] at has
    obtain ⟨e, he, hit⟩ := XBow.hit_of_ready has hc q1 fun e he => hd e (by
      rw [hb]; simp only [List.mem_append, List.mem_cons] at he ⊢; tauto)
    rcases List.mem_append.1 he with he | he
    · exact (ha e he hit).elim
    · exact ⟨e, by rw [hb]; simp [he], hit⟩
  · rintro ⟨e, he, hit⟩
    obtain ⟨b1, b2, hb⟩ := List.append_of_mem he
    rw [hb, ← List.append_assoc (traces (a.map (·.2)))] at has q2
    have hp : ∃ e ∈ traces h', XBow.isPoll i e = true := by
      obtain ⟨x, wk, o, m, h1, -⟩ := q1
      exact ⟨(.poll i wk, o), by rw [h1]; simp, by simp [XBow.isPoll]⟩
    obtain ⟨wk, hw⟩ := XBow.ready_of_hit has hc hp (fun e he => hd e (by
      rw [hb]; simp only [List.mem_append, List.mem_cons] at he ⊢; tauto)) q1 q2 hit
    exact ⟨wk, by rw [hb]; simp [hw]⟩

/-- A listener of a cell that is told at two moments is ready at some time between a change and the second. -/
theorem cell_ready_between {v : D} {s0 s1 s2 : Cell.Sys D} (h0 : Cell.init v = some s0)
    {t y1 y2 : List (Cell.Op D × Cell.Out)} {o : Cell.Out} {i : Nat} (ht1 : Told (cellSource D) s0 t s1 (some i))
    (ht2 : Told (cellSource D) s0 (t ++ (y1 ++ (.dropGuard, o) :: y2)) s2 (some i))
    (hd : ∀ e ∈ y1 ++ (.dropGuard, o) :: y2, e.1 ≠ .dropListener i) :
    ∃ wk, ((.poll i wk, .polled true) : Cell.Op D × Cell.Out) ∈ y2 := by
  classical
  let isPoll : Cell.Op D × Cell.Out → Prop := fun e => ∃ wk, e.1 = .poll i wk
  have htouch : ∀ e : Cell.Op D × Cell.Out, e.1 ≠ .dropListener i → ¬ isPoll e → e.1.touches i = false := by
    rintro ⟨op, o⟩ h1 h2
    cases op with
    | poll j wk =>
      have : j ≠ i := by rintro rfl; exact h2 ⟨wk, rfl⟩
      simp [Cell.Op.touches, this]
    | dropListener j =>
      have : j ≠ i := by rintro rfl; exact h1 rfl
      simp [Cell.Op.touches, this]
    | _ => rfl
  obtain ⟨n, pre, mid, out, -, -, rfl, -, -, -, hno, -⟩ := told_listener h0 ht1
  obtain ⟨n2, pre2, mid2, out2, -, -, heq2, -, -, -, -, hch2⟩ := told_listener h0 ht2
  -- polled after the change
  have hpy : ∃ e ∈ y2, isPoll e := by
    have heq' : ((pre ++ (.poll i (some n), out) :: mid) ++ y1) ++ (.dropGuard, o) :: y2 =
        pre2 ++ (.poll i (some n2), out2) :: mid2 := by rw [← heq2]; simp only [List.append_assoc]
    rcases List.append_eq_append_iff.1 heq' with ⟨b, hb1, hb2⟩ | ⟨b, hb1, hb2⟩
    · cases b with
      | nil => simp at hb2
      | cons z b =>
        simp only [List.cons_append, List.cons.injEq] at hb2
        exact ⟨(.poll i (some n2), out2), by rw [hb2.2]; simp, _, rfl⟩
    · cases b with
      | nil => simp at hb2
      | cons z b =>
        simp only [List.cons_append, List.cons.injEq] at hb2
        have := hch2 (.dropGuard, o) (by rw [hb2.2]; simp)
        simp [Cell.Op.isChange] at this
  obtain ⟨z1, y, z2, rfl, ⟨wk, hwk⟩, h2⟩ := XBow.exists_first (P := isPoll) hpy
  obtain ⟨yop, yo⟩ := y
  simp only at hwk
  subst hwk
  have hlast : ∃ a w0 o0 m, (pre ++ (.poll i (some n), out) :: mid) ++ y1 = a ++ (.poll i w0, o0) :: m ∧
      ∀ e ∈ m, e.1.touches i = false := by
    by_cases hpy1 : ∃ e ∈ y1, isPoll e
    · obtain ⟨b, ⟨yo', yy⟩, m, rfl, ⟨w3, h3⟩, h4⟩ := XBow.exists_last (P := isPoll) hpy1
      simp only at h3
      subst h3
      exact ⟨(pre ++ (.poll i (some n), out) :: mid) ++ b, w3, yy, m, by simp only [List.append_assoc], fun e he =>
        htouch e (hd e (by simp [he])) (h4 e he)⟩
    · refine ⟨pre, some n, out, mid ++ y1, by simp only [List.append_assoc, List.cons_append], fun e he => ?_⟩
      rcases List.mem_append.1 he with he | he
      · exact hno e he
      · exact htouch e (hd e (by simp [he])) fun hp' => hpy1 ⟨e, he, hp'⟩
  obtain ⟨a, w0, o0, m, heq, hm⟩ := hlast
  obtain ⟨-, -, -, -, -, -, -, hist2, -⟩ := ht2
  have hrun := (cell_hist hist2).1
  have hl : (pre ++ (.poll i (some n), out) :: mid) ++ (y1 ++ (.dropGuard, o) :: (z1 ++ (.poll i wk, yo) :: z2)) =
      a ++ (.poll i w0, o0) :: ((m ++ (.dropGuard, o) :: z1) ++ (.poll i wk, yo) :: z2) := by
    calc _ = ((pre ++ (.poll i (some n), out) :: mid) ++ y1) ++ ((.dropGuard, o) :: (z1 ++ (.poll i wk, yo) :: z2)) := by
          simp only [List.append_assoc]
      _ = _ := by rw [heq]; simp only [List.append_assoc, List.cons_append]
  rw [hl] at hrun
  obtain ⟨u1, r1, r2⟩ := cell_run_split hrun
  cases r2 with
  | cons e1 r2 =>
  obtain ⟨u2, r3, r4⟩ := cell_run_split r2
  cases r4 with
  | cons e2 r4 =>
  have := Cell.ready_iff_changed ⟨s0, h0, r1⟩ e1 r3 (fun e he => by
    rcases List.mem_append.1 he with he | he
    · exact hm e he
    · rcases List.mem_cons.1 he with rfl | he
      · rfl
      · exact htouch e (hd e (by simp [he])) (h2 e he)) e2
  subst this
  refine ⟨wk, ?_⟩
  have hany : ((m ++ (.dropGuard, o) :: z1).any fun e => e.1.isChange) = true := by
    rw [List.any_eq_true]
    exact ⟨(.dropGuard, o), by simp, rfl⟩
  rw [hany]
  simp

/-- A cell that was written and is not borrowed mutably any more: the borrow has ended since. -/
theorem guard_dropped {v : D} {s' : Cell.Sys D} {x : D} {o : Cell.Out} {pre h : List (Cell.Op D × Cell.Out)}
    (hr : Cell.Reach v (pre ++ (.write x, o) :: h) s') (hw : s'.cell.writing = false) : ∃ o, (.dropGuard, o) ∈ h := by
  have key : ∀ {s s' : Cell.Sys D} {h : List (Cell.Op D × Cell.Out)} {sl : List (Nat × Cell.Waker)}, Cell.WF s sl →
      Cell.Run s h s' → s'.cell.writing = false → s.cell.writing = true → ∃ o, (.dropGuard, o) ∈ h := by
    intro s s' h sl hwf hr hw hs
    induction hr generalizing sl with
    | nil => rw [hw] at hs; cases hs
    | @cons s op o s1 h s2 e r ih =>
      cases hc : op.isChange with
      | true =>
        cases op <;> first | (cases hc; done) | exact ⟨o, by simp⟩
      | false =>
        cases h1 : s1.cell.writing with
        | false =>
          have := (Cell.quiet_step hwf e hc h1).1
          rw [hs] at this; cases this
        | true =>
          obtain ⟨_, _, sl1, e1, hw1, _⟩ := Cell.step_wf hwf _ (Cell.allowed_of_step e)
          rw [e] at e1; cases e1
          obtain ⟨o', ho'⟩ := ih hw1 hw h1
          exact ⟨o', by simp [ho']⟩
  obtain ⟨s0, h0, hr⟩ := hr
  obtain ⟨s1, r1, r2⟩ := cell_run_split hr
  obtain ⟨sl, hwf⟩ := Cell.reach_wf ⟨s0, h0, r1⟩
  cases r2 with
  | cons e r =>
    obtain ⟨_, _, sl1, e1, hw1, _⟩ := Cell.step_wf hwf _ (Cell.allowed_of_step e)
    rw [e] at e1; cases e1
    refine key hw1 r hw ?_
    simp only [Cell.step] at e
    split at e
    · next hwr => cases e; exact hwr
    · cases e

end
end Verif.Live
