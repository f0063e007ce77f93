import Verif.Live.ReactSpec
import Verif.Live.Form
import Mathlib.Data.List.Induction
/-!
# C73: the lemmas
-/
namespace Verif.Live
open Verif

variable {R : Reaction} {h l b : List (PageOp × PageOut)} {st st' : ReactState} {s s' : Page} {e : PageOp × PageOut}

theorem streams_snoc (h : List (PageOp × PageOut)) (e : PageOp × PageOut) :
    streams (h ++ [e]) = ((evHist [e]).map (·.1)).foldl Events.History.next (streams h) := by
  simp only [streams, Events.history, evHist, List.filterMap_append, List.map_append, List.foldl_append]

/-- Every entry is a step of the page. -/
theorem hist_snoc (hh : Hist pageSource Page.init (h ++ [e]) s') :
    ∃ s, Hist pageSource Page.init h s ∧ s.step e.1 = some (s', e.2) := by
  obtain ⟨op, out⟩ := e
  obtain ⟨s, h1, h2⟩ := hist_append hh
  obtain ⟨s2, h3, h4⟩ := hist_cons h2
  obtain rfl := hist_nil h4
  exact ⟨s, h1, h3⟩

theorem hist_unique {Z : Source} {s0 s s' : Z.σ} {h : List (Z.Op × Z.Out)} (h1 : Hist Z s0 h s) (h2 : Hist Z s0 h s') :
    s = s' := by
  induction h generalizing s0 with
  | nil => rw [hist_nil h1, hist_nil h2]
  | cons e h ih =>
    obtain ⟨o, out⟩ := e
    obtain ⟨m, a1, a2⟩ := hist_cons h1
    obtain ⟨m', b1, b2⟩ := hist_cons h2
    rw [a1] at b1
    cases b1
    exact ih a2 b2

theorem hist_inv (hh : Hist pageSource Page.init h s) : Events.Inv s.ev (streams h) :=
  page_inv_run (s := Page.init) Events.inv_init hh

theorem step_written {op : PageOp} {out : PageOut} (hs : s.step op = some (s', out)) (t : Nat) :
    s'.value t = (written t op).getD (s.value t) := by
  cases op with
  | edit t' y v n =>
    cases hs
    simp only [written]
    by_cases ht : t = t'
    · subst ht; simp
    · rw [if_neg ht, if_neg (Ne.symm ht)]; rfl
  | set t' v =>
    cases hs
    simp only [written]
    by_cases ht : t = t'
    · subst ht; simp
    · rw [if_neg ht, if_neg (Ne.symm ht)]; rfl
  | read t' => cases hs; rfl
  | ev o => obtain ⟨W, o, -, rfl, -⟩ := onEvents_page hs; rfl
  | call =>
    simp only [Page.step] at hs
    split at hs
    · cases hs
    · split at hs
      · obtain ⟨W, o, -, rfl, -⟩ := onEvents_page hs; rfl
      · cases hs; rfl

theorem valueOf_snoc (t : Nat) (h : List (PageOp × PageOut)) (e : PageOp × PageOut) :
    valueOf t (h ++ [e]) = (written t e.1).getD (valueOf t h) := by
  simp only [valueOf, List.filterMap_append, List.filterMap_cons, List.filterMap_nil]
  cases written t e.1 <;> simp

/-- The value is what the history says. -/
theorem hist_value (hh : Hist pageSource Page.init h s) (t : Nat) : s.value t = valueOf t h := by
  induction h using List.reverseRecOn generalizing s with
  | nil => obtain rfl := hist_nil hh; rfl
  | append_singleton h e ih =>
    obtain ⟨s1, h1, h2⟩ := hist_snoc hh
    rw [step_written h2, ih h1, valueOf_snoc]

/-! ## Polls and streams -/

theorem yields_obs {k : Nat} {r : Option Events.Ev} (hI : Events.Inv s.ev (streams h)) (hs : s.step e.1 = some (s', e.2))
    (hy : Yields k r e) :
    r = ((streams h).view k).unread ∧ ∃ wk, streams (h ++ [e]) = (streams h).next (.poll k wk) := by
  cases hy with
  | @poll wk ob v ho =>
    obtain ⟨W, o, h1, -, h2⟩ := onEvents_page (show s.onEvents (.poll k wk) = some (s', _) from hs)
    cases h2
    obtain ⟨-, rfl⟩ := Events.inv_step hI h1
    simp only [Events.History.obs, Option.some.injEq] at ho
    exact ⟨ho.symm, wk, by rw [streams_snoc]; rfl⟩

/-- What is known of the stream of the component. -/
def Good (R : Reaction) (H : Events.History) : ReactState → Prop
  | .fresh k => H.made[k]? = some (R.input, R.type) ∧ (H.view k).dropped = false ∧ (H.view k).unread = none
  | .waiting k => H.made[k]? = some (R.input, R.type) ∧ (H.view k).dropped = false ∧ (H.view k).waker ≠ none
  | _ => True

/-- An entry is no operation on the streams, or one. -/
theorem streams_step (h : List (PageOp × PageOut)) (hs : s.step e.1 = some (s', e.2)) :
    (streams (h ++ [e]) = streams h ∧ s'.ev = s.ev ∧ ∀ o, e.1 ≠ .ev o) ∨
    ∃ o, streams (h ++ [e]) = (streams h).next o ∧ (e.1 = .ev o ∨ e.1 = .call ∧ ∃ l n, o = .deliver l n) := by
  rcases page_events hs with ⟨h1, h2, h3⟩ | ⟨o, ob, h1, -, h3⟩
  · left
    refine ⟨?_, h2, h3⟩
    rw [streams_snoc]
    simp [evHist, h1]
  · right
    refine ⟨o, ?_, h3⟩
    rw [streams_snoc]
    simp [evHist, h1]

theorem next_keeps_made {H : Events.History} {k : Nat} {p : Nat × Nat} (o : Events.Op) (hm : H.made[k]? = some p) :
    (H.next o).made[k]? = some p := by
  obtain ⟨r, hr⟩ := next_made H o
  rw [hr, List.getElem?_append_left (List.getElem?_eq_some_iff.1 hm).1]
  exact hm

theorem next_keeps_dropped {H : Events.History} {k : Nat} (o : Events.Op) (hd : (H.view k).dropped = false)
    (ho : o ≠ .drop k) : ((H.next o).view k).dropped = false := by
  cases o with
  | new t y => exact hd
  | setCapture j b =>
    simp only [Events.History.next, Events.History.upd]
    split
    · split <;> exact hd
    · exact hd
  | setPassive j b =>
    simp only [Events.History.next, Events.History.upd]
    split
    · split <;> exact hd
    · exact hd
  | poll j w => simp only [Events.History.next, Events.History.upd]; split <;> exact hd
  | drop j =>
    have : k ≠ j := fun h => ho (by rw [h])
    simp only [Events.History.next, Events.History.upd, if_neg this]
    exact hd
  | deliver l n =>
    simp only [Events.History.next]
    split
    · simp only [Events.History.upd]; split <;> exact hd
    · exact hd

theorem next_keeps_waker {H : Events.History} {k : Nat} (o : Events.Op) (hd : (H.view k).waker ≠ none) :
    ((H.next o).view k).waker ≠ none := by
  cases o with
  | new t y => exact hd
  | setCapture j b =>
    simp only [Events.History.next, Events.History.upd]
    split <;> exact hd
  | setPassive j b =>
    simp only [Events.History.next, Events.History.upd]
    split <;> exact hd
  | poll j w =>
    simp only [Events.History.next, Events.History.upd]
    split
    · simp
    · exact hd
  | drop j => simp only [Events.History.next, Events.History.upd]; split <;> exact hd
  | deliver l n =>
    simp only [Events.History.next]
    split
    · simp only [Events.History.upd]; split <;> exact hd
    · exact hd

theorem good_step (hI : Events.Inv s.ev (streams h)) (hs : s.step e.1 = some (s', e.2)) (hst : R.Step h st e st')
    (hg : Good R (streams h) st) : Good R (streams (h ++ [e])) st' := by
  have new : e.1 = .ev (.new R.input R.type) → Good R (streams (h ++ [e])) (.fresh (streams h).made.length) := by
    intro he
    rcases streams_step h hs with ⟨-, -, h2⟩ | ⟨o, h1, h2 | ⟨h2, -⟩⟩
    · exact (h2 _ he).elim
    · rw [h2] at he
      cases he
      rw [h1]
      refine ⟨by simp [Events.History.next], ?_, ?_⟩
      · show ((streams h).view _).dropped = false
        rw [hI.untouched _ (Nat.le_refl _)]
      · show ((streams h).view _).unread = none
        rw [hI.untouched _ (Nat.le_refl _)]
    · rw [h2] at he; cases he
  cases hst with
  | before => trivial
  | begins he => exact new he
  | again he => exact new he
  | ready _ => trivial
  | acts _ => trivial
  | first hy =>
    obtain ⟨-, wk, h2⟩ := yields_obs hI hs hy
    rw [h2]
    exact ⟨next_keeps_made _ hg.1, next_keeps_dropped _ hg.2.1 (by simp), by simp [Events.History.next, Events.History.upd]⟩
  | waits hy =>
    obtain ⟨-, wk, h2⟩ := yields_obs hI hs hy
    rw [h2]
    exact ⟨next_keeps_made _ hg.1, next_keeps_dropped _ hg.2.1 (by simp), next_keeps_waker _ hg.2.2⟩
  | other ho =>
    rcases streams_step h hs with ⟨h1, -⟩ | ⟨o, h1, h2⟩
    · rw [h1]; exact hg
    · rw [h1]
      refine ⟨next_keeps_made _ hg.1, next_keeps_dropped _ hg.2.1 ?_, next_keeps_waker _ hg.2.2⟩
      rintro rfl
      rcases h2 with h2 | ⟨-, _, _, h2⟩
      · exact ho.2.1 h2
      · cases h2

theorem steps_nil {h0 : List (PageOp × PageOut)} (hst : R.Steps h0 st [] st') : st' = st := by
  generalize hl : ([] : List (PageOp × PageOut)) = l at hst
  cases hst with
  | nil => rfl
  | snoc _ _ => simp at hl

theorem good_steps {h0 : List (PageOp × PageOut)} (hst : R.Steps h0 st l st') (hh : Hist pageSource Page.init (h0 ++ l) s)
    (hg : Good R (streams h0) st) : Good R (streams (h0 ++ l)) st' := by
  induction hst generalizing s with
  | nil => rw [List.append_nil]; exact hg
  | @snoc l st1 e st2 _ h1 ih =>
    rw [← List.append_assoc] at hh ⊢
    obtain ⟨s1, h2, h3⟩ := hist_snoc hh
    exact good_step (hist_inv h2) h3 h1 (ih h2)

theorem good_runs (hr : R.Runs h st) (hh : Hist pageSource Page.init h s) : Good R (streams h) st :=
  good_steps (h0 := []) hr hh trivial

/-! ## An event that has not been handled -/

/-- The stream `k` has an event, or its listener is going to be called. -/
def Tells (k : Nat) (s : Page) (H : Events.History) : Prop :=
  (H.view k).unread ≠ none ∨ ∃ c n, H.order[c]? = some k ∧ (H.wanted c k, n) ∈ s.calls

theorem tells_edit {k v n} (hI : Events.Inv s.ev (streams h)) (hs : s.step e.1 = some (s', e.2))
    (he : e.1 = .edit R.input R.type v n) (hg : Good R (streams h) (.waiting k)) : Tells k s' (streams (h ++ [e])) := by
  obtain ⟨op, out⟩ := e
  cases he
  cases hs
  obtain ⟨g1, g2, g3⟩ := hg
  obtain ⟨c, hc1, hc2⟩ := List.getElem_of_mem ((hI.polled k).2 g3)
  have hc : (streams h).order[c]? = some k := by rw [List.getElem?_eq_getElem hc1, hc2]
  have hl : (streams h).wanted c k ∈ s.ev.listeners := by rw [hI.listeners]; exact Events.left_callback hc (by simp [g2])
  rw [show streams (h ++ [(PageOp.edit R.input R.type v n, ({} : PageOut))]) = streams h by rw [streams_snoc]; rfl]
  refine .inr ⟨c, n, hc, List.mem_append_right _ (List.mem_map.2 ⟨_, List.mem_filter.2 ⟨hl, ?_⟩, rfl⟩)⟩
  simp [Events.History.wanted, g1]

theorem tells_other {k} (hI : Events.Inv s.ev (streams h)) (hs : s.step e.1 = some (s', e.2))
    (hw : written R.input e.1 = none) (ho : R.Other k e.1 ∨ Yields k none e) (hg : Good R (streams h) (.waiting k))
    (ht : Tells k s (streams h)) : Tells k s' (streams (h ++ [e])) := by
  obtain ⟨c, n, hc⟩ : ∃ c n, (streams h).order[c]? = some k ∧
      (((streams h).view k).unread ≠ none ∨ ((streams h).wanted c k, n) ∈ s.calls) := by
    rcases ht with ht | ⟨c, n, hc, ht⟩
    · obtain ⟨c, hc1, hc2⟩ := List.getElem_of_mem ((hI.polled k).2 hg.2.2)
      exact ⟨c, 0, by rw [List.getElem?_eq_getElem hc1, hc2], .inl ht⟩
    · exact ⟨c, n, hc, .inr ht⟩
  have hv := step_written hs R.input
  rw [hw] at hv
  have hpoll : ∀ wk ob, e.2.ev = some (.poll k wk, ob) → ob.polled = some none := by
    intro wk ob hev
    rcases ho with ho | ho
    · rcases page_events hs with ⟨h1, -⟩ | ⟨o, ob', h1, -, h3 | ⟨-, l, n, rfl⟩⟩
      · rw [hev] at h1; cases h1
      · rw [hev] at h1; cases h1; exact (ho.1 _ h3).elim
      · rw [hev] at h1; cases h1
    · cases ho with | poll ho => cases hev; exact ho
  have := willTell_step (t := R.input) (y := R.type) (i := k) (x := 'a' :: s.value R.input) hI hs hg.2.1
    (fun y' v n he => by rw [he] at hw; simp [written] at hw) (fun v he => by rw [he] at hw; simp [written] at hw) hpoll
    ⟨hg.2.2, hg.1, c, hc.1, .inr (hc.2.imp id fun h => ⟨n, h⟩)⟩
  obtain ⟨-, -, c', hc', h1 | h1 | ⟨n', h1⟩⟩ := this
  · rw [hv] at h1
    have := congrArg List.length h1
    simp at this
  · rw [streams_snoc]; exact .inl h1
  · rw [streams_snoc]; exact .inr ⟨c', n', hc', h1⟩

/-- The value that some operations give to `t`. -/
def lastOf (t : Nat) (ops : List PageOp) : Option (List Char) := (ops.filterMap (written t)).getLast?

theorem lastOf_append_none {t : Nat} {ops : List PageOp} {o : PageOp} (h : written t o = none) :
    lastOf t (ops ++ [o]) = lastOf t ops := by
  simp [lastOf, h]

theorem body_last {k : Nat} {v z : List Char} (hf : R.f v = some z) (ops : List PageOp) :
    lastOf R.out (ops ++ R.body k v) = some z := by
  simp [lastOf, Reaction.body, hf, written]

theorem valueOf_append (t : Nat) (h b : List (PageOp × PageOut)) :
    valueOf t (h ++ b) = (lastOf t (b.map (·.1))).getD (valueOf t h) := by
  simp only [valueOf, lastOf, List.filterMap_append, List.filterMap_map]
  rw [List.getLast?_append]
  cases hx : (List.filterMap (fun e => written t e.1) b).getLast? with
  | none => simp [Function.comp_def, hx]
  | some y => simp [Function.comp_def, hx]

/-- After the input was changed to `v` the output is `z`, or the component is going to be told. -/
def After (R : Reaction) (z : List Char) (ops : List PageOp) (s : Page) (H : Events.History) : ReactState → Prop
  | .absent => False
  | .fresh _ => lastOf R.out ops = some z
  | .waiting k => lastOf R.out ops = some z ∨ Tells k s H
  | .busy rest => lastOf R.out (ops ++ rest) = some z

theorem after_steps {h0 : List (PageOp × PageOut)} {k v z} {x : PageOp × PageOut} (hst : R.Steps h0 (.waiting k) l st)
    (hl : l = x :: b) (hh : Hist pageSource Page.init (h0 ++ l) s) (hx : ∃ n, x.1 = .edit R.input R.type v n)
    (hg : Good R (streams h0) (.waiting k)) (hf : R.f v = some z)
    (hb : ∀ e ∈ b, written R.input e.1 = none ∧ ∀ y v n, e.1 ≠ .edit R.out y v n) :
    After R z (b.map (·.1)) s (streams (h0 ++ l)) st := by
  induction hst generalizing s b with
  | nil => cases hl
  | @snoc l st1 e st2 hl1 hstep ih =>
    rw [← List.append_assoc] at hh ⊢
    obtain ⟨s1, h2, h3⟩ := hist_snoc hh
    have hI := hist_inv h2
    have hg1 := good_steps hl1 h2 hg
    rcases l with _ | ⟨x', l'⟩
    · cases hl
      obtain ⟨n, hx⟩ := hx
      obtain rfl := steps_nil hl1
      cases hstep with
      | other _ => exact .inr (tells_edit hI h3 hx hg1)
      | waits hy => cases hy; cases hx
      | ready hy => cases hy; cases hx
    · rw [List.cons_append, List.cons.injEq] at hl
      obtain ⟨rfl, rfl⟩ := hl
      have ih := ih rfl h2 (fun e he => hb e (by simp [he]))
      obtain ⟨b1, b2⟩ := hb e (by simp)
      have hval : valueOf R.input (h0 ++ x' :: l') = v := by
        obtain ⟨n, hx⟩ := hx
        rw [← List.singleton_append, ← List.append_assoc, valueOf_append, valueOf_snoc, hx]
        have : lastOf R.input (l'.map (·.1)) = none := by
          rw [lastOf, List.getLast?_eq_none_iff, List.filterMap_eq_nil_iff]
          intro o ho
          obtain ⟨e, he, rfl⟩ := List.mem_map.1 ho
          exact (hb e (by simp [he])).1
        simp [this, written]
      have hpe : ∀ {k r}, Yields k r e → written R.out e.1 = none := by
        intro k r hy; cases hy; rfl
      rw [List.map_append, List.map_cons, List.map_nil]
      cases hstep with
      | before => exact ih
      | begins _ => exact ih.elim
      | again he =>
        have ih : lastOf R.out (_ ++ []) = some z := ih
        rw [List.append_nil] at ih
        show lastOf _ _ = _
        rw [lastOf_append_none (by rw [he]; rfl)]
        exact ih
      | first hy =>
        refine .inl ?_
        rw [lastOf_append_none (hpe hy)]
        exact ih
      | waits hy =>
        rcases ih with ih | ih
        · exact .inl (by rw [lastOf_append_none (hpe hy)]; exact ih)
        · exact .inr (tells_other hI h3 b1 (.inr hy) hg1 ih)
      | other ho =>
        rcases ih with ih | ih
        · refine .inl ?_
          rw [lastOf_append_none]
          · exact ih
          · cases he : e.1 with
            | edit t y v n => rw [written, if_neg]; rintro rfl; exact b2 _ _ _ he
            | set t v => rw [written, if_neg]; rintro rfl; exact ho.2.2.1 _ he
            | _ => rfl
        · exact .inr (tells_other hI h3 b1 (.inl ho) hg1 ih)
      | ready hy =>
        show lastOf _ (_ ++ R.body _ _) = _
        rw [hval]
        exact body_last hf _
      | acts he =>
        have ih : lastOf R.out (_ ++ _) = some z := ih
        show lastOf R.out _ = some z
        rw [List.append_assoc, List.singleton_append, he]
        exact ih

/-! ## No event -/

/-- The stream `k` has no event, and no listener is going to be called for the input. -/
def Silent (R : Reaction) (k : Nat) (s : Page) (H : Events.History) : Prop :=
  (H.view k).unread = none ∧ ∀ x ∈ s.calls, x.1.target ≠ R.input

theorem next_unread_none {H : Events.History} {k : Nat} (o : Events.Op) (hu : (H.view k).unread = none)
    (ho : ∀ l n, o = .deliver l n → H.order[l.callback]? ≠ some k) : ((H.next o).view k).unread = none := by
  cases o with
  | new t y => exact hu
  | setCapture j b =>
    simp only [Events.History.next, Events.History.upd]
    split
    · split <;> exact hu
    · exact hu
  | setPassive j b =>
    simp only [Events.History.next, Events.History.upd]
    split
    · split <;> exact hu
    · exact hu
  | poll j w =>
    simp only [Events.History.next, Events.History.upd]
    split
    · rfl
    · exact hu
  | drop j => simp only [Events.History.next, Events.History.upd]; split <;> exact hu
  | deliver l n =>
    have := ho l n rfl
    simp only [Events.History.next]
    split
    · next i hi =>
      have : k ≠ i := fun h => this (by rw [hi, h])
      simp only [Events.History.upd, if_neg this]
      exact hu
    · exact hu

/-- A listener at another element is not that of the stream. -/
theorem other_target {k} {q : Events.Listener} (hI : Events.Inv s.ev (streams h)) (hg : Good R (streams h) (.waiting k))
    (hl : q ∈ s.ev.listeners) (hq : q.target ≠ R.input) : (streams h).order[q.callback]? ≠ some k := by
  intro hk
  rw [hI.listeners] at hl
  obtain ⟨i, h5, -, h6⟩ := Events.callback_left hl
  rw [hk] at h5
  cases h5
  refine hq ?_
  rw [h6]
  simp [Events.History.wanted, hg.1]

theorem silent_step {k} (hI : Events.Inv s.ev (streams h)) (hs : s.step e.1 = some (s', e.2))
    (he : ∀ y v n, e.1 ≠ .edit R.input y v n) (hd : ∀ q n, e.1 = .ev (.deliver q n) → q.target ≠ R.input) (hg : Good R (streams h) (.waiting k))
    (ht : Silent R k s (streams h)) : Silent R k s' (streams (h ++ [e])) := by
  obtain ⟨op, out⟩ := e
  obtain ⟨t1, t2⟩ := ht
  cases op with
  | edit t y v n =>
    cases hs
    rw [show streams (h ++ [(PageOp.edit t y v n, ({} : PageOut))]) = streams h by rw [streams_snoc]; rfl]
    refine ⟨t1, fun x hx => ?_⟩
    rcases List.mem_append.1 hx with hx | hx
    · exact t2 x hx
    · obtain ⟨l, hl, rfl⟩ := List.mem_map.1 hx
      have := (List.mem_filter.1 hl).2
      simp only [decide_eq_true_eq] at this
      show l.target ≠ _
      rw [this.1]
      rintro rfl
      exact he _ _ _ rfl
  | set t v =>
    cases hs
    rw [show streams (h ++ [(PageOp.set t v, ({} : PageOut))]) = streams h by rw [streams_snoc]; rfl]
    exact ⟨t1, t2⟩
  | read t =>
    rcases streams_step h hs with ⟨h1, -⟩ | ⟨o, -, h2 | ⟨h2, -⟩⟩
    · rw [h1]; cases hs; exact ⟨t1, t2⟩
    · cases h2
    · cases h2
  | ev o =>
    obtain ⟨W, ob, h4, rfl, rfl⟩ := onEvents_page hs
    rw [show streams (h ++ [(PageOp.ev o, { ev := some (o, ob) })]) = (streams h).next o by rw [streams_snoc]; rfl]
    refine ⟨next_unread_none o t1 fun l n h => ?_, t2⟩
    subst h
    have hl : l ∈ s.ev.listeners := by
      simp only [Events.step] at h4
      split at h4
      · assumption
      · cases h4
    exact other_target hI hg hl (hd l n rfl)
  | call =>
    simp only [Page.step] at hs
    split at hs
    · cases hs
    · next l n calls hcalls =>
      have t3 : ∀ x ∈ calls, x.1.target ≠ R.input := fun x hx => t2 x (by rw [hcalls]; exact .tail _ hx)
      split at hs
      · next hl =>
        obtain ⟨W, ob, h4, rfl, rfl⟩ := onEvents_page hs
        rw [show streams (h ++ [(PageOp.call, { ev := some (Events.Op.deliver l n, ob) })]) = (streams h).next (.deliver l n) by
          rw [streams_snoc]; rfl]
        refine ⟨next_unread_none _ t1 fun l' n' hln => ?_, t3⟩
        cases hln
        exact other_target hI hg hl (t2 (l, n) (by rw [hcalls]; exact .head _))
      · cases hs
        rw [show streams (h ++ [(PageOp.call, ({} : PageOut))]) = streams h by rw [streams_snoc]; rfl]
        exact ⟨t1, t3⟩

/-- The component does nothing if the user does not change the input, and if everything that is put into the input is
something it does not understand. -/
theorem bland_steps {h0 : List (PageOp × PageOut)} {k} {s0 : Page} (hst : R.Steps h0 (.waiting k) l st)
    (hh : Hist pageSource Page.init (h0 ++ l) s) (h0' : Hist pageSource Page.init h0 s0)
    (hg : Good R (streams h0) (.waiting k)) (hsi : Silent R k s0 (streams h0))
    (hd : ∀ e ∈ l, ∀ q n, e.1 = .ev (.deliver q n) → q.target ≠ R.input)
    (c : Bool) (hc1 : c = false → ∀ e ∈ l, ∀ y v n, e.1 ≠ .edit R.input y v n)
    (hc2 : c = true → ∀ e ∈ l, ∀ v, written R.input e.1 = some v → R.f v = none) :
    ((∃ k, st = .waiting k ∧ Silent R k s (streams (h0 ++ l))) ∨
      c = true ∧ R.f (valueOf R.input (h0 ++ l)) = none ∧ st ≠ .absent ∧
        ∀ rest, st = .busy rest → ∀ v, .set R.out v ∉ rest) ∧ ∀ e ∈ l, ∀ v, e.1 ≠ .set R.out v := by
  induction hst generalizing s with
  | nil =>
    rw [List.append_nil] at hh ⊢
    rw [hist_unique hh h0']
    exact ⟨.inl ⟨k, rfl, hsi⟩, by simp⟩
  | @snoc l st1 e st2 hl1 hstep ih =>
    rw [← List.append_assoc] at hh ⊢
    obtain ⟨s1, h2, h3⟩ := hist_snoc hh
    have hI := hist_inv h2
    have hg1 := good_steps hl1 h2 hg
    obtain ⟨ih, hno⟩ := ih h2 (fun e he => hd e (by simp [he]))
      (fun h e he => hc1 h e (by simp [he])) (fun h e he => hc2 h e (by simp [he]))
    have hde := hd e (by simp)
    have hpoll : ∀ {k r}, Yields k r e → (∀ y v n, e.1 ≠ .edit R.input y v n) ∧ ∀ v, e.1 ≠ .set R.out v := by
      intro k r hy; cases hy; exact ⟨by simp, by simp⟩
    have hall : (∀ v, e.1 ≠ .set R.out v) → ∀ e' ∈ l ++ [e], ∀ v, e'.1 ≠ .set R.out v := by
      intro h e' he'
      rcases List.mem_append.1 he' with he' | he'
      · exact hno e' he'
      · rw [List.mem_singleton.1 he']; exact h
    have hkeep : c = true → R.f (valueOf R.input (h0 ++ l)) = none → R.f (valueOf R.input (h0 ++ l ++ [e])) = none := by
      intro h1 h2
      rw [valueOf_snoc]
      cases hw : written R.input e.1 with
      | none => exact h2
      | some v => exact hc2 h1 e (by simp) v hw
    rcases ih with ⟨k1, rfl, hsi⟩ | ⟨i0, i1, i2, i3⟩
    · cases hstep with
      | waits hy =>
        obtain ⟨p1, p2⟩ := hpoll hy
        exact ⟨.inl ⟨_, rfl, silent_step hI h3 p1 hde hg1 hsi⟩, hall p2⟩
      | ready hy =>
        have := (yields_obs hI h3 hy).1
        rw [hsi.1] at this
        cases this
      | other ho =>
        refine ⟨?_, hall ho.2.2.1⟩
        by_cases hed : ∃ y v n, e.1 = .edit R.input y v n
        · obtain ⟨y, v, n, hed⟩ := hed
          cases c with
          | false => exact (hc1 rfl e (by simp) _ _ _ hed).elim
          | true =>
            refine .inr ⟨rfl, ?_, by simp, by simp⟩
            have : written R.input e.1 = some v := by rw [hed]; simp [written]
            rw [valueOf_snoc, this]
            exact hc2 rfl e (by simp) v this
        · exact .inl ⟨_, rfl, silent_step hI h3 (fun y v n h => hed ⟨y, v, n, h⟩) hde hg1 hsi⟩
    · have hP := hkeep i0 i1
      cases hstep with
      | before => exact (i2 rfl).elim
      | begins _ => exact (i2 rfl).elim
      | again he => exact ⟨.inr ⟨i0, hP, by simp, by simp⟩, hall (by rw [he]; simp)⟩
      | first hy => exact ⟨.inr ⟨i0, hP, by simp, by simp⟩, hall (hpoll hy).2⟩
      | waits hy => exact ⟨.inr ⟨i0, hP, by simp, by simp⟩, hall (hpoll hy).2⟩
      | other ho => exact ⟨.inr ⟨i0, hP, by simp, by simp⟩, hall ho.2.2.1⟩
      | ready hy =>
        refine ⟨.inr ⟨i0, hP, by simp, ?_⟩, hall (hpoll hy).2⟩
        intro rest hrest v
        cases hrest
        simp [Reaction.body, i1]
      | @acts o rest _ he =>
        have := i3 _ rfl
        refine ⟨.inr ⟨i0, hP, by simp, ?_⟩, hall fun v hv => this v (by rw [← hv, he]; exact .head _)⟩
        intro rest' hr v hv
        cases hr
        exact this v (.tail _ hv)

/-! ## Two components, each of which sets what the other waits for -/

theorem steps_split {h0 a : List (PageOp × PageOut)} (hst : R.Steps h0 st (a ++ b) st') :
    ∃ st1, R.Steps h0 st a st1 ∧ R.Steps (h0 ++ a) st1 b st' := by
  generalize hl : a ++ b = l at hst
  induction hst generalizing b with
  | nil =>
    obtain ⟨rfl, rfl⟩ := List.append_eq_nil_iff.1 hl
    exact ⟨_, .nil, .nil⟩
  | @snoc l st1 e st2 h1 h2 ih =>
    rcases List.eq_nil_or_concat b with rfl | ⟨b', x, rfl⟩
    · rw [List.append_nil] at hl
      subst hl
      exact ⟨_, .snoc h1 h2, .nil⟩
    · rw [List.concat_eq_append, ← List.append_assoc] at hl
      obtain ⟨rfl, h3⟩ := List.append_inj' hl rfl
      cases h3
      obtain ⟨st3, h4, h5⟩ := ih rfl
      rw [← List.append_assoc] at h2
      exact ⟨st3, h4, by rw [List.concat_eq_append]; exact .snoc h5 h2⟩

theorem steps_not_absent {h0 : List (PageOp × PageOut)} (hst : R.Steps h0 st l st') (hn : st ≠ .absent) : st' ≠ .absent := by
  induction hst with
  | nil => exact hn
  | snoc _ h ih => cases h <;> first | exact ih | simp

theorem steps_head {h0 : List (PageOp × PageOut)} (hst : R.Steps h0 st (e :: b) st') : ∃ st1, R.Step h0 st e st1 := by
  obtain ⟨st1, h1, -⟩ := steps_split (a := [e]) hst
  generalize hl : [e] = l at h1
  cases h1 with
  | nil => cases hl
  | @snoc l _ e' _ h2 h3 =>
    rcases l with _ | ⟨y, l⟩
    · cases hl
      obtain rfl := steps_nil h2
      rw [List.append_nil] at h3
      exact ⟨_, h3⟩
    · simp at hl

/-- When the user changes something the component is waiting. -/
theorem edit_waiting {h0 : List (PageOp × PageOut)} {t y v n} (hst : R.Step h0 st e st') (hn : st ≠ .absent)
    (he : e.1 = .edit t y v n) (hb : ∀ rest, st = .busy rest → ∀ t y v n, .edit t y v n ∉ rest) :
    ∃ k, st = .waiting k ∧ (t = R.input → y = R.type) := by
  have hpoll : ∀ {k r}, ¬ Yields k r e := by intro k r hy; cases hy; cases he
  cases hst with
  | before => exact (hn rfl).elim
  | begins _ => exact (hn rfl).elim
  | again h => rw [he] at h; cases h
  | first h => exact (hpoll h).elim
  | waits h => exact (hpoll h).elim
  | ready h => exact (hpoll h).elim
  | other ho => exact ⟨_, rfl, fun ht => ho.2.2.2 y v n (by rw [he, ht])⟩
  | acts h => exact (hb _ rfl t y v n (by rw [← he, h]; exact .head _)).elim

theorem busy_no_edit {h0 : List (PageOp × PageOut)} (hst : R.Steps h0 st l st')
    (hb : ∀ rest, st = .busy rest → ∀ t y v n, .edit t y v n ∉ rest) :
    ∀ rest, st' = .busy rest → ∀ t y v n, .edit t y v n ∉ rest := by
  induction hst with
  | nil => exact hb
  | snoc _ h ih =>
    intro rest hr t y v n
    cases h with
    | ready _ =>
      cases hr
      simp only [Reaction.body]
      split <;> simp
    | acts _ =>
      cases hr
      exact fun hm => ih _ rfl t y v n (.tail _ hm)
    | _ => cases hr

theorem lastOf_unwritten {t : Nat} {b : List (PageOp × PageOut)} (h : ∀ e ∈ b, written t e.1 = none) :
    lastOf t (b.map (·.1)) = none := by
  rw [lastOf, List.getLast?_eq_none_iff, List.filterMap_eq_nil_iff]
  intro o ho
  obtain ⟨e, he, rfl⟩ := List.mem_map.1 ho
  exact h e he

theorem written_none {t : Nat} {o : PageOp} (h1 : ∀ y v n, o ≠ .edit t y v n) (h2 : ∀ v, o ≠ .set t v) :
    written t o = none := by
  cases o with
  | edit t' y v n => rw [written, if_neg]; rintro rfl; exact h1 _ _ _ rfl
  | set t' v => rw [written, if_neg]; rintro rfl; exact h2 _ rfl
  | _ => rfl

/-- What is known of a component that has been told of everything. -/
theorem told_silent {k} (ht : Told pageSource Page.init h s k) (hc : s.calls = []) : Silent R k s (streams h) := by
  obtain ⟨n, hq⟩ := told_quiet (told_page ht)
  exact ⟨hq.2.2, by rw [hc]; simp⟩

theorem told_not {k} (ht : Told pageSource Page.init h s k) (hc : s.calls = []) : ¬ Tells k s (streams h) := by
  obtain ⟨n, hq⟩ := told_quiet (told_page ht)
  rintro (h1 | ⟨c, n, -, h1⟩)
  · exact h1 hq.2.2
  · rw [hc] at h1; cases h1

end Verif.Live
