import Verif.Live.FoldSpec
import Verif.Live.React
/-!
# C75: the lemmas
-/
namespace Verif.Live
open Verif

section
variable {σ : Type} {R : Fold σ} {h l b : List (PageOp × PageOut)} {st st' : FoldState σ} {s s' s0 : Page}
  {e : PageOp × PageOut} {k : Nat} {p : Nat × Nat} {n : Events.Ev}

/-! ## What an operation does to the streams and to the calls to come -/

inductive Effect (s s' : Page) (h : List (PageOp × PageOut)) (e : PageOp × PageOut) : Prop
  | same : streams (h ++ [e]) = streams h → s'.calls = s.calls → s'.ev = s.ev → (∀ t y v n, e.1 ≠ .edit t y v n) →
      (∀ o, e.1 ≠ .ev o) → Effect s s' h e
  | edit {t y v n} : e.1 = .edit t y v n → streams (h ++ [e]) = streams h →
      s'.calls = s.calls ++ (s.ev.listeners.filter fun l => l.target = t ∧ l.type = y).map (·, n) → s'.ev = s.ev →
      Effect s s' h e
  | op {o} : e.1 = .ev o → streams (h ++ [e]) = (streams h).next o → s'.calls = s.calls →
      (∀ q n, o = .deliver q n → q ∈ s.ev.listeners) → Effect s s' h e
  | call {q n calls} : e.1 = .call → s.calls = (q, n) :: calls → q ∈ s.ev.listeners →
      streams (h ++ [e]) = (streams h).next (.deliver q n) → s'.calls = calls → Effect s s' h e
  | skip {q n calls} : e.1 = .call → s.calls = (q, n) :: calls → q ∉ s.ev.listeners →
      streams (h ++ [e]) = streams h → s'.calls = calls → Effect s s' h e

theorem effect (hs : s.step e.1 = some (s', e.2)) : Effect s s' h e := by
  obtain ⟨op, out⟩ := e
  cases op with
  | edit t y v n => cases hs; exact .edit rfl (by rw [streams_snoc]; rfl) rfl rfl
  | set t v => cases hs; exact .same (by rw [streams_snoc]; rfl) rfl rfl (by simp) (by simp)
  | read t =>
    rcases streams_step h hs with ⟨h1, -⟩ | ⟨o, -, h2 | ⟨h2, -⟩⟩
    · cases hs; exact .same h1 rfl rfl (by simp) (by simp)
    · cases h2
    · cases h2
  | ev o =>
    obtain ⟨W, ob, h4, rfl, rfl⟩ := onEvents_page hs
    refine .op rfl (by rw [streams_snoc]; rfl) rfl ?_
    rintro l n rfl
    simp only [Events.step] at h4
    split at h4
    · assumption
    · cases h4
  | call =>
    simp only [Page.step] at hs
    split at hs
    · cases hs
    · next l n calls hcalls =>
      split at hs
      · next hl =>
        obtain ⟨W, ob, h4, rfl, rfl⟩ := onEvents_page hs
        exact .call rfl hcalls hl (by rw [streams_snoc]; rfl) rfl
      · next hl => cases hs; exact .skip rfl hcalls hl (by rw [streams_snoc]; rfl) rfl

theorem next_order (H : Events.History) (o : Events.Op) : ∃ r, (H.next o).order = H.order ++ r := by
  cases o with
  | poll j w =>
    simp only [Events.History.next, Events.History.upd]
    split
    · exact ⟨_, rfl⟩
    · exact ⟨[], by simp⟩
  | deliver l e => simp only [Events.History.next]; split <;> exact ⟨[], by simp [Events.History.upd]⟩
  | _ => exact ⟨[], by simp [Events.History.next, Events.History.upd]⟩

theorem order_snoc (hs : s.step e.1 = some (s', e.2)) : ∃ r, (streams (h ++ [e])).order = (streams h).order ++ r := by
  rcases streams_step h hs with ⟨h1, -⟩ | ⟨o, h1, -⟩
  · exact ⟨[], by rw [h1]; simp⟩
  · rw [h1]; exact next_order _ o

theorem order_same {c : Nat} (hs : s.step e.1 = some (s', e.2)) (hc : c < (streams h).order.length) :
    (streams (h ++ [e])).order[c]? = (streams h).order[c]? := by
  obtain ⟨r, hr⟩ := order_snoc (h := h) hs
  rw [hr, List.getElem?_append_left hc]

theorem listener_lt {q : Events.Listener} (hI : Events.Inv s.ev (streams h)) (hq : q ∈ s.ev.listeners) :
    q.callback < (streams h).order.length := by
  rw [hI.listeners] at hq
  obtain ⟨i, h1, -⟩ := Events.callback_left hq
  exact (List.getElem?_eq_some_iff.1 h1).1

/-- The listeners that are going to be called belong to streams that have been polled. -/
theorem calls_lt (hh : Hist pageSource Page.init h s) : ∀ x ∈ s.calls, x.1.callback < (streams h).order.length := by
  induction h using List.reverseRecOn generalizing s with
  | nil => obtain rfl := hist_nil hh; simp [Page.init]
  | append_singleton h e ih =>
    obtain ⟨s1, h1, h2⟩ := hist_snoc hh
    have ih := ih h1
    obtain ⟨r, hr⟩ := order_snoc (h := h) h2
    have old : ∀ x ∈ s1.calls, x.1.callback < (streams (h ++ [e])).order.length := fun x hx => by
      rw [hr, List.length_append]; exact Nat.lt_of_lt_of_le (ih x hx) (Nat.le_add_right _ _)
    intro x hx
    cases effect (h := h) h2 with
    | same _ hc _ _ _ => rw [hc] at hx; exact old x hx
    | edit _ h3 hc _ =>
      rw [hc] at hx
      rcases List.mem_append.1 hx with hx | hx
      · exact old x hx
      · obtain ⟨q, hq, rfl⟩ := List.mem_map.1 hx
        rw [h3]
        exact listener_lt (hist_inv h1) (List.mem_filter.1 hq).1
    | op _ _ hc _ => rw [hc] at hx; exact old x hx
    | call _ hc _ _ hc' => exact old x (by rw [hc', ] at hx; rw [hc]; exact .tail _ hx)
    | skip _ hc _ _ hc' => exact old x (by rw [hc', ] at hx; rw [hc]; exact .tail _ hx)

/-- A listener of the stream `k` is at its element, and for its type. -/
theorem listener_at {q : Events.Listener} (hI : Events.Inv s.ev (streams h)) (hq : q ∈ s.ev.listeners)
    (hk : (streams h).order[q.callback]? = some k) (hm : (streams h).made[k]? = some p) : (q.target, q.type) = p := by
  rw [hI.listeners] at hq
  obtain ⟨i, h5, -, h6⟩ := Events.callback_left hq
  rw [hk] at h5
  cases h5
  rw [h6]
  simp [Events.History.wanted, hm]

/-! ## A stream for which there is no event, or one -/

/-- There is no event for the stream `k`. -/
def Hush (k : Nat) (s : Page) (H : Events.History) : Prop :=
  (H.view k).unread = none ∧ ∀ x ∈ s.calls, H.order[x.1.callback]? ≠ some k

/-- The event `n` is there or is going to be fired, and no other. -/
def Pend (k : Nat) (n : Events.Ev) (s : Page) (H : Events.History) : Prop :=
  ((H.view k).unread = some n ∨ (H.view k).unread = none ∧ ∃ q, (q, n) ∈ s.calls ∧ H.order[q.callback]? = some k ∧
    q ∈ s.ev.listeners) ∧ ∀ x ∈ s.calls, H.order[x.1.callback]? = some k → x.2 = n

/-- Nothing happens at the element. -/
def Away (p : Nat × Nat) (o : PageOp) : Prop :=
  (∀ t y v n, o = .edit t y v n → (t, y) ≠ p) ∧ ∀ q n, o = .ev (.deliver q n) → (q.target, q.type) ≠ p

/-- The calls to come for the stream `k` are some of those that were to come. -/
theorem calls_away (hh : Hist pageSource Page.init h s) (hs : s.step e.1 = some (s', e.2)) (hm : (streams h).made[k]? = some p)
    (ha : ∀ t y v n, e.1 = .edit t y v n → (t, y) ≠ p) {x} (hx : x ∈ s'.calls)
    (hk : (streams (h ++ [e])).order[x.1.callback]? = some k) :
    x ∈ s.calls ∧ (streams h).order[x.1.callback]? = some k := by
  have hI := hist_inv hh
  have old : x ∈ s.calls → x ∈ s.calls ∧ (streams h).order[x.1.callback]? = some k := fun hx =>
    ⟨hx, by rw [← order_same hs (calls_lt hh x hx)]; exact hk⟩
  cases effect (h := h) hs with
  | same _ hc _ _ _ => rw [hc] at hx; exact old hx
  | edit he h3 hc _ =>
    rw [hc] at hx
    rcases List.mem_append.1 hx with hx | hx
    · exact old hx
    · obtain ⟨q, hq, rfl⟩ := List.mem_map.1 hx
      rw [h3] at hk
      obtain ⟨h4, h5⟩ := List.mem_filter.1 hq
      simp only [decide_eq_true_eq] at h5
      have := listener_at hI h4 hk hm
      rw [h5.1, h5.2] at this
      exact (ha _ _ _ _ he this).elim
  | op _ _ hc _ => rw [hc] at hx; exact old hx
  | call _ hc _ _ hc' => rw [hc'] at hx; exact old (by rw [hc]; exact .tail _ hx)
  | skip _ hc _ _ hc' => rw [hc'] at hx; exact old (by rw [hc]; exact .tail _ hx)

theorem hush_keep (hh : Hist pageSource Page.init h s) (hs : s.step e.1 = some (s', e.2)) (hm : (streams h).made[k]? = some p)
    (ha : Away p e.1) (hq : Hush k s (streams h)) : Hush k s' (streams (h ++ [e])) := by
  have hI := hist_inv hh
  refine ⟨?_, fun x hx hk => ?_⟩
  · cases effect (h := h) hs with
    | same h3 _ _ _ _ => rw [h3]; exact hq.1
    | edit _ h3 _ _ => rw [h3]; exact hq.1
    | op he h3 _ hl =>
      rw [h3]
      refine next_unread_none _ hq.1 fun q n ho hk => ?_
      exact ha.2 q n (by rw [he, ho]) (listener_at hI (hl q n ho) hk hm)
    | call _ hc hl h3 _ =>
      rw [h3]
      refine next_unread_none _ hq.1 fun q n ho hk => ?_
      cases ho
      exact hq.2 _ (by rw [hc]; exact .head _) hk
    | skip _ _ _ h3 _ => rw [h3]; exact hq.1
  · obtain ⟨h1, h2⟩ := calls_away hh hs hm ha.1 hx hk
    exact hq.2 x h1 h2

theorem hush_new (hh : Hist pageSource Page.init h s) (hs : s.step e.1 = some (s', e.2)) {t y : Nat}
    (he : e.1 = .ev (.new t y)) : Hush (streams h).made.length s' (streams (h ++ [e])) := by
  have hI := hist_inv hh
  cases effect (h := h) hs with
  | op h1 h2 h3 _ =>
    rw [he] at h1
    cases h1
    rw [h2]
    refine ⟨?_, fun x _ hk => ?_⟩
    · show ((streams h).view _).unread = none
      rw [hI.untouched _ (Nat.le_refl _)]
    · exact Nat.lt_irrefl _ (hI.made _ (List.mem_of_getElem? (show (streams h).order[_]? = _ from hk)))
  | same _ _ _ _ h5 => exact (h5 _ he).elim
  | edit h1 _ _ _ => rw [he] at h1; cases h1
  | call h1 _ _ _ _ => rw [he] at h1; cases h1
  | skip h1 _ _ _ _ => rw [he] at h1; cases h1

theorem next_unread_some {H : Events.History} {k : Nat} (o : Events.Op) (hu : (H.view k).unread = some n)
    (hp : ∀ wk, o ≠ .poll k wk) (ho : ∀ q m, o = .deliver q m → H.order[q.callback]? = some k → m = n) :
    ((H.next o).view k).unread = some n := by
  cases o with
  | new t y => exact hu
  | setCapture j b =>
    simp only [Events.History.next, Events.History.upd]
    split
    · split <;> exact hu
    · exact hu
  | setPassive j b =>
    simp only [Events.History.next, Events.History.upd]
    split
    · split <;> exact hu
    · exact hu
  | poll j w =>
    have : k ≠ j := fun h => hp w (by rw [h])
    simp only [Events.History.next, Events.History.upd, if_neg this]
    exact hu
  | drop j => simp only [Events.History.next, Events.History.upd]; split <;> exact hu
  | deliver l m =>
    simp only [Events.History.next]
    split
    · next i hi =>
      simp only [Events.History.upd]
      split
      · next hk => rw [ho l m rfl (by rw [hi, hk])]
      · exact hu
    · exact hu

theorem next_unread_deliver {H : Events.History} {k : Nat} {q : Events.Listener} (hk : H.order[q.callback]? = some k) :
    ((H.next (.deliver q n)).view k).unread = some n := by
  simp [Events.History.next, hk, Events.History.upd]

/-- The listener of a stream that is not dropped stays. -/
theorem listener_keep {q : Events.Listener} (hh : Hist pageSource Page.init h s) (hs : s.step e.1 = some (s', e.2))
    (hh' : Hist pageSource Page.init (h ++ [e]) s') (hm : (streams h).made[k]? = some p)
    (hq : q ∈ s.ev.listeners) (hk : (streams h).order[q.callback]? = some k)
    (hd : ((streams (h ++ [e])).view k).dropped = false) : q ∈ s'.ev.listeners := by
  have hI := hist_inv hh
  have hw : ((streams h).view k).waker ≠ none := (hI.polled k).1 (List.mem_of_getElem? hk)
  rw [hI.listeners] at hq
  obtain ⟨i, h5, -, h6⟩ := Events.callback_left hq
  rw [hk] at h5
  cases h5
  rw [(hist_inv hh').listeners]
  rcases streams_step h hs with ⟨h1, -⟩ | ⟨o, h1, -⟩
  · rw [h1] at hd ⊢
    rw [h6]
    exact Events.left_callback hk (by simp [hd])
  · obtain ⟨-, -, k3, k4⟩ := next_keeps o hw hm hk
    rw [h1] at hd ⊢
    rw [h6, ← k4]
    exact Events.left_callback k3 (by simp [hd])

theorem pend_keep (hh : Hist pageSource Page.init h s) (hs : s.step e.1 = some (s', e.2))
    (hh' : Hist pageSource Page.init (h ++ [e]) s') (hm : (streams h).made[k]? = some p)
    (ha : Away p e.1) (hd : ((streams (h ++ [e])).view k).dropped = false)
    (hp : (∀ wk, e.1 ≠ .ev (.poll k wk)) ∨ Yields k none e) (hq : Pend k n s (streams h)) :
    Pend k n s' (streams (h ++ [e])) := by
  have hI := hist_inv hh
  refine ⟨?_, fun x hx hk => ?_⟩
  · rcases hq.1 with h1 | ⟨h1, q, q1, q2, q3⟩
    · left
      have hp : ∀ wk, e.1 ≠ .ev (.poll k wk) := by
        rcases hp with hp | hp
        · exact hp
        · have := (yields_obs hI hs hp).1
          rw [h1] at this
          cases this
      cases effect (h := h) hs with
      | same h3 _ _ _ _ => rw [h3]; exact h1
      | edit _ h3 _ _ => rw [h3]; exact h1
      | op he h3 _ hl =>
        rw [h3]
        refine next_unread_some _ h1 (fun wk ho => hp wk (by rw [he, ho])) fun q m ho hk => ?_
        exact (ha.2 q m (by rw [he, ho]) (listener_at hI (hl q m ho) hk hm)).elim
      | call _ hc hl h3 _ =>
        rw [h3]
        refine next_unread_some _ h1 (by simp) fun q m ho hk => ?_
        cases ho
        exact hq.2 _ (by rw [hc]; exact .head _) hk
      | skip _ _ _ h3 _ => rw [h3]; exact h1
    · have hlt := calls_lt hh _ q1
      have hl := listener_keep hh hs hh' hm q3 q2 hd
      have ho : (streams (h ++ [e])).order[q.callback]? = some k := by rw [order_same hs hlt]; exact q2
      cases effect (h := h) hs with
      | same h3 hc _ _ _ => exact .inr ⟨by rw [h3]; exact h1, q, by rw [hc]; exact q1, ho, hl⟩
      | edit _ h3 hc _ => exact .inr ⟨by rw [h3]; exact h1, q, by rw [hc]; exact List.mem_append_left _ q1, ho, hl⟩
      | op he h3 hc hl' =>
        refine .inr ⟨?_, q, by rw [hc]; exact q1, ho, hl⟩
        rw [h3]
        refine next_unread_none _ h1 fun q' m ho hk => ?_
        exact ha.2 q' m (by rw [he, ho]) (listener_at hI (hl' q' m ho) hk hm)
      | @call q' m calls he hc hl' h3 hc' =>
        rw [hc] at q1
        by_cases hk : (streams h).order[q'.callback]? = some k
        · left
          rw [h3, next_unread_deliver hk, show m = n from hq.2 (q', m) (by rw [hc]; exact .head _) hk]
        · refine .inr ⟨?_, q, ?_, ho, hl⟩
          · rw [h3]
            exact next_unread_none _ h1 fun q'' m' ho => by cases ho; exact hk
          · rw [hc']
            cases q1 with
            | head => exact (hk q2).elim
            | tail _ h => exact h
      | @skip q' m calls he hc hl' h3 hc' =>
        rw [hc] at q1
        refine .inr ⟨by rw [h3]; exact h1, q, ?_, ho, hl⟩
        rw [hc']
        cases q1 with
        | head => exact (hl' q3).elim
        | tail _ h => exact h
  · obtain ⟨h1, h2⟩ := calls_away hh hs hm ha.1 hx hk
    exact hq.2 x h1 h2

/-- An event is caused. -/
theorem pend_edit (hh : Hist pageSource Page.init h s) (hs : s.step e.1 = some (s', e.2)) {t y v}
    (he : e.1 = .edit t y v n) (hm : (streams h).made[k]? = some (t, y)) (hd : ((streams h).view k).dropped = false)
    (hw : ((streams h).view k).waker ≠ none) (hq : Hush k s (streams h)) : Pend k n s' (streams (h ++ [e])) := by
  have hI := hist_inv hh
  cases effect (h := h) hs with
  | edit he' h3 hc hev =>
    rw [he] at he'
    cases he'
    obtain ⟨c, hc1, hc2⟩ := List.getElem_of_mem ((hI.polled k).2 hw)
    have hk : (streams h).order[c]? = some k := by rw [List.getElem?_eq_getElem hc1, hc2]
    have hl : (streams h).wanted c k ∈ s.ev.listeners := by rw [hI.listeners]; exact Events.left_callback hk (by simp [hd])
    rw [h3, Pend, hc, hev]
    refine ⟨.inr ⟨hq.1, (streams h).wanted c k, ?_, hk, hl⟩, fun x hx hx' => ?_⟩
    · refine List.mem_append_right _ (List.mem_map.2 ⟨_, List.mem_filter.2 ⟨hl, ?_⟩, rfl⟩)
      simp [Events.History.wanted, hm]
    · rcases List.mem_append.1 hx with hx | hx
      · exact (hq.2 x hx hx').elim
      · obtain ⟨q, -, rfl⟩ := List.mem_map.1 hx
        rfl
  | same _ _ _ h4 _ => exact (h4 _ _ _ _ he).elim
  | op h1 _ _ _ => rw [he] at h1; cases h1
  | call h1 _ _ _ _ => rw [he] at h1; cases h1
  | skip h1 _ _ _ _ => rw [he] at h1; cases h1

/-! ## The component -/

structure FGood (R : Fold σ) (H : Events.History) (st : FoldState σ) : Prop where
  made : ∃ w : List (Nat × Nat), R.watches = w ++ st.make ∧ w.length = st.keys.length ∧
    ∀ i k : Nat, st.keys[i]? = some k → H.made[k]? = w[i]?
  live : ∀ k ∈ st.keys, (H.view k).dropped = false ∧ (k ∈ st.fresh ∨ (H.view k).waker ≠ none)
  nodup : st.keys.Nodup
  ops : st.ops ≠ [] → st.keys = []

theorem FGood.at (hg : FGood R (streams h) st) (hk : k ∈ st.keys) : ∃ p ∈ R.watches, (streams h).made[k]? = some p := by
  obtain ⟨w, w1, w2, w3⟩ := hg.made
  obtain ⟨i, hi, rfl⟩ := List.getElem_of_mem hk
  have h1 := w3 i _ (List.getElem?_eq_getElem hi)
  rw [List.getElem?_eq_getElem (l := w) (by omega)] at h1
  exact ⟨_, by rw [w1]; exact List.mem_append_left _ (List.getElem_mem _), h1⟩

theorem fgood_round (H : Events.History) (s : σ) (keys : List Nat) : FGood R H (R.round s keys) :=
  ⟨⟨[], rfl, rfl, by simp [Fold.round]⟩, by simp [Fold.round], List.nodup_nil, fun _ => rfl⟩

theorem fgood_next (hg : FGood R (streams h) st) (hs : s.step e.1 = some (s', e.2)) (hst : st'.make = st.make ∧ st'.keys = st.keys)
    (hops : st'.ops = []) (hd : ∀ k ∈ st.keys, e.1 ≠ .ev (.drop k))
    (hf : ∀ k ∈ st.fresh, k ∈ st'.fresh ∨ ((streams (h ++ [e])).view k).waker ≠ none) :
    FGood R (streams (h ++ [e])) st' := by
  obtain ⟨w, w1, w2, w3⟩ := hg.made
  refine ⟨⟨w, by rw [w1, hst.1], by rw [w2, hst.2], fun i k hk => ?_⟩, fun k hk => ?_, by rw [hst.2]; exact hg.nodup,
    fun h => (h hops).elim⟩
  · rw [hst.2] at hk
    have hlt : i < w.length := by rw [w2]; exact (List.getElem?_eq_some_iff.1 hk).1
    have h1 := w3 i k hk
    rw [List.getElem?_eq_getElem hlt] at h1 ⊢
    rcases streams_step h hs with ⟨h2, -⟩ | ⟨o, h2, -⟩
    · rw [h2]; exact h1
    · rw [h2]; exact next_keeps_made o h1
  · rw [hst.2] at hk
    obtain ⟨d1, d2⟩ := hg.live k hk
    rcases streams_step h hs with ⟨h2, -⟩ | ⟨o, h2, h3⟩
    · refine ⟨by rw [h2]; exact d1, ?_⟩
      rcases d2 with d2 | d2
      · exact hf k d2
      · exact .inr (by rw [h2]; exact d2)
    · refine ⟨?_, ?_⟩
      · rw [h2]
        refine next_keeps_dropped o d1 ?_
        rintro rfl
        rcases h3 with h3 | ⟨-, _, _, h3⟩
        · exact hd k hk h3
        · cases h3
      · rcases d2 with d2 | d2
        · exact hf k d2
        · exact .inr (by rw [h2]; exact next_keeps_waker o d2)

theorem fgood_step (hh : Hist pageSource Page.init h s) (hs : s.step e.1 = some (s', e.2)) (hst : R.Step h st e st')
    (hg : FGood R (streams h) st) : FGood R (streams (h ++ [e])) st' := by
  have hI := hist_inv hh
  cases hst with
  | @acts s o ops make keys fresh _ he =>
    obtain rfl : keys = [] := hg.ops (by simp)
    obtain ⟨w, w1, w2, -⟩ := hg.made
    obtain rfl := List.length_eq_zero_iff.1 w2
    exact ⟨⟨[], w1, rfl, by simp⟩, by simp, List.nodup_nil, fun _ => rfl⟩
  | @makes s t y make keys fresh _ he =>
    obtain ⟨w, w1, w2, w3⟩ := hg.made
    simp only at w1 w2 w3
    have hst : streams (h ++ [e]) = (streams h).next (.new t y) := by
      rcases streams_step h hs with ⟨-, -, h2⟩ | ⟨o, h1, h2 | ⟨h2, -⟩⟩
      · exact (h2 _ he).elim
      · rw [h2] at he; cases he; exact h1
      · rw [h2] at he; cases he
    have hlt : ∀ k ∈ keys, k < (streams h).made.length := fun k hk => by
      obtain ⟨p, -, hp⟩ := hg.at hk
      exact (List.getElem?_eq_some_iff.1 hp).1
    refine ⟨⟨w ++ [(t, y)], by simp [w1], by simp [w2], fun i k hk => ?_⟩, fun k hk => ?_, ?_, fun h => (h rfl).elim⟩
    · rw [hst]
      simp only at hk
      by_cases hi : i < keys.length
      · rw [List.getElem?_append_left hi] at hk
        rw [List.getElem?_append_left (by omega)]
        show ((streams h).made ++ [(t, y)])[k]? = _
        rw [List.getElem?_append_left (hlt k (List.mem_of_getElem? hk))]
        exact w3 i k hk
      · obtain rfl : i = keys.length := by
          have := (List.getElem?_eq_some_iff.1 hk).1
          rw [List.length_append, List.length_singleton] at this
          omega
        simp only [List.getElem?_concat_length, Option.some.injEq] at hk
        subst hk
        rw [← w2]
        simp [Events.History.next]
    · rw [hst]
      simp only at hk
      rcases List.mem_append.1 hk with hk | hk
      · obtain ⟨d1, d2⟩ := hg.live k hk
        refine ⟨d1, ?_⟩
        rcases d2 with d2 | d2
        · exact .inl (List.mem_append_left _ d2)
        · exact .inr d2
      · rw [List.mem_singleton] at hk
        subst hk
        refine ⟨?_, .inl (by simp)⟩
        show ((streams h).view _).dropped = false
        rw [hI.untouched _ (Nat.le_refl _)]
    · refine List.nodup_append.2 ⟨hg.nodup, by simp, ?_⟩
      intro a ha b hb
      rw [List.mem_singleton] at hb
      have := hlt a ha
      omega
  | @first s k keys fresh _ hy =>
    refine fgood_next hg hs ⟨rfl, rfl⟩ rfl (by cases hy; simp) fun k' hk' => ?_
    rcases List.mem_cons.1 hk' with rfl | hk'
    · right
      obtain ⟨-, wk, h2⟩ := yields_obs hI hs hy
      rw [h2]
      simp [Events.History.next, Events.History.upd]
    · exact .inl hk'
  | other ho => exact fgood_next hg hs ⟨rfl, rfl⟩ rfl (fun k hk => (ho.1 k hk).2) (by simp)
  | waits _ hy => exact fgood_next hg hs ⟨rfl, rfl⟩ rfl (by cases hy; simp) (by simp)
  | ready _ _ => exact fgood_round _ _ _

theorem fgood_steps {h0 : List (PageOp × PageOut)} (hst : R.Steps h0 st l st') (hh : Hist pageSource Page.init (h0 ++ l) s)
    (hg : FGood R (streams h0) st) : FGood R (streams (h0 ++ l)) st' := by
  induction hst generalizing s with
  | nil => rw [List.append_nil]; exact hg
  | @snoc l st1 e st2 _ h1 ih =>
    rw [← List.append_assoc] at hh ⊢
    obtain ⟨s1, h2, h3⟩ := hist_snoc hh
    exact fgood_step h2 h3 h1 (ih h2)

theorem fgood_runs (hr : R.Runs h st) (hh : Hist pageSource Page.init h s) : FGood R (streams h) st := by
  obtain ⟨h0, l, rfl, hl⟩ := hr
  exact fgood_steps hl hh (fgood_round _ _ _)

theorem fsteps_append {h0 a : List (PageOp × PageOut)} {st1 : FoldState σ} (h1 : R.Steps h0 st a st1)
    (h2 : R.Steps (h0 ++ a) st1 b st') : R.Steps h0 st (a ++ b) st' := by
  induction h2 with
  | nil => rw [List.append_nil]; exact h1
  | snoc _ h3 ih => rw [← List.append_assoc]; exact ih.snoc (by rw [← List.append_assoc]; exact h3)

theorem fsteps_split {h0 a : List (PageOp × PageOut)} (hst : R.Steps h0 st (a ++ b) st') :
    ∃ st1, R.Steps h0 st a st1 ∧ R.Steps (h0 ++ a) st1 b st' := by
  generalize hl : a ++ b = l at hst
  induction hst generalizing b with
  | nil =>
    obtain ⟨rfl, rfl⟩ := List.append_eq_nil_iff.1 hl
    exact ⟨_, .nil, .nil⟩
  | @snoc l st1 e st2 h1 h2 ih =>
    rcases List.eq_nil_or_concat b with rfl | ⟨b', x, rfl⟩
    · rw [List.append_nil] at hl
      subst hl
      exact ⟨_, h1.snoc h2, .nil⟩
    · rw [List.concat_eq_append, ← List.append_assoc] at hl
      obtain ⟨hl1, hl2⟩ := List.append_inj' hl rfl
      cases hl2
      obtain ⟨st3, h3, h4⟩ := ih hl1
      refine ⟨st3, h3, ?_⟩
      rw [List.concat_eq_append]
      exact h4.snoc (by rw [List.append_assoc, hl1]; exact h2)

theorem fsteps_one {h0 : List (PageOp × PageOut)} (hst : R.Steps h0 st [e] st') : R.Step h0 st e st' := by
  generalize hl : [e] = l at hst
  cases hst with
  | nil => cases hl
  | @snoc l st1 e' st2 h1 h2 =>
    rcases List.eq_nil_or_concat l with rfl | ⟨b', x, rfl⟩
    · cases hl
      generalize hl : ([] : List (PageOp × PageOut)) = l at h1
      cases h1 with
      | nil => rw [List.append_nil] at h2; exact h2
      | snoc _ _ => simp at hl
    · have := congrArg List.length hl
      simp at this

theorem away (hu : R.Untouched l) (he : e ∈ l) {p} (hp : p ∈ R.watches) : Away p e.1 :=
  ⟨fun t y v n h hq => (hu e he).1 t y v n h (hq ▸ hp), fun q n h hq => (hu e he).2 q n h (hq ▸ hp)⟩

theorem quiet_step (hh : Hist pageSource Page.init h s) (hs : s.step e.1 = some (s', e.2)) (hst : R.Step h st e st')
    (hg : FGood R (streams h) st) (hu : R.Untouched [e]) (hq : ∀ k ∈ st.keys, Hush k s (streams h)) :
    st'.state = st.state ∧ (∀ k ∈ st'.keys, Hush k s' (streams (h ++ [e]))) ∧
      (st.ops = [] → st.make = [] → st.fresh = [] → st' = st) := by
  have keep : ∀ k ∈ st.keys, Hush k s' (streams (h ++ [e])) := fun k hk => by
    obtain ⟨p, hp, hm⟩ := hg.at hk
    exact hush_keep hh hs hm (away hu (by simp) hp) (hq k hk)
  cases hst with
  | acts he => exact ⟨rfl, keep, by simp⟩
  | makes he =>
    refine ⟨rfl, fun k hk => ?_, by simp⟩
    rcases List.mem_append.1 hk with hk | hk
    · exact keep k hk
    · rw [List.mem_singleton] at hk
      subst hk
      exact hush_new hh hs he
  | first hy => exact ⟨rfl, keep, by simp⟩
  | other _ => exact ⟨rfl, keep, fun _ _ _ => rfl⟩
  | waits _ _ => exact ⟨rfl, keep, fun _ _ _ => rfl⟩
  | ready hk hy =>
    have := (yields_obs (hist_inv hh) hs hy).1
    rw [(hq _ (List.mem_of_getElem? hk)).1] at this
    cases this

/-- As long as no event is caused, the state stays. -/
theorem quiet_steps {h0 : List (PageOp × PageOut)} (hst : R.Steps h0 st l st') (h0' : Hist pageSource Page.init h0 s0)
    (hh : Hist pageSource Page.init (h0 ++ l) s) (hg : FGood R (streams h0) st) (hu : R.Untouched l)
    (hq : ∀ k ∈ st.keys, Hush k s0 (streams h0)) :
    st'.state = st.state ∧ (∀ k ∈ st'.keys, Hush k s (streams (h0 ++ l))) ∧
      (st.ops = [] → st.make = [] → st.fresh = [] → st' = st) := by
  induction hst generalizing s with
  | nil =>
    rw [List.append_nil] at hh ⊢
    rw [hist_unique hh h0']
    exact ⟨rfl, hq, fun _ _ _ => rfl⟩
  | @snoc l st1 e st2 hl1 hstep ih =>
    rw [← List.append_assoc] at hh ⊢
    obtain ⟨s1, h2, h3⟩ := hist_snoc hh
    obtain ⟨i1, i2, i3⟩ := ih h2 fun x hx => hu x (by simp [hx])
    obtain ⟨j1, j2, j3⟩ := quiet_step h2 h3 hstep (fgood_steps hl1 h2 hg)
      (fun x hx => hu x (by rw [List.mem_singleton.1 hx]; simp)) i2
    exact ⟨j1.trans i1, j2, fun h4 h5 h6 => by
      have := i3 h4 h5 h6
      subst this
      exact j3 h4 h5 h6⟩

/-- After an event was caused: it is still to be handled, or it has been. -/
theorem pend_steps {h0 : List (PageOp × PageOut)} {z : σ} {keys : List Nat} {i k0 : Nat}
    (hst : R.Steps h0 (.waiting z keys) l st') (h0' : Hist pageSource Page.init h0 s0)
    (hh : Hist pageSource Page.init (h0 ++ l) s) (hg : FGood R (streams h0) (.waiting z keys)) (hu : R.Untouched l)
    (hi : keys[i]? = some k0) (hp : Pend k0 n s0 (streams h0)) (hq : ∀ k ∈ keys, k ≠ k0 → Hush k s0 (streams h0)) :
    (st' = .waiting z keys ∧ Pend k0 n s (streams (h0 ++ l)) ∧ ∀ k ∈ keys, k ≠ k0 → Hush k s (streams (h0 ++ l))) ∨
      st'.state = R.f z i n ∧ ∀ k ∈ st'.keys, Hush k s (streams (h0 ++ l)) := by
  induction hst generalizing s with
  | nil =>
    rw [List.append_nil] at hh ⊢
    rw [hist_unique hh h0']
    exact .inl ⟨rfl, hp, hq⟩
  | @snoc l st1 e st2 hl1 hstep ih =>
    rw [← List.append_assoc] at hh ⊢
    obtain ⟨s1, h2, h3⟩ := hist_snoc hh
    have hg1 := fgood_steps hl1 h2 hg
    have hg2 := fgood_step h2 h3 hstep hg1
    have hue : R.Untouched [e] := fun x hx => hu x (by rw [List.mem_singleton.1 hx]; simp)
    rcases ih h2 fun x hx => hu x (by simp [hx]) with ⟨rfl, i2, i3⟩ | ⟨i1, i2⟩
    · have hk0 := List.mem_of_getElem? hi
      have keep : ∀ k ∈ keys, k ≠ k0 → Hush k s (streams (h0 ++ l ++ [e])) := fun k hk hne => by
        obtain ⟨p, hp, hm⟩ := hg1.at hk
        exact hush_keep h2 h3 hm (away hue (by simp) hp) (i3 k hk hne)
      obtain ⟨p, hp, hm⟩ := hg1.at hk0
      have ha : Away p e.1 := away hue (by simp) hp
      cases hstep with
      | other ho => exact .inl ⟨rfl, pend_keep h2 h3 hh hm ha (hg2.live k0 hk0).1 (.inl (ho.1 k0 hk0).1) i2, keep⟩
      | @waits _ k _ _ hk hy =>
        refine .inl ⟨rfl, pend_keep h2 h3 hh hm ha (hg2.live k0 hk0).1 ?_ i2, keep⟩
        by_cases hkk : k = k0
        · subst hkk; exact .inr hy
        · left
          cases hy
          intro wk he
          cases he
          exact hkk rfl
      | @ready _ j k m _ _ hk hy =>
        right
        have hob := (yields_obs (hist_inv h2) h3 hy).1
        have hkk : k = k0 := by
          by_contra hne
          rw [(i3 k (List.mem_of_getElem? hk) hne).1] at hob
          cases hob
        subst hkk
        have hji : j = i := by
          exact (List.getElem?_inj (List.getElem?_eq_some_iff.1 hk).1 hg1.nodup).1 (hk.trans hi.symm)
        subst hji
        have hmn : m = n := by
          rcases i2.1 with h5 | ⟨h5, -⟩
          · rw [h5] at hob; cases hob; rfl
          · rw [h5] at hob; cases hob
        subst hmn
        exact ⟨rfl, by simp [Fold.round]⟩
    · obtain ⟨j1, j2, -⟩ := quiet_step h2 h3 hstep hg1 hue i2
      exact .inr ⟨j1.trans i1, j2⟩

theorem told_hush (ht : Told pageSource Page.init h s k) (hc : s.calls = []) : Hush k s (streams h) := by
  obtain ⟨n, hq⟩ := told_quiet (told_page ht)
  exact ⟨hq.2.2, by rw [hc]; simp⟩

theorem told_not_pend (ht : Told pageSource Page.init h s k) (hc : s.calls = []) : ¬ Pend k n s (streams h) := by
  obtain ⟨m, hq⟩ := told_quiet (told_page ht)
  rintro ⟨h1 | ⟨-, q, h1, -⟩, -⟩
  · have h2 : ((streams h).view k).unread = none := hq.2.2
    rw [h2] at h1; cases h1
  · rw [hc] at h1; cases h1

/-- No event: the state stays. -/
theorem none_page {z z' : σ} {keys keys' : List Nat} (h0 : Hist pageSource Page.init h s0)
    (hh : Hist pageSource Page.init (h ++ l) s) (hr : R.Runs h (.waiting z keys))
    (hst : R.Steps h (.waiting z keys) l (.waiting z' keys')) (ht : ∀ k ∈ keys, Told pageSource Page.init h s0 k)
    (hc : s0.calls = []) (hu : R.Untouched l) : z' = z :=
  (quiet_steps hst h0 hh (fgood_runs hr h0) hu fun k hk => told_hush (ht k hk) hc).1

/-- One event: it is handled once. -/
theorem one_page {z z' : σ} {keys keys' : List Nat} {i : Nat} (hnd : R.watches.Nodup) (h0 : Hist pageSource Page.init h s0)
    (hh : Hist pageSource Page.init (h ++ l) s) (hr : R.Runs h (.waiting z keys))
    (hst : R.Steps h (.waiting z keys) l (.waiting z' keys')) (ht : ∀ k ∈ keys, Told pageSource Page.init h s0 k)
    (hc : s0.calls = []) (ht' : ∀ k ∈ keys', Told pageSource Page.init (h ++ l) s k) (hc' : s.calls = [])
    (hu : R.One l i n) : z' = R.f z i n := by
  obtain ⟨a, x, b, t, y, v, rfl, hx, hi, hua, hub⟩ := hu
  have hg := fgood_runs hr h0
  obtain ⟨st1, q1, q2⟩ := fsteps_split hst
  obtain ⟨st2, q3, q4⟩ := fsteps_split (a := [x]) (b := b) q2
  have q3 := fsteps_one q3
  have e1 : h ++ (a ++ x :: b) = (h ++ a ++ [x]) ++ b := by simp
  rw [e1] at hh ht'
  obtain ⟨s2, h2, -⟩ := hist_append hh
  obtain ⟨s1, h1, hs1⟩ := hist_snoc h2
  obtain ⟨-, j2, j3⟩ := quiet_steps q1 h0 h1 hg hua fun k hk => told_hush (ht k hk) hc
  obtain rfl := j3 rfl rfl rfl
  have hg1 := fgood_steps q1 h1 hg
  have hg2 := fgood_step h1 hs1 q3 hg1
  obtain rfl : st2 = .waiting z keys := by
    cases q3 with
    | other _ => rfl
    | waits _ _ => rfl
    | ready _ hy => cases hy; cases hx
  obtain ⟨w, w1, w2, w3⟩ := hg1.made
  simp only [List.append_nil] at w1 w2 w3
  subst w1
  obtain ⟨k0, hk0⟩ : ∃ k0, keys[i]? = some k0 := by
    have := (List.getElem?_eq_some_iff.1 hi).1
    exact ⟨_, List.getElem?_eq_getElem (by omega)⟩
  have hm0 := w3 i k0 hk0
  rw [hi] at hm0
  have hl0 := hg1.live k0 (List.mem_of_getElem? hk0)
  have hp := pend_edit h1 hs1 hx hm0 hl0.1 (hl0.2.resolve_left (by simp)) (j2 k0 (List.mem_of_getElem? hk0))
  have hq : ∀ k ∈ keys, k ≠ k0 → Hush k s2 (streams (h ++ a ++ [x])) := by
    intro k hk hne
    obtain ⟨j, hj, rfl⟩ := List.getElem_of_mem hk
    have hmj := w3 j _ (List.getElem?_eq_getElem hj)
    rw [List.getElem?_eq_getElem (l := R.watches) (by omega)] at hmj
    refine hush_keep h1 hs1 hmj ⟨fun t' y' v' n' he hp => ?_, fun q n' he => by rw [hx] at he; cases he⟩ (j2 _ hk)
    rw [hx] at he
    cases he
    refine hne ?_
    have : j = i := by
      refine (List.getElem?_inj (l := R.watches) (by omega) hnd).1 ?_
      rw [hi, List.getElem?_eq_getElem (by omega), hp]
    subst this
    rw [List.getElem?_eq_getElem hj] at hk0
    exact Option.some.inj hk0
  rw [List.append_assoc] at q4
  rcases pend_steps (by rw [List.append_assoc]; exact q4) h2 hh hg2 hub hk0 hp hq with ⟨r1, r2, -⟩ | ⟨r1, -⟩
  · cases r1
    exact (told_not_pend (ht' k0 (List.mem_of_getElem? hk0)) hc' r2).elim
  · exact r1

/-! ## What is shown -/

theorem lastOf_cons (t : Nat) (o : PageOp) (ops : List PageOp) (v : List Char) :
    (lastOf t (o :: ops)).getD v = (lastOf t ops).getD ((written t o).getD v) := by
  simp only [lastOf, List.filterMap_cons]
  cases written t o with
  | none => rfl
  | some x =>
    simp only [Option.getD_some, List.getLast?_cons]

/-- What will have been shown, if nothing else happens. -/
theorem shows_step {t : Nat} (hst : R.Step h st e st')
    (hs : ∀ v, lastOf t ((R.shows st.state).map fun x => .set x.1 x.2) = some v → (lastOf t st.ops).getD (valueOf t h) = v) :
    ∀ v, lastOf t ((R.shows st'.state).map fun x => .set x.1 x.2) = some v →
      (lastOf t st'.ops).getD (valueOf t (h ++ [e])) = v := by
  intro v
  rw [valueOf_snoc]
  cases hst with
  | acts he =>
    intro h1
    have := hs v h1
    rw [lastOf_cons] at this
    rw [he]
    exact this
  | makes he => intro h1; rw [he]; exact hs v h1
  | first hy => intro h1; cases hy; exact hs v h1
  | other ho =>
    intro h1
    obtain ⟨o, ho1, ho2⟩ := List.mem_filterMap.1 (List.mem_of_getLast? h1)
    obtain ⟨x, hx, rfl⟩ := List.mem_map.1 ho1
    have hxt : x.1 = t := by
      simp only [written] at ho2
      split at ho2
      · assumption
      · cases ho2
    subst hxt
    rw [ho.2 _ x hx]
    exact hs v h1
  | waits _ hy => intro h1; cases hy; exact hs v h1
  | ready _ _ =>
    intro h1
    simp only [lastOf, Fold.round] at h1 ⊢
    rw [List.filterMap_append, List.getLast?_append, h1]
    rfl

theorem shows_steps {h0 : List (PageOp × PageOut)} {t : Nat} (hst : R.Steps h0 st l st')
    (hs : ∀ v, lastOf t ((R.shows st.state).map fun x => .set x.1 x.2) = some v → (lastOf t st.ops).getD (valueOf t h0) = v) :
    ∀ v, lastOf t ((R.shows st'.state).map fun x => .set x.1 x.2) = some v →
      (lastOf t st'.ops).getD (valueOf t (h0 ++ l)) = v := by
  induction hst with
  | nil => rw [List.append_nil]; exact hs
  | snoc _ h1 ih => rw [← List.append_assoc]; exact shows_step h1 ih

/-- When it waits, it shows its state. -/
theorem shows_page {z : σ} {keys : List Nat} (hh : Hist pageSource Page.init h s) (hr : R.Runs h (.waiting z keys)) {t : Nat}
    {v : List Char} (hv : lastOf t ((R.shows z).map fun x => .set x.1 x.2) = some v) : s.value t = v := by
  obtain ⟨h0, l, rfl, hl⟩ := hr
  rw [hist_value hh]
  refine shows_steps hl ?_ v hv
  intro v h1
  simp only [Fold.round, List.map_nil, List.nil_append]
  simp only [Fold.round] at h1
  rw [h1]
  rfl

end
end Verif.Live
