import Verif.Events.Spec

namespace Verif.Events

/-- The listeners that are in the DOM: those of live streams and those of dropped ones with the
capture option. -/
def History.left (H : History) : List Listener :=
  H.order.zipIdx.filterMap fun (i, c) =>
    if (H.view i).dropped && !(H.view i).capture then none else some (H.wanted c i)

/-- What holds of the world after a history. -/
structure Inv (W : World) (H : History) : Prop where
  closures : W.closures = H.order
  length : W.streams.length = H.made.length
  nodup : H.order.Nodup
  polled : ∀ i, i ∈ H.order ↔ (H.view i).waker ≠ none
  made : ∀ i ∈ H.order, i < H.made.length
  untouched : ∀ i, H.made.length ≤ i → H.view i = {}
  gone : ∀ i, (W.streams[i]? : Option (Option Stream)) = some none ↔ (H.view i).dropped = true
  live : ∀ i s, (W.streams[i]? : Option (Option Stream)) = some (some s) →
    H.made[i]? = some (s.target, s.type) ∧
    (∀ c, s.closure = some c ↔ H.order[c]? = some i) ∧
    s.event = (H.view i).unread ∧
    s.waker = (H.view i).waker.getD dummy ∧
    ((H.view i).waker = none →
      ((s.options.bind (·.capture)).getD false = (H.view i).capture ∧
        (s.options.bind (·.passive)).getD false = (H.view i).passive))
  quiet : ∀ i, (H.view i).waker = none → (H.view i).unread = none
  listeners : W.listeners = H.left

theorem inv_init : Inv init {} := by
  constructor <;> simp [init, History.left]

theorem run_append {W : World} {xs ys : List Op} :
    run W (xs ++ ys) = (run W xs).bind fun p => (run p.1 ys).map fun q => (q.1, p.2 ++ q.2) := by
  induction xs generalizing W with
  | nil => simp [run]
  | cons x xs ih =>
    simp only [List.cons_append, run, bind]
    cases step W x with
    | none => rfl
    | some p =>
      obtain ⟨W1, o⟩ := p
      simp only [Option.bind_some, ih]
      cases run W1 xs with
      | none => rfl
      | some q =>
        simp only [Option.bind_some]
        cases run q.1 ys <;> simp


theorem filterMap_congr' {α β : Type} {f g : α → Option β} {xs : List α}
    (h : ∀ x ∈ xs, f x = g x) : xs.filterMap f = xs.filterMap g := by
  induction xs with
  | nil => rfl
  | cons x xs ih =>
    simp only [List.filterMap_cons, h x (by simp), ih fun y hy => h y (by simp [hy])]

theorem join_eq {W : World} {i : Nat} {s : Stream} (h : W.streams[i]?.join = some s) :
    (W.streams[i]? : Option (Option Stream)) = some (some s) := by
  simpa [Option.join_eq_some_iff] using h

theorem left_upd {H : History} {i : Nat} {f : View → View}
    (hd : (f (H.view i)).dropped = (H.view i).dropped)
    (hc : i ∈ H.order → (f (H.view i)).capture = (H.view i).capture ∧
      (f (H.view i)).passive = (H.view i).passive) :
    (H.upd i f).left = H.left := by
  unfold History.left
  apply filterMap_congr'
  rintro ⟨j, c⟩ hj
  have hj' : j ∈ H.order := by
    have := List.mem_zipIdx hj
    simp only [History.upd] at this
    rw [this.2.2]; exact List.getElem_mem _
  by_cases hji : j = i
  · subst hji
    simp [History.upd, History.wanted, hd, hc hj']
  · simp [History.upd, History.wanted, hji]

theorem inv_new {W : World} {H : History} (h : Inv W H) (t y : Nat) :
    Inv { W with streams := W.streams ++ [some (.new t y)] } (H.next (.new t y)) := by
  obtain ⟨h1, h2, h3, h4, h5, h6, h7, h8, h9, h10⟩ := h
  have hn : ∀ i, (W.streams ++ [some (Stream.new t y)])[i]? =
      if i < W.streams.length then W.streams[i]? else if i = W.streams.length then
        some (some (Stream.new t y)) else none := by
    intro i; grind
  refine ⟨h1, by simp [History.next, h2], h3, h4, ?_, ?_, ?_, ?_, h9, ?_⟩
  · intro i hi; have := h5 i hi; simp [History.next]; omega
  · intro i hi; apply h6; simp [History.next] at hi; omega
  · intro i
    have := h7 i
    have := h6 i
    simp only [History.next, hn]
    grind
  · intro i s hs
    simp only [History.next, hn] at hs ⊢
    have := h8 i s
    have := h6 i
    by_cases hlt : i < W.streams.length
    · simp only [hlt, if_true] at hs
      have := h8 i s hs
      refine ⟨?_, this.2⟩
      rw [List.getElem?_append_left (by omega)]; exact this.1
    · simp only [hlt, if_false] at hs
      by_cases he : i = W.streams.length
      · simp only [he, if_true, Option.some.injEq] at hs
        subst hs
        have hv := h6 i (by omega)
        rw [hv]
        have hio : i ∉ H.order := by intro hi; have := h5 i hi; omega
        refine ⟨by grind [Stream.new], ?_, rfl, rfl, fun _ => ⟨rfl, rfl⟩⟩
        intro c
        simp only [Stream.new, reduceCtorEq, false_iff]
        intro hc; exact hio (List.mem_of_getElem? hc)
      · simp [he] at hs
  · simp only [h10, History.left, History.next]
    apply filterMap_congr'
    rintro ⟨j, c⟩ hj
    have hj' : j ∈ H.order := by
      have := List.mem_zipIdx hj
      rw [this.2.2]; exact List.getElem_mem _
    have := h5 j hj'
    simp [History.wanted, List.getElem?_append_left this]

/-- A step that changes one live stream and nothing else. -/
theorem inv_upd {W : World} {H : History} (h : Inv W H) {i : Nat} {s s' : Stream}
    (hs : (W.streams[i]? : Option (Option Stream)) = some (some s)) (f : View → View)
    (hd : (f (H.view i)).dropped = (H.view i).dropped)
    (hw : (f (H.view i)).waker = none ↔ (H.view i).waker = none)
    (hc : i ∈ H.order → (f (H.view i)).capture = (H.view i).capture ∧
      (f (H.view i)).passive = (H.view i).passive)
    (ht : s'.target = s.target ∧ s'.type = s.type ∧ s'.closure = s.closure)
    (he : s'.event = (f (H.view i)).unread) (hk : s'.waker = (f (H.view i)).waker.getD dummy)
    (ho : (f (H.view i)).waker = none →
      ((s'.options.bind (·.capture)).getD false = (f (H.view i)).capture ∧
        (s'.options.bind (·.passive)).getD false = (f (H.view i)).passive))
    (hq : (f (H.view i)).waker = none → (f (H.view i)).unread = none) :
    Inv { W with streams := W.streams.set i (some s') } (H.upd i f) := by
  obtain ⟨h1, h2, h3, h4, h5, h6, h7, h8, h9, h10⟩ := h
  have hlt : i < W.streams.length := by grind
  refine ⟨h1, by simp [History.upd, h2], h3, ?_, h5, ?_, ?_, ?_, ?_, ?_⟩
  · intro j
    have := h4 j
    simp only [History.upd]
    grind
  · intro j hj
    have := h6 j hj
    simp only [History.upd] at hj ⊢
    have : j ≠ i := by omega
    simp [*]
  · intro j
    have := h7 j
    simp only [History.upd, List.getElem?_set]
    grind
  · intro j t hj
    simp only [History.upd, List.getElem?_set] at hj ⊢
    by_cases hji : i = j
    · subst hji
      simp only [if_true, hlt, Option.some.injEq] at hj
      subst hj
      have := h8 i s hs
      simp only [if_true]
      rw [ht.1, ht.2.1, ht.2.2]
      exact ⟨this.1, this.2.1, he, hk, ho⟩
    · simp only [hji, if_false] at hj
      have := h8 j t hj
      simpa [Ne.symm hji] using this
  · intro j
    have := h9 j
    simp only [History.upd]
    grind
  · rw [left_upd hd hc]; exact h10

theorem zipIdx_append_singleton (xs : List Nat) (x : Nat) :
    (xs ++ [x]).zipIdx = xs.zipIdx ++ [(x, xs.length)] := by
  simp [List.zipIdx_append]

theorem callback_left {H : History} {l : Listener} (h : l ∈ H.left) :
    ∃ i, H.order[l.callback]? = some i ∧ ((H.view i).dropped && !(H.view i).capture) = false ∧
      l = H.wanted l.callback i := by
  simp only [History.left, List.mem_filterMap] at h
  obtain ⟨⟨i, c⟩, hm, hl⟩ := h
  have := List.mem_zipIdx hm
  simp only at hl
  split at hl
  · cases hl
  · rename_i hdc
    simp only [Option.some.injEq] at hl
    subst hl
    refine ⟨i, ?_, by simpa using hdc, rfl⟩
    simp only [History.wanted]
    simp only [Nat.zero_le, Nat.zero_add, Nat.sub_zero, true_and] at this
    rw [this.2]; exact List.getElem?_eq_getElem this.1

theorem left_callback {H : History} {c i : Nat} (h : H.order[c]? = some i)
    (hdc : ((H.view i).dropped && !(H.view i).capture) = false) : H.wanted c i ∈ H.left := by
  simp only [History.left, List.mem_filterMap]
  refine ⟨(i, c), ?_, by simp [hdc]⟩
  rw [List.mem_zipIdx_iff_getElem?]
  exact h

theorem inv_poll_first {W : World} {H : History} (h : Inv W H) {i : Nat} {s : Stream}
    (hs : (W.streams[i]? : Option (Option Stream)) = some (some s)) (hc : s.closure = none)
    (w : Waker) (s' : Stream) (hs' : s' = { s with waker := w, closure := some W.closures.length }) :
    Inv ⟨W.streams.set i (some s'), addListener W.listeners (s'.listener W.closures.length),
      W.closures ++ [i]⟩ (H.next (.poll i w)) := by
  obtain ⟨h1, h2, h3, h4, h5, h6, h7, h8, h9, h10⟩ := h
  have hlt : i < W.streams.length := by grind
  obtain ⟨a1, a2, a3, a4, a5⟩ := h8 i s hs
  have hio : i ∉ H.order := by
    intro hi
    obtain ⟨c, hcl, hce⟩ := List.getElem_of_mem hi
    have := (a2 c).2 (by rw [List.getElem?_eq_getElem hcl, hce])
    rw [hc] at this; cases this
  have hwn : (H.view i).waker = none := by
    by_cases hn : (H.view i).waker = none
    · exact hn
    · exact absurd ((h4 i).2 hn) hio
  obtain ⟨o1, o2⟩ := a5 hwn
  have hun := h9 i hwn
  have hnd : (H.view i).dropped = false := by
    have := h7 i; rw [hs] at this; simpa using this
  have hord : (H.next (.poll i w)).order = H.order ++ [i] := by
    simp [History.next, History.upd, hwn]
  have hview : ∀ j, (H.next (.poll i w)).view j =
      if j = i then { H.view j with waker := some w, unread := none } else H.view j := fun j => rfl
  have hmade : (H.next (.poll i w)).made = H.made := rfl
  have hwant : s'.listener W.closures.length = (H.next (.poll i w)).wanted H.order.length i := by
    simp only [History.wanted, hview, if_true, hmade, a1, Option.getD_some, h1, hs', Stream.listener]
    cases ho : s.options with
    | none => simp [ho] at o1 o2; simp [o1, o2]
    | some o => simp [ho] at o1 o2; simp [o1, o2]
  have hleft : (H.next (.poll i w)).left = H.left ++ [s'.listener W.closures.length] := by
    rw [hwant]
    simp only [History.left, hord, zipIdx_append_singleton, List.filterMap_append]
    congr 1
    · apply filterMap_congr'
      rintro ⟨j, c⟩ hj
      have hj' : j ∈ H.order := by
        have := List.mem_zipIdx hj
        rw [this.2.2]; exact List.getElem_mem _
      have : j ≠ i := by rintro rfl; exact hio hj'
      simp [History.wanted, hview, this, hmade]
    · simp [hview, hnd]
  refine ⟨by rw [h1, hord], by simp [hmade, h2], ?_, ?_, ?_, ?_, ?_, ?_, ?_, ?_⟩
  · rw [hord]; exact List.nodup_append.2 ⟨h3, by simp, by grind⟩
  · intro j
    have := h4 j
    rw [hord, hview]
    by_cases hji : j = i <;> simp [hji, h4]
  · intro j hj; rw [hord] at hj; rw [hmade]
    rcases List.mem_append.1 hj with hj | hj
    · exact h5 j hj
    · simp at hj; omega
  · intro j hj
    rw [hmade] at hj
    rw [hview, if_neg (by omega)]; exact h6 j hj
  · intro j
    have := h7 j
    rw [hview]
    simp only [List.getElem?_set]
    grind
  · intro j t hj
    simp only [List.getElem?_set] at hj
    rw [hview, hmade, hord]
    by_cases hji : i = j
    · subst hji
      simp only [if_true, hlt, Option.some.injEq] at hj
      subst hj
      subst hs'
      refine ⟨a1, ?_, ?_, ?_, ?_⟩
      · intro c
        rw [h1]
        simp only [Option.some.injEq]
        constructor
        · rintro rfl; simp
        · intro hce
          rcases Nat.lt_or_ge c H.order.length with hcl | hcl
          · rw [List.getElem?_append_left hcl] at hce
            exact absurd (List.mem_of_getElem? hce) hio
          · rw [List.getElem?_append_right hcl] at hce
            grind
      · simp [a3, hun]
      · simp
      · simp
    · simp only [hji, if_false] at hj
      obtain ⟨b1, b2, b3⟩ := h8 j t hj
      simp only [Ne.symm hji, if_false]
      refine ⟨b1, ?_, b3⟩
      intro c
      rw [b2 c]
      grind
  · intro j
    have := h9 j
    rw [hview]
    grind
  · have hany : W.listeners.any (s'.listener W.closures.length).same = false := by
      rw [List.any_eq_false]
      intro l hl
      rw [h10] at hl
      obtain ⟨j, hj, _, _⟩ := callback_left hl
      have hcb : (s'.listener W.closures.length).callback = W.closures.length := by
        unfold Stream.listener; split <;> rfl
      have : l.callback < H.order.length := by
        rw [List.getElem?_eq_some_iff] at hj; exact hj.1
      have hne : ((s'.listener W.closures.length).callback == l.callback) = false := by
        rw [hcb, h1]; simp; omega
      simp only [Listener.same, hne, Bool.and_false, Bool.false_and, Bool.false_eq_true,
        not_false_eq_true]
    rw [addListener, hany, hleft, h10]
    rfl

theorem inv_drop {W : World} {H : History} (h : Inv W H) {i : Nat} {s : Stream}
    (hs : (W.streams[i]? : Option (Option Stream)) = some (some s)) :
    Inv { W with streams := W.streams.set i none, listeners := match s.closure with
        | some c => removeListener W.listeners (s.unlistener c)
        | none => W.listeners } (H.next (.drop i)) := by
  obtain ⟨h1, h2, h3, h4, h5, h6, h7, h8, h9, h10⟩ := h
  have hlt : i < W.streams.length := by grind
  obtain ⟨a1, a2, a3, a4, a5⟩ := h8 i s hs
  have hnd : (H.view i).dropped = false := by
    have := h7 i; rw [hs] at this; simpa using this
  have hview : ∀ j, (H.next (.drop i)).view j =
      if j = i then { H.view j with dropped := true } else H.view j := fun j => rfl
  have hord : (H.next (.drop i)).order = H.order := rfl
  have hmade : (H.next (.drop i)).made = H.made := rfl
  refine ⟨h1, by simp [hmade, h2], h3, ?_, h5, ?_, ?_, ?_, ?_, ?_⟩
  · intro j
    have := h4 j
    rw [hord, hview]
    grind
  · intro j hj
    rw [hmade] at hj
    rw [hview, if_neg (by omega)]; exact h6 j hj
  · intro j
    have := h7 j
    rw [hview]
    simp only [List.getElem?_set]
    grind
  · intro j t hj
    simp only [List.getElem?_set] at hj
    by_cases hji : i = j
    · subst hji; simp [hlt] at hj
    · simp only [hji, if_false] at hj
      have := h8 j t hj
      rw [hview, hmade, hord, if_neg (Ne.symm hji)]
      exact this
  · intro j
    have := h9 j
    rw [hview]
    grind
  · simp only
    have hw : ∀ c j, (H.next (.drop i)).wanted c j = H.wanted c j := by
      intro c j
      simp only [History.wanted, hview, hmade]
      by_cases hji : j = i <;> simp [hji]
    rw [h10]
    split
    · rename_i c hc
      have hci := (a2 c).1 hc
      simp only [removeListener, History.left, hord, List.filter_filterMap]
      apply filterMap_congr'
      rintro ⟨j, d⟩ hj
      have hjd : H.order[d]? = some j := List.mem_zipIdx_iff_getElem?.1 hj
      simp only [hview, hw]
      by_cases hji : j = i
      · subst hji
        have hdc : d = c := by
          rw [List.getElem?_eq_some_iff] at hjd hci
          exact (List.getElem_inj h3).1 (hjd.2.trans hci.2.symm)
        subst hdc
        cases hcap : (H.view j).capture
        · simp [hnd, hcap, Listener.same, Stream.unlistener, History.wanted, a1]
        · simp [hnd, hcap, Listener.same, Stream.unlistener, History.wanted, a1]
      · have hdc : (c == d) = false := by
          simp only [beq_eq_false_iff_ne]
          rintro rfl
          rw [hci] at hjd
          exact hji (Option.some.inj hjd).symm
        simp only [hji, if_false]
        split
        · rfl
        · simp [Listener.same, Stream.unlistener, History.wanted, hdc]
    · rename_i hc
      simp only [History.left, hord]
      apply filterMap_congr'
      rintro ⟨j, d⟩ hj
      have hjd : H.order[d]? = some j := List.mem_zipIdx_iff_getElem?.1 hj
      have hji : j ≠ i := by
        rintro rfl
        have := (a2 d).2 hjd
        rw [hc] at this; cases this
      simp only [hview, hw, hji, if_false]

/-- What each `Op` lets one observe, given the history so far. -/
def History.obs (H : History) : Op → Obs
  | .poll i _ => { polled := some (H.view i).unread }
  | .deliver l _ =>
      match H.order[l.callback]? with
      | some i => if (H.view i).dropped then { threw := true } else { woke := (H.view i).waker }
      | none => {}
  | _ => {}

theorem inv_step {W W1 : World} {H : History} {op : Op} {o : Obs} (h : Inv W H)
    (hs : step W op = some (W1, o)) : Inv W1 (H.next op) ∧ o = H.obs op := by
  cases op with
  | new t y =>
    simp only [step, Option.some.injEq, Prod.mk.injEq] at hs
    obtain ⟨rfl, rfl⟩ := hs
    exact ⟨inv_new h t y, rfl⟩
  | setCapture i b =>
    simp only [step, Option.bind_eq_bind, Option.bind_eq_some_iff, Option.some.injEq,
      Prod.mk.injEq] at hs
    obtain ⟨s, hs, rfl, rfl⟩ := hs
    have hs := join_eq hs
    obtain ⟨a1, a2, a3, a4, a5⟩ := h.live i s hs
    refine ⟨inv_upd (s' := s.setCapture b) h hs
      (fun v => if v.waker = none then { v with capture := b } else v) ?_ ?_ ?_ ⟨rfl, rfl, rfl⟩ ?_ ?_ ?_ ?_, rfl⟩
    · split <;> rfl
    · split <;> rfl
    · intro hi; rw [if_neg ((h.polled i).1 hi)]; exact ⟨rfl, rfl⟩
    · simp only [Stream.setCapture, a3]; split <;> rfl
    · simp only [Stream.setCapture, a4]; split <;> rfl
    · intro hw
      have hw' : (H.view i).waker = none := by
        split at hw <;> exact hw
      have := a5 hw'
      simp only [hw', if_true, Stream.setCapture]
      refine ⟨rfl, ?_⟩
      rw [← this.2]
      cases s.options <;> rfl
    · intro hw
      have hw' : (H.view i).waker = none := by
        split at hw <;> exact hw
      simp only [hw', if_true]; exact h.quiet i hw'
  | setPassive i b =>
    simp only [step, Option.bind_eq_bind, Option.bind_eq_some_iff, Option.some.injEq,
      Prod.mk.injEq] at hs
    obtain ⟨s, hs, rfl, rfl⟩ := hs
    have hs := join_eq hs
    obtain ⟨a1, a2, a3, a4, a5⟩ := h.live i s hs
    refine ⟨inv_upd (s' := s.setPassive b) h hs
      (fun v => if v.waker = none then { v with passive := b } else v) ?_ ?_ ?_ ⟨rfl, rfl, rfl⟩ ?_ ?_ ?_ ?_, rfl⟩
    · split <;> rfl
    · split <;> rfl
    · intro hi; rw [if_neg ((h.polled i).1 hi)]; exact ⟨rfl, rfl⟩
    · simp only [Stream.setPassive, a3]; split <;> rfl
    · simp only [Stream.setPassive, a4]; split <;> rfl
    · intro hw
      have hw' : (H.view i).waker = none := by
        split at hw <;> exact hw
      have := a5 hw'
      simp only [hw', if_true, Stream.setPassive]
      refine ⟨?_, rfl⟩
      rw [← this.1]
      cases s.options <;> rfl
    · intro hw
      have hw' : (H.view i).waker = none := by
        split at hw <;> exact hw
      simp only [hw', if_true]; exact h.quiet i hw'
  | poll i w =>
    simp only [step, Option.bind_eq_bind, Option.bind_eq_some_iff] at hs
    obtain ⟨s, hs, hr⟩ := hs
    have hs := join_eq hs
    obtain ⟨a1, a2, a3, a4, a5⟩ := h.live i s hs
    have hwk : (if s.waker = w then s else { s with waker := w }) = { s with waker := w } := by
      split
      · rename_i hh; rw [← hh]
      · rfl
    simp only [Stream.poll, hwk] at hr
    cases hc : s.closure with
    | none =>
      simp only [hc, Option.some.injEq, Prod.mk.injEq] at hr
      obtain ⟨rfl, rfl⟩ := hr
      have hwn : (H.view i).waker = none := by
        by_cases hn : (H.view i).waker = none
        · exact hn
        · obtain ⟨c, hcl, hce⟩ := List.getElem_of_mem ((h.polled i).2 hn)
          have := (a2 c).2 (by rw [List.getElem?_eq_getElem hcl, hce])
          rw [hc] at this; cases this
      refine ⟨?_, by simp [History.obs, h.quiet i hwn]⟩
      exact inv_poll_first h hs hc w _ (by simp)
    | some c =>
      simp only [hc, Option.some.injEq, Prod.mk.injEq] at hr
      obtain ⟨rfl, rfl⟩ := hr
      have hi : i ∈ H.order := List.mem_of_getElem? ((a2 c).1 hc)
      have hwn := (h.polled i).1 hi
      refine ⟨?_, by simp [History.obs, a3]⟩
      have hH : H.next (.poll i w) = H.upd i fun v => { v with waker := some w, unread := none } := by
        simp only [History.next, hwn, if_false]
      rw [hH]
      exact inv_upd h hs _ rfl (by simp [hwn]) (fun _ => ⟨rfl, rfl⟩) ⟨rfl, rfl, hc.symm⟩ rfl rfl
        (by simp) (by simp)
  | drop i =>
    simp only [step, Option.bind_eq_bind, Option.bind_eq_some_iff, Option.some.injEq,
      Prod.mk.injEq] at hs
    obtain ⟨s, hs, rfl, rfl⟩ := hs
    exact ⟨inv_drop h (join_eq hs), rfl⟩
  | deliver l e =>
    simp only [step] at hs
    split at hs
    · rename_i hl
      simp only [Option.bind_eq_bind, Option.bind_eq_some_iff] at hs
      obtain ⟨i, hi, hr⟩ := hs
      rw [h.closures] at hi
      have hio : i ∈ H.order := List.mem_of_getElem? hi
      have hwn := (h.polled i).1 hio
      have hnext : H.next (.deliver l e) = H.upd i fun v => { v with unread := some e } := by
        simp only [History.next, hi]
      rw [hnext]
      split at hr
      · rename_i s hs
        have hs := join_eq hs
        obtain ⟨a1, a2, a3, a4, a5⟩ := h.live i s hs
        simp only [Option.some.injEq, Prod.mk.injEq] at hr
        obtain ⟨rfl, rfl⟩ := hr
        have hnd : (H.view i).dropped = false := by
          have := h.gone i; rw [hs] at this; simpa using this
        refine ⟨inv_upd h hs _ rfl Iff.rfl (fun _ => ⟨rfl, rfl⟩) ⟨rfl, rfl, rfl⟩ rfl a4
          (fun hw => absurd hw hwn) (fun hw => absurd hw hwn), ?_⟩
        simp only [History.obs, hi, hnd, Stream.callback, a4]
        cases hw : (H.view i).waker with
        | none => exact absurd hw hwn
        | some w => simp
      · rename_i hs
        simp only [Option.some.injEq, Prod.mk.injEq] at hr
        obtain ⟨rfl, rfl⟩ := hr
        have hil : i < W.streams.length := by rw [h.length]; exact h.made i hio
        have hg : (W.streams[i]? : Option (Option Stream)) = some none := by
          rw [List.getElem?_eq_getElem hil] at hs ⊢
          simpa using hs
        have hd := (h.gone i).1 hg
        refine ⟨?_, by simp [History.obs, hi, hd]⟩
        obtain ⟨h1, h2, h3, h4, h5, h6, h7, h8, h9, h10⟩ := h
        refine ⟨h1, h2, h3, ?_, h5, ?_, ?_, ?_, ?_, ?_⟩
        · intro j; have := h4 j; simp only [History.upd]; grind
        · intro j hj
          have := h6 j hj
          have : j ≠ i := by simp only [History.upd] at hj; omega
          simp [History.upd, *]
        · intro j; have := h7 j; simp only [History.upd]; grind
        · intro j s hj
          have : j ≠ i := by rintro rfl; rw [hg] at hj; simp at hj
          simpa [History.upd, this] using h8 j s hj
        · intro j; have := h9 j; simp only [History.upd]; grind
        · rw [left_upd rfl (fun _ => ⟨rfl, rfl⟩)]; exact h10
    · cases hs

/-- All the observations of a list of `Op`s. -/
def observed : History → List Op → List Obs
  | _, [] => []
  | H, op :: ops => H.obs op :: observed (H.next op) ops

theorem inv_run {W W1 : World} {H : History} {ops : List Op} {os : List Obs} (h : Inv W H)
    (hr : run W ops = some (W1, os)) : Inv W1 (ops.foldl History.next H) ∧ os = observed H ops := by
  induction ops generalizing W H os with
  | nil => simp only [run, Option.some.injEq, Prod.mk.injEq] at hr; obtain ⟨rfl, rfl⟩ := hr; exact ⟨h, rfl⟩
  | cons op ops ih =>
    simp only [run, Option.bind_eq_bind, Option.bind_eq_some_iff, Option.some.injEq, Prod.mk.injEq] at hr
    obtain ⟨⟨W', o⟩, hs, ⟨W'', os'⟩, hr, rfl, rfl⟩ := hr
    obtain ⟨hi, rfl⟩ := inv_step h hs
    obtain ⟨hi', rfl⟩ := ih hi hr
    exact ⟨hi', rfl⟩

end Verif.Events
