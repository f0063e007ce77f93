import Verif.Live.Page
/-!
# C70: a loop that reads an input and waits for its events has read the current value
-/
namespace Verif.Live
open Verif

/-- What stays as it is once a stream has been polled. -/
theorem next_keeps {H : Events.History} {i c : Nat} {p : Nat × Nat} (op : Events.Op) (hw : (H.view i).waker ≠ none)
    (hm : H.made[i]? = some p) (hc : H.order[c]? = some i) :
    ((H.next op).view i).waker ≠ none ∧ (H.next op).made[i]? = some p ∧ (H.next op).order[c]? = some i ∧
      (H.next op).wanted c i = H.wanted c i := by
  have hlt : ∀ {x : Nat × Nat}, (H.made ++ [x])[i]? = some p := by
    intro x
    rw [List.getElem?_append_left (by have := List.getElem?_eq_some_iff.1 hm; exact this.1)]; exact hm
  have hlc : ∀ {x : Nat}, (H.order ++ [x])[c]? = some i := by
    intro x
    rw [List.getElem?_append_left (by have := List.getElem?_eq_some_iff.1 hc; exact this.1)]; exact hc
  cases op with
  | new t y => exact ⟨hw, hlt, hc, by simp [Events.History.wanted, Events.History.next, hlt, hm]⟩
  | setCapture j b =>
    by_cases hj : i = j
    · subst hj; simp [Events.History.next, Events.History.upd, Events.History.wanted, hw, hm, hc]
    · simp [Events.History.next, Events.History.upd, Events.History.wanted, hw, hm, hc, hj]
  | setPassive j b =>
    by_cases hj : i = j
    · subst hj; simp [Events.History.next, Events.History.upd, Events.History.wanted, hw, hm, hc]
    · simp [Events.History.next, Events.History.upd, Events.History.wanted, hw, hm, hc, hj]
  | poll j k =>
    by_cases hj : i = j
    · subst hj
      simp [Events.History.next, Events.History.upd, Events.History.wanted, hw, hm, hc]
    · by_cases hn : (H.view j).waker = none
      · simp [Events.History.next, Events.History.upd, Events.History.wanted, hw, hm, hlc, hj, hn]
      · simp [Events.History.next, Events.History.upd, Events.History.wanted, hw, hm, hc, hj, hn]
  | drop j =>
    by_cases hj : i = j
    · subst hj; simp [Events.History.next, Events.History.upd, Events.History.wanted, hw, hm, hc]
    · simp [Events.History.next, Events.History.upd, Events.History.wanted, hw, hm, hc, hj]
  | deliver l e =>
    cases ho : H.order[l.callback]? with
    | none => simp [Events.History.next, Events.History.wanted, hw, hm, hc, ho]
    | some j =>
      by_cases hj : i = j
      · subst hj; simp [Events.History.next, Events.History.upd, Events.History.wanted, hw, hm, hc, ho]
      · simp [Events.History.next, Events.History.upd, Events.History.wanted, hw, hm, hc, hj, ho]

theorem next_made (H : Events.History) (op : Events.Op) : ∃ r, (H.next op).made = H.made ++ r := by
  cases op with
  | new t y => exact ⟨_, rfl⟩
  | deliver l e => simp only [Events.History.next]; split <;> exact ⟨[], by simp [Events.History.upd]⟩
  | _ => exact ⟨[], by simp [Events.History.next, Events.History.upd]⟩

theorem made_append (H : Events.History) (ops : List Events.Op) :
    ∃ r, (ops.foldl Events.History.next H).made = H.made ++ r := by
  induction ops generalizing H with
  | nil => exact ⟨[], by simp⟩
  | cons op ops ih =>
    obtain ⟨r, h1⟩ := next_made H op
    obtain ⟨r', h2⟩ := ih (H.next op)
    exact ⟨r ++ r', by rw [List.foldl_cons, h2, h1, List.append_assoc]⟩

theorem next_dropped {H : Events.History} {i : Nat} (op : Events.Op) (h : (H.view i).dropped = true) :
    ((H.next op).view i).dropped = true := by
  cases op with
  | new t y => exact h
  | deliver l e =>
    simp only [Events.History.next]
    split
    · simp only [Events.History.upd]; split <;> exact h
    · exact h
  | setCapture j b =>
    simp only [Events.History.next, Events.History.upd]
    split
    · split <;> exact h
    · exact h
  | setPassive j b =>
    simp only [Events.History.next, Events.History.upd]
    split
    · split <;> exact h
    · exact h
  | poll j k => simp only [Events.History.next, Events.History.upd]; split <;> exact h
  | drop j =>
    simp only [Events.History.next, Events.History.upd]
    split
    · rfl
    · exact h

theorem not_dropped_before {H : Events.History} {i : Nat} {ops : List Events.Op}
    (h : ((ops.foldl Events.History.next H).view i).dropped = false) : (H.view i).dropped = false := by
  induction ops generalizing H with
  | nil => exact h
  | cons op ops ih =>
    rw [Bool.eq_false_iff]
    intro hd
    have := ih h
    rw [next_dropped op hd] at this
    cases this

/-- The stream has been polled and is for events of type `y` at `t`; and `x` is the value of `t`, or the stream has an
event that has not been yielded, or its listener is going to be called. -/
def WillTell (t y i : Nat) (x : List Char) (s : Page) (H : Events.History) : Prop :=
  (H.view i).waker ≠ none ∧ H.made[i]? = some (t, y) ∧ ∃ c, H.order[c]? = some i ∧
    (s.value t = x ∨ (H.view i).unread ≠ none ∨ ∃ e, (H.wanted c i, e) ∈ s.calls)

/-- An operation on the streams leaves unread events unread, unless it is a poll of the stream that yields them. -/
theorem next_unread {H : Events.History} {i : Nat} {op : Events.Op} (hu : (H.view i).unread ≠ none)
    (hp : ∀ wk, op = .poll i wk → (H.obs op).polled = some none) : ((H.next op).view i).unread ≠ none := by
  cases op with
  | new t y => exact hu
  | deliver l e =>
    simp only [Events.History.next]
    split
    · simp only [Events.History.upd]
      split
      · simp
      · exact hu
    · exact hu
  | setCapture j b =>
    simp only [Events.History.next, Events.History.upd]
    split
    · split <;> exact hu
    · exact hu
  | setPassive j b =>
    simp only [Events.History.next, Events.History.upd]
    split
    · split <;> exact hu
    · exact hu
  | drop j => simp only [Events.History.next, Events.History.upd]; split <;> exact hu
  | poll j k =>
    by_cases hj : i = j
    · subst hj
      have := hp k rfl
      simp only [Events.History.obs, Option.some.injEq] at this
      exact absurd this hu
    · simpa [Events.History.next, Events.History.upd, hj] using hu

theorem onEvents_page {s s' : Page} {op : Events.Op} {out : PageOut} (h : s.onEvents op = some (s', out)) :
    ∃ W o, Events.step s.ev op = some (W, o) ∧ s' = { s with ev := W } ∧ out = { ev := some (op, o) } := by
  simp only [Page.onEvents, Option.map_eq_some_iff] at h
  obtain ⟨⟨W, o⟩, h1, h2⟩ := h
  cases h2
  exact ⟨W, o, (eventSource_step h1).1, rfl, rfl⟩

theorem willTell_step {t y i : Nat} {x : List Char} {s s' : Page} {H : Events.History} {op : PageOp} {out : PageOut}
    (hI : Events.Inv s.ev H) (hs : s.step op = some (s', out)) (hd : (H.view i).dropped = false)
    (h1 : ∀ y' v n, op = .edit t y' v n → y' = y) (h2 : ∀ v, op ≠ .set t v)
    (h3 : ∀ wk ob, out.ev = some (.poll i wk, ob) → ob.polled = some none) (hw : WillTell t y i x s H) :
    WillTell t y i x s' ((evHist [(op, out)]).map (·.1) |>.foldl Events.History.next H) := by
  obtain ⟨w1, w2, c, w3, w4⟩ := hw
  have hl : H.wanted c i ∈ s.ev.listeners := by rw [hI.listeners]; exact Events.left_callback w3 (by simp [hd])
  cases op with
  | edit t' y' v e =>
    cases hs
    refine ⟨w1, w2, c, w3, ?_⟩
    by_cases ht : t' = t
    · subst ht
      obtain rfl := h1 _ _ _ rfl
      refine .inr (.inr ⟨e, List.mem_append_right _ (List.mem_map.2 ⟨_, List.mem_filter.2 ⟨hl, ?_⟩, rfl⟩)⟩)
      simp [Events.History.wanted, w2]
    · have ht' : ¬ t = t' := fun h => ht h.symm
      rcases w4 with w4 | w4 | ⟨e', w4⟩
      · exact .inl (by simp only [if_neg ht']; exact w4)
      · exact .inr (.inl w4)
      · exact .inr (.inr ⟨e', List.mem_append_left _ w4⟩)
  | set t' v =>
    cases hs
    have ht' : ¬ t = t' := fun h => h2 v (by rw [h])
    refine ⟨w1, w2, c, w3, ?_⟩
    rcases w4 with w4 | w4
    · exact .inl (by simp only [if_neg ht']; exact w4)
    · exact .inr w4
  | read t' => cases hs; exact ⟨w1, w2, c, w3, w4⟩
  | ev op =>
    obtain ⟨W, o, h4, rfl, rfl⟩ := onEvents_page hs
    obtain ⟨-, rfl⟩ := Events.inv_step hI h4
    obtain ⟨k1, k2, k3, k4⟩ := next_keeps op w1 w2 w3
    refine ⟨k1, k2, c, k3, ?_⟩
    rcases w4 with w4 | w4 | ⟨e', w4⟩
    · exact .inl w4
    · exact .inr (.inl (next_unread (op := op) w4 fun wk h => h3 wk (H.obs op) (by rw [h])))
    · exact .inr (.inr ⟨e', by simp only [evHist, List.filterMap_cons, List.filterMap_nil, List.map_cons, List.map_nil,
        List.foldl_cons, List.foldl_nil]; rw [k4]; exact w4⟩)
  | call =>
    simp only [Page.step] at hs
    split at hs
    · cases hs
    · next l e calls hcalls =>
      split at hs
      · obtain ⟨W, o, h4, rfl, rfl⟩ := onEvents_page hs
        obtain ⟨k1, k2, k3, k4⟩ := next_keeps (.deliver l e) w1 w2 w3
        refine ⟨k1, k2, c, k3, ?_⟩
        rcases w4 with w4 | w4 | ⟨e', w4⟩
        · exact .inl w4
        · exact .inr (.inl (next_unread (op := .deliver l e) w4 fun wk h => by cases h))
        · rw [hcalls] at w4
          rcases List.mem_cons.1 w4 with w4 | w4
          · cases w4
            refine .inr (.inl ?_)
            simp [evHist, Events.History.next, Events.History.wanted, w3, Events.History.upd]
          · exact .inr (.inr ⟨e', by simp only [evHist, List.filterMap_cons, List.filterMap_nil, List.map_cons,
              List.map_nil, List.foldl_cons, List.foldl_nil]; rw [k4]; exact w4⟩)
      · next hn =>
        cases hs
        refine ⟨w1, w2, c, w3, ?_⟩
        rcases w4 with w4 | w4 | ⟨e', w4⟩
        · exact .inl w4
        · exact .inr (.inl w4)
        · rw [hcalls] at w4
          rcases List.mem_cons.1 w4 with w4 | w4
          · cases w4; exact absurd hl hn
          · exact .inr (.inr ⟨e', w4⟩)

theorem page_inv {s s' : Page} {H : Events.History} {op : PageOp} {out : PageOut} (hI : Events.Inv s.ev H)
    (hs : s.step op = some (s', out)) :
    Events.Inv s'.ev ((evHist [(op, out)]).map (·.1) |>.foldl Events.History.next H) := by
  rcases page_events hs with ⟨h1, h2, -⟩ | ⟨o, ob, h1, h2, -⟩
  · simp only [evHist, List.filterMap_cons, h1, List.filterMap_nil, List.map_nil, List.foldl_nil, h2]; exact hI
  · simp only [evHist, List.filterMap_cons, h1, List.filterMap_nil, List.map_cons, List.map_nil, List.foldl_cons,
      List.foldl_nil]
    exact (Events.inv_step hI (eventSource_step h2).1).1

theorem evHist_cons (e : PageOp × PageOut) (h : List (PageOp × PageOut)) : evHist (e :: h) = evHist [e] ++ evHist h := by
  rw [evHist, ← List.singleton_append, List.filterMap_append]; rfl

theorem willTell_run {t y i : Nat} {x : List Char} {h : List (PageOp × PageOut)} {s s' : Page} {H : Events.History}
    (hI : Events.Inv s.ev H) (hh : Hist pageSource s h s')
    (hd : ((((evHist h).map (·.1)).foldl Events.History.next H).view i).dropped = false)
    (h1 : ∀ e ∈ h, (∀ y' v n, e.1 = .edit t y' v n → y' = y) ∧ (∀ v, e.1 ≠ .set t v) ∧
      ∀ wk ob, e.2.ev = some (.poll i wk, ob) → ob.polled = some none) (hw : WillTell t y i x s H) :
    WillTell t y i x s' (((evHist h).map (·.1)).foldl Events.History.next H) := by
  induction h generalizing s H with
  | nil =>
    obtain rfl := hist_nil hh
    exact hw
  | cons e h ih =>
    obtain ⟨op, out⟩ := e
    obtain ⟨m, hs, hh⟩ := hist_cons hh
    rw [evHist_cons, List.map_append, List.foldl_append] at hd ⊢
    obtain ⟨k1, k2, k3⟩ := h1 _ (.head _)
    refine ih (page_inv hI hs) hh hd (fun e he => h1 e (.tail _ he)) ?_
    refine willTell_step hI hs ?_ k1 k2 k3 hw
    have := not_dropped_before hd
    exact not_dropped_before this

theorem page_inv_run {h : List (PageOp × PageOut)} {s s' : Page} {H : Events.History}
    (hI : Events.Inv s.ev H) (hh : Hist pageSource s h s') :
    Events.Inv s'.ev (((evHist h).map (·.1)).foldl Events.History.next H) :=
  (Events.inv_run hI (event_hist (page_hist hh)).1).1

/-- Nothing but changes of the value change the value. -/
theorem same_value {t : Nat} {h : List (PageOp × PageOut)} {s s' : Page} (hh : Hist pageSource s h s')
    (hn : ∀ e ∈ h, (∀ y v n, e.1 ≠ .edit t y v n) ∧ ∀ v, e.1 ≠ .set t v) : s'.value t = s.value t := by
  induction h generalizing s with
  | nil =>
    obtain rfl := hist_nil hh
    rfl
  | cons e h ih =>
    obtain ⟨op, out⟩ := e
    obtain ⟨m, hs, hh⟩ := hist_cons hh
    rw [ih hh fun e he => hn e (.tail _ he)]
    obtain ⟨k1, k2⟩ := hn _ (.head _)
    have hs : s.step op = some (m, out) := hs
    cases op with
    | edit t' y v e =>
      cases hs
      have : ¬ t = t' := fun h => k1 y v e (by rw [h])
      simp only [if_neg this]
    | set t' v =>
      cases hs
      have : ¬ t = t' := fun h => k2 v (by rw [h])
      simp only [if_neg this]
    | read t' => cases hs; rfl
    | ev o => obtain ⟨W, o, -, rfl, -⟩ := onEvents_page hs; rfl
    | call =>
      simp only [Page.step] at hs
      split at hs
      · cases hs
      · split at hs
        · obtain ⟨W, o, -, rfl, -⟩ := onEvents_page hs; rfl
        · cases hs; rfl

/-- **C70**, from what is known of the page. -/
theorem told_read_current {s : Page} {h : List (PageOp × PageOut)} {t y i : Nat} {x : List Char}
    (ht : Told pageSource Page.init h s i) (hc : s.calls = []) (hr : ReadThenListens t y i h x) : s.value t = x := by
  obtain ⟨n, hq⟩ := told_quiet (told_page ht)
  obtain ⟨-, -, -, -, -, -, -, hh, -⟩ := ht
  obtain ⟨pre, out, mid, wk, o, post, rfl, hx, hmade, hmid, hpost⟩ := hr
  obtain ⟨s1, a1, hh1⟩ := hist_append hh
  obtain ⟨s2, a2, hh2⟩ := hist_cons hh1
  obtain ⟨s3, a3, hh3⟩ := hist_append hh2
  obtain ⟨s4, a4, hh4⟩ := hist_cons hh3
  simp only [Page.step, Option.some.injEq, Prod.mk.injEq] at a2
  obtain ⟨rfl, rfl⟩ := a2
  cases hx
  have hv := same_value a3 hmid
  have i1 := page_inv_run (s := Page.init) Events.inv_init a1
  have i3 := page_inv_run i1 a3
  have i4 := page_inv (s := s3) (s' := s4) (op := .ev (.poll i wk)) (out := o) i3 a4
  have e1 : (evHist (pre ++ (PageOp.read t, { value := some (s1.value t) }) ::
      (mid ++ (PageOp.ev (.poll i wk), o) :: post))).map (·.1) =
      (evHist pre).map (·.1) ++ ((evHist mid).map (·.1) ++ ((evHist [(PageOp.ev (.poll i wk), o)]).map (·.1) ++
        (evHist post).map (·.1))) := by
    simp only [← List.map_append, evHist, ← List.filterMap_append]
    simp
  rw [e1, List.foldl_append, List.foldl_append, List.foldl_append] at hq
  rw [streams, Events.history, e1, List.foldl_append, List.foldl_append, List.foldl_append] at hmade
  obtain ⟨W, ob, b1, rfl, rfl⟩ := onEvents_page (show s3.onEvents (.poll i wk) = some (s4, o) from a4)
  generalize ((evHist mid).map (·.1)).foldl Events.History.next (((evHist pre).map (·.1)).foldl Events.History.next {}) =
    H at hq hmade i3 i4
  have hpoll : ((H.next (.poll i wk)).view i).waker ≠ none := by simp [Events.History.next, Events.History.upd]
  obtain ⟨c, hcl, hce⟩ := List.getElem_of_mem ((i4.polled i).2 hpoll)
  have hlen := i4.made i ((i4.polled i).2 hpoll)
  obtain ⟨r, hr⟩ := made_append (H.next (.poll i wk)) ((evHist post).map (·.1))
  have hmade' : (H.next (.poll i wk)).made[i]? = some (t, y) := by
    rw [← hmade]
    simp only [evHist, List.filterMap_cons, List.filterMap_nil, List.map_cons, List.map_nil, List.foldl_cons,
      List.foldl_nil]
    rw [show (List.filterMap (·.2.ev) post : List (Events.Op × Events.Obs)) = evHist post from rfl, hr,
      List.getElem?_append_left (show i < (H.next (.poll i wk)).made.length from hlen)]
  have hw := willTell_run (t := t) (y := y) (i := i) (x := s1.value t) i4 hh4 hq.2.1
    (fun e he => hpost e (.tail _ he)) ⟨hpoll, hmade', c, by rw [List.getElem?_eq_getElem hcl, hce], .inl hv⟩
  obtain ⟨-, -, c', -, hw⟩ := hw
  rcases hw with hw | hw | ⟨e, hw⟩
  · exact hw
  · exact absurd hq.2.2 hw
  · rw [hc] at hw; cases hw

end Verif.Live
