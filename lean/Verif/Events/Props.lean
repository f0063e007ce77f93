import Verif.Events.Lemmas

/-!
# C40, C41: event streams

`history ops` (Spec.lean) is what has happened to each stream.  All theorems hold for every list of
`Op`s that can happen, that is, for any number of streams, any options, and any order of polls,
events and drops.
-/

namespace Verif.Events

theorem history_append (xs : List Op) (op : Op) : history (xs ++ [op]) = (history xs).next op := by
  simp [history]

theorem observed_append (H : History) (xs ys : List Op) :
    observed H (xs ++ ys) = observed H xs ++ observed (xs.foldl History.next H) ys := by
  induction xs generalizing H with
  | nil => rfl
  | cons x xs ih => simp [observed, ih]

theorem last_obs {ops : List Op} {op : Op} {W : World} {os : List Obs}
    (h : run init (ops ++ [op]) = some (W, os)) : os.getLast? = some ((history ops).obs op) := by
  rw [(inv_run inv_init h).2, observed_append]
  simp [observed, history]

/-- **C40**: whatever happened before, a poll of a stream returns the last event delivered to it
since its previous poll, and is pending if there was none. -/
theorem stream_poll {ops : List Op} {i : Nat} {w : Waker} {W : World} {os : List Obs}
    (h : run init (ops ++ [.poll i w]) = some (W, os)) :
    os.getLast? = some { polled := some ((history ops).view i).unread } :=
  last_obs h

/-- **C40**: every event delivered to a live stream wakes the waker of its last poll, however many
events came before. -/
theorem stream_wakes {ops : List Op} {l : Listener} {e : Ev} {i : Nat} {W : World} {os : List Obs}
    (h : run init (ops ++ [.deliver l e]) = some (W, os))
    (hi : (history ops).order[l.callback]? = some i) (hd : ((history ops).view i).dropped = false) :
    ∃ w, ((history ops).view i).waker = some w ∧ os.getLast? = some { woke := some w } := by
  obtain ⟨p, hp, hq⟩ := Option.bind_eq_some_iff.1 (run_append ▸ h)
  have hinv := (inv_run inv_init hp).1
  have hw := (hinv.polled i).1 (List.mem_of_getElem? hi)
  cases hv : ((history ops).view i).waker with
  | none => exact absurd hv hw
  | some w =>
    refine ⟨w, rfl, ?_⟩
    rw [last_obs h]
    simp [History.obs, hi, hd, hv]

/-- **C40**: once polled and until it is dropped, a stream is listening: its listener, for its
target, its type and the options it had at its first poll, is in the DOM. -/
theorem stream_listens {ops : List Op} {i : Nat} {W : World} {os : List Obs}
    (h : run init ops = some (W, os)) (hw : ((history ops).view i).waker ≠ none)
    (hd : ((history ops).view i).dropped = false) :
    ∃ t y c, (history ops).made[i]? = some (t, y) ∧ (history ops).order[c]? = some i ∧
      ⟨t, y, c, ((history ops).view i).capture, ((history ops).view i).passive⟩ ∈ W.listeners := by
  have hinv := (inv_run inv_init h).1
  change Inv W (history ops) at hinv
  have hi := (hinv.polled i).2 hw
  obtain ⟨c, hcl, hce⟩ := List.getElem_of_mem hi
  have hc : (history ops).order[c]? = some i := by rw [List.getElem?_eq_getElem hcl, hce]
  have hm : i < (history ops).made.length := hinv.made i hi
  refine ⟨((history ops).made[i]).1, ((history ops).made[i]).2, c, by simp [hm], hc, ?_⟩
  rw [hinv.listeners]
  have := left_callback hc (by simp [hd])
  simpa [History.wanted, hm] using this

theorem yielded_sublist {H : History} (i : Nat) {ops : List Op} :
    (yielded i ops (observed H ops)).Sublist ((H.view i).unread.toList ++ delivered i H ops) := by
  induction ops generalizing H with
  | nil => simp [yielded]
  | cons op ops ih =>
    cases op with
    | poll j w =>
      simp only [observed, yielded, delivered, List.nil_append]
      have := ih (H := H.next (.poll j w))
      by_cases hj : j = i
      · subst hj
        simp only [History.next, History.upd, if_true, Option.toList_none, List.nil_append] at this
        simp only [if_true, History.obs, Option.join_some]
        exact List.Sublist.append (List.Sublist.refl _) this
      · have hj' : i ≠ j := fun e => hj e.symm
        simp only [hj, if_false, List.nil_append]
        have hv : (H.next (.poll j w)).view i = H.view i := by
          simp [History.next, History.upd, hj']
        rw [hv] at this; exact this
    | deliver l e =>
      simp only [observed, yielded, delivered]
      have := ih (H := H.next (.deliver l e))
      refine this.trans ?_
      cases ho : H.order[l.callback]? with
      | none => simp [History.next, ho]
      | some j =>
        by_cases hj : j = i
        · subst hj
          simp only [History.next, ho, History.upd, if_true, Option.toList_some]
          exact List.sublist_append_right _ _
        · have hj' : i ≠ j := fun e => hj e.symm
          simp [History.next, ho, History.upd, hj, hj']
    | new t y =>
      have := ih (H := H.next (.new t y))
      have hv : ((H.next (.new t y)).view i).unread = (H.view i).unread := rfl
      rw [hv] at this
      simpa [observed, yielded, delivered] using this
    | drop j =>
      have := ih (H := H.next (.drop j))
      have hv : ((H.next (.drop j)).view i).unread = (H.view i).unread := by
        simp only [History.next, History.upd]; split <;> rfl
      rw [hv] at this
      simpa [observed, yielded, delivered] using this
    | setCapture j b =>
      have := ih (H := H.next (.setCapture j b))
      have hv : ((H.next (.setCapture j b)).view i).unread = (H.view i).unread := by
        simp only [History.next, History.upd]; split
        · split <;> rfl
        · rfl
      rw [hv] at this
      simpa [observed, yielded, delivered] using this
    | setPassive j b =>
      have := ih (H := H.next (.setPassive j b))
      have hv : ((H.next (.setPassive j b)).view i).unread = (H.view i).unread := by
        simp only [History.next, History.upd]; split
        · split <;> rfl
        · rfl
      rw [hv] at this
      simpa [observed, yielded, delivered] using this

/-- **C40**: a stream yields events in the order they arrived, each at most as often as it was
delivered, and none that was not delivered to it. -/
theorem stream_order {ops : List Op} {W : World} {os : List Obs} (i : Nat)
    (h : run init ops = some (W, os)) : (yielded i ops os).Sublist (delivered i {} ops) := by
  rw [(inv_run inv_init h).2]
  simpa using yielded_sublist (H := {}) i

/-- **C41** where it holds: if no stream had the capture option at its first poll, then at any time
the DOM has exactly the listeners of the streams that were polled and not dropped. -/
theorem stream_drop_partial {ops : List Op} {W : World} {os : List Obs}
    (h : run init ops = some (W, os)) (hc : ∀ i, ((history ops).view i).capture = false) :
    W.listeners = (history ops).listeners := by
  have hinv := (inv_run inv_init h).1
  change Inv W (history ops) at hinv
  rw [hinv.listeners]
  apply filterMap_congr'
  rintro ⟨i, c⟩ -
  simp [hc i]

/-- **C41**, for one stream among any others: after it is dropped its listener is gone exactly if
the stream did not have the capture option when it was first polled. -/
theorem stream_drop_iff {ops : List Op} {W : World} {os : List Obs} {i c : Nat}
    (h : run init ops = some (W, os)) (hd : ((history ops).view i).dropped = true)
    (hi : (history ops).order[c]? = some i) :
    (∀ l ∈ W.listeners, l.callback ≠ c) ↔ ((history ops).view i).capture = false := by
  have hinv := (inv_run inv_init h).1
  change Inv W (history ops) at hinv
  rw [hinv.listeners]
  constructor
  · intro hl
    cases hcap : ((history ops).view i).capture with
    | false => rfl
    | true => exact absurd rfl (hl _ (left_callback hi (by simp [hcap])))
  · intro hcap l hl hlc
    obtain ⟨j, hj, hdc, -⟩ := callback_left hl
    rw [hlc, hi] at hj
    cases hj
    simp [hd, hcap] at hdc

/-- **C41** is false for the others: the listener stays in the DOM, and whenever the browser calls
it, it throws. -/
theorem stream_leak {ops : List Op} {W : World} {os : List Obs} {i : Nat}
    (h : run init ops = some (W, os)) (hd : (history ops).leaked i = true)
    (hw : ((history ops).view i).waker ≠ none) :
    ∃ l ∈ W.listeners, (history ops).order[l.callback]? = some i ∧
      ∀ e, step W (.deliver l e) = some (W, { threw := true }) := by
  simp only [History.leaked, Bool.and_eq_true] at hd
  have hinv := (inv_run inv_init h).1
  change Inv W (history ops) at hinv
  have hi := (hinv.polled i).2 hw
  obtain ⟨c, hcl, hce⟩ := List.getElem_of_mem hi
  have hc : (history ops).order[c]? = some i := by rw [List.getElem?_eq_getElem hcl, hce]
  have hl := left_callback hc (by simp [hd.2])
  rw [← hinv.listeners] at hl
  refine ⟨_, hl, hc, fun e => ?_⟩
  have hg := (hinv.gone i).2 hd.1
  have hcl' : W.closures[((history ops).wanted c i).callback]? = some i := by
    rw [hinv.closures]; exact hc
  simp [step, hl, hcl', hg]

/-- **C41**, seen from the browser: a listener it calls belongs to a stream that is not dropped, or was dropped with
the capture option; only in the second case it throws. -/
theorem stream_throws_iff {ops : List Op} {W W' : World} {os : List Obs} {l : Listener} {e : Ev} {o : Obs}
    (h : run init ops = some (W, os)) (hs : step W (.deliver l e) = some (W', o)) :
    ∃ i, (history ops).order[l.callback]? = some i ∧ (o.threw = true ↔ (history ops).leaked i = true) ∧
      (((history ops).view i).dropped = true → (history ops).leaked i = true) := by
  have hinv := (inv_run inv_init h).1
  change Inv W (history ops) at hinv
  simp only [step] at hs
  split at hs
  · next hl =>
    rw [hinv.listeners] at hl
    obtain ⟨i, hi, hdc, -⟩ := callback_left hl
    refine ⟨i, hi, ?_⟩
    have hcl : W.closures[l.callback]? = some i := by rw [hinv.closures]; exact hi
    rw [hcl] at hs
    cases hd : ((history ops).view i).dropped with
    | true =>
      have hg := (hinv.gone i).2 hd
      simp [hg] at hs
      obtain ⟨-, rfl⟩ := hs
      simp_all [History.leaked]
    | false =>
      cases hg' : W.streams[i]?.join with
      | none =>
        have hlt : i < W.streams.length := by
          rw [hinv.length]; exact hinv.made i (List.mem_of_getElem? hi)
        have hne := fun h => Bool.false_ne_true (hd.symm.trans ((hinv.gone i).1 h))
        rw [List.getElem?_eq_getElem hlt] at hg' hne
        cases hx : W.streams[i] <;> simp_all
      | some s =>
        simp [hg'] at hs
        obtain ⟨-, rfl⟩ := hs
        simp_all [History.leaked]
  · cases hs

/-- A stream for event type 7 at target 3: polled, then two events, then polled twice. -/
def demo : List Op :=
  [.new 3 7, .setPassive 0 true, .poll 0 11, .deliver ⟨3, 7, 0, false, true⟩ 100, .poll 0 12,
    .deliver ⟨3, 7, 0, false, true⟩ 101, .deliver ⟨3, 7, 0, false, true⟩ 102, .poll 0 12, .poll 0 12]

/-- The hypotheses of `stream_poll`, `stream_wakes`, `stream_order` and `stream_listens` are met, and
the polls return pending, 100, 102, pending; each event wakes the waker of the last poll. -/
example : (run init demo).map (·.2) = some [{}, {}, { polled := some none }, { woke := some 11 },
    { polled := some (some 100) }, { woke := some 12 }, { woke := some 12 },
    { polled := some (some 102) }, { polled := some none }] := by decide

example : ((run init demo).map (·.1.listeners) = some [⟨3, 7, 0, false, true⟩]) ∧
    ((history demo).view 0).waker = some 12 ∧ ((history demo).view 0).dropped = false ∧
    delivered 0 {} demo = [100, 101, 102] := by decide

/-- Two streams for the same events; dropping one leaves the other's listener (`stream_drop_partial`,
`stream_drop_iff`). -/
example : (run init [.new 3 7, .new 3 7, .poll 1 11, .poll 0 11, .drop 1]).map (·.1.listeners) =
    some [⟨3, 7, 1, false, false⟩] := by decide

/-- The witness for `stream_leak` and `stream_throws_iff`: a polled and dropped stream with the capture option. -/
example : (run init [.new 3 7, .setCapture 0 true, .poll 0 11, .drop 0,
      .deliver ⟨3, 7, 0, true, false⟩ 100]).map (·.2.getLast?) = some (some { threw := true }) ∧
    (history [.new 3 7, .setCapture 0 true, .poll 0 11, .drop 0]).leaked 0 = true := by decide

end Verif.Events
