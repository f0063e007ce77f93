import Verif.Events.Every
import Verif.Live.Full
/-!
# C69: no event is lost
-/
namespace Verif.Live
open XBow.Data (Data Layer)

section
variable {ι : Type} [DecidableEq ι] {Z : ι → Source} {V S O : Type}

/-- An event of the app adds to the history of at most one source. -/
theorem step_part {w w' : World (.family Z) V S O} {e : Event (.family Z) V S O} (h : step w e = some w') (i : ι) :
    part Z i w'.hist = part Z i w.hist ∨
    ∃ op out, e = .op ⟨i, op⟩ ∧ part Z i w'.hist = part Z i w.hist ++ [(op, out)] := by
  cases e with
  | app e =>
    simp only [step] at h
    split at h
    · split at h
      · cases h; exact .inl rfl
      · cases h
    · cases h
  | release k => cases h; exact .inl rfl
  | wake =>
    simp only [step] at h
    split at h
    · split at h
      · split at h
        · cases h; exact .inl rfl
        · cases h
      · cases h; exact .inl rfl
    · cases h
  | op o =>
    have hw : ∃ s out, (Source.family Z).step w.src o = some (s, out) ∧ w'.hist = w.hist ++ [(o, out)] := by
      simp only [step] at h
      split at h
      · cases h
      · next s out hs =>
        refine ⟨s, out, hs, ?_⟩
        split at h
        · cases h; rfl
        · split at h
          · split at h
            · cases h; rfl
            · cases h
          · cases h
    obtain ⟨s, out, hs, hh⟩ := hw
    obtain ⟨j, op⟩ := o
    simp only [Source.family] at hs
    cases hz : (Z j).step (w.src j) op with
    | none => rw [hz] at hs; cases hs
    | some x =>
      obtain ⟨t, o'⟩ := x
      rw [hz] at hs
      simp only [Option.some.injEq, Prod.mk.injEq] at hs
      obtain ⟨-, rfl⟩ := hs
      simp only [hh, part, List.filterMap_append, List.filterMap_cons, List.filterMap_nil]
      by_cases hj : j = i
      · subst hj
        rw [only_self]
        exact .inr ⟨op, o', rfl, rfl⟩
      · rw [only_ne hj]
        exact .inl (List.append_nil _)

theorem run_part {es : List (Event (.family Z) V S O)} {w w' : World (.family Z) V S O} (h : run w es = some w') (i : ι) :
    ∃ later, part Z i w'.hist = part Z i w.hist ++ later := by
  induction es generalizing w with
  | nil => cases h; exact ⟨[], by simp⟩
  | cons e es ih =>
    simp only [run] at h
    cases hs : step w e with
    | none => rw [hs] at h; cases h
    | some w1 =>
      rw [hs] at h
      obtain ⟨later, hl⟩ := ih h
      rcases step_part hs i with h1 | ⟨op, out, -, h1⟩
      · exact ⟨later, by rw [hl, h1]⟩
      · exact ⟨(op, out) :: later, by rw [hl, h1]; simp⟩

/-- Every entry of the history of a source was made by an event of the app. -/
theorem part_split {es : List (Event (.family Z) V S O)} {w w' : World (.family Z) V S O} (h : run w es = some w') {i : ι}
    {a b : List ((Z i).Op × (Z i).Out)} {op : (Z i).Op} {out : (Z i).Out}
    (hp : part Z i w'.hist = part Z i w.hist ++ (a ++ (op, out) :: b)) :
    ∃ es1 es2 w1, es = es1 ++ .op ⟨i, op⟩ :: es2 ∧ run w es1 = some w1 ∧ part Z i w1.hist = part Z i w.hist ++ a := by
  induction es generalizing w a with
  | nil =>
    cases h
    have := congrArg List.length hp
    simp only [List.length_append, List.length_cons] at this
    omega
  | cons e es ih =>
    simp only [run] at h
    cases hs : step w e with
    | none => rw [hs] at h; cases h
    | some w1 =>
      rw [hs] at h
      rcases step_part hs i with h1 | ⟨op', out', he, h1⟩
      · obtain ⟨es1, es2, w2, rfl, h3, h4⟩ := ih h (a := a) (by rw [hp, h1])
        exact ⟨e :: es1, es2, w2, rfl, by simp only [run, hs, h3], by rw [h4, h1]⟩
      · obtain ⟨later, hl⟩ := run_part h i
        have heq : a ++ (op, out) :: b = (op', out') :: later := by
          rw [hp, h1, List.append_assoc] at hl
          exact List.append_cancel_left hl
        cases a with
        | nil =>
          cases heq
          exact ⟨[], es, w, by rw [he]; rfl, rfl, by simp⟩
        | cons x a =>
          simp only [List.cons_append, List.cons.injEq] at heq
          obtain ⟨rfl, heq⟩ := heq
          obtain ⟨es1, es2, w2, rfl, h3, h4⟩ := ih h (a := a) (by rw [hp, h1]; simp)
          exact ⟨e :: es1, es2, w2, rfl, by simp only [run, hs, h3], by rw [h4, h1]; simp⟩

theorem run_append {Z : Source} {es es' : List (Event Z V S O)} {w w1 w2 : World Z V S O} (h : run w es = some w1)
    (h' : run w1 es' = some w2) : run w (es ++ es') = some w2 := by
  induction es generalizing w with
  | nil => cases h; exact h'
  | cons e es ih =>
    simp only [run, List.cons_append] at h ⊢
    cases hs : step w e with
    | none => rw [hs] at h; cases h
    | some w3 => rw [hs] at h; exact ih h

end

/-- What an unread stream yields when it is polled next. -/
theorem next_poll {i : Nat} {later : List (Events.Op × Events.Obs)} {H : Events.History} {e : Events.Ev}
    (ho : later.map (·.2) = Events.observed H (later.map (·.1))) (hu : (H.view i).unread = some e)
    (hq : (((later.map (·.1)).foldl Events.History.next H).view i).unread = none) :
    ∃ a b k o, later = a ++ (.poll i k, o) :: b ∧ (∀ x ∈ a, ∀ k', x.1 ≠ .poll i k') ∧
      o.polled = some ((e :: Events.delivered i H (a.map (·.1))).getLast?) := by
  induction later generalizing H e with
  | nil => rw [show ([] : List (Events.Op × Events.Obs)).map (·.1) = [] from rfl, List.foldl_nil, hu] at hq; cases hq
  | cons x later ih =>
    obtain ⟨op, o⟩ := x
    simp only [List.map_cons, Events.observed, List.cons.injEq, List.foldl_cons] at ho hq
    obtain ⟨rfl, ho⟩ := ho
    have other : (∀ k', op ≠ .poll i k') → ((H.next op).view i).unread = some e →
        (Events.delivered i H [op] = []) → ∃ a b k o, (op, H.obs op) :: later = a ++ (.poll i k, o) :: b ∧
          (∀ x ∈ a, ∀ k', x.1 ≠ .poll i k') ∧ o.polled = some ((e :: Events.delivered i H (a.map (·.1))).getLast?) := by
      intro hop hu' hd
      obtain ⟨a, b, k, o, rfl, ha, hp⟩ := ih ho hu' hq
      refine ⟨(op, H.obs op) :: a, b, k, o, rfl, ?_, ?_⟩
      · intro x hx
        rcases List.mem_cons.1 hx with rfl | hx
        · exact hop
        · exact ha x hx
      · rw [hp]
        simp only [Events.delivered, List.append_nil] at hd
        simp only [List.map_cons, Events.delivered, hd, List.nil_append]
    cases op with
    | poll j k =>
      by_cases hj : j = i
      · subst hj
        refine ⟨[], later, k, _, rfl, by simp, ?_⟩
        simp [Events.History.obs, Events.delivered, hu]
      · refine other (fun k' hx => hj (by cases hx; rfl)) ?_ rfl
        have hj' : i ≠ j := fun e => hj e.symm
        simp [Events.History.next, Events.History.upd, hj', hu]
    | new t y => exact other (fun _ => nofun) hu rfl
    | drop j =>
      refine other (fun _ => nofun) ?_ rfl
      simp only [Events.History.next, Events.History.upd]; split <;> exact hu
    | setCapture j b =>
      refine other (fun _ => nofun) ?_ rfl
      simp only [Events.History.next, Events.History.upd]; split
      · split <;> exact hu
      · exact hu
    | setPassive j b =>
      refine other (fun _ => nofun) ?_ rfl
      simp only [Events.History.next, Events.History.upd]; split
      · split <;> exact hu
      · exact hu
    | deliver l e' =>
      by_cases hl : H.order[l.callback]? = some i
      · have hu' : ((H.next (.deliver l e')).view i).unread = some e' := by
          simp [Events.History.next, hl, Events.History.upd]
        obtain ⟨a, b, k, o, rfl, ha, hp⟩ := ih ho hu' hq
        refine ⟨(.deliver l e', H.obs (.deliver l e')) :: a, b, k, o, rfl, ?_, ?_⟩
        · intro x hx
          rcases List.mem_cons.1 hx with rfl | hx
          · exact fun _ => nofun
          · exact ha x hx
        · rw [hp]
          simp [Events.delivered, hl]
      · refine other (fun _ => nofun) ?_ (by simp [Events.delivered, hl])
        cases ho : H.order[l.callback]? with
        | none => simp [Events.History.next, ho, hu]
        | some j =>
          have hj : i ≠ j := fun e => hl (by rw [ho, e])
          simp [Events.History.next, ho, Events.History.upd, hj, hu]

section
variable {D : Nat → Type} {V S O : Type} {hash : XBow.Path → BitVec 64} {enc : Layer → XBow.Seg}
  {cells : ∀ n, Cell.Sys (D n)} {data : Nat → Data}

/-- What happened to the event streams, without what could be observed of it. -/
abbrev eventOps (w : World (fullSource D hash enc) V S O) (n : Nat) : List Events.Op := (ofEvents w n).map (·.1)

theorem events_hist {es : List (Event (fullSource D hash enc) V S O)} {w : World (fullSource D hash enc) V S O}
    (h : run (init (start cells data)) es = some w) (n : Nat) :
    (ofEvents w n).map (·.2) = Events.observed {} (eventOps w n) := by
  have hist := (part_hist (run_linv (init_linv _) h).hist (.events n)).1
  exact (Events.inv_run Events.inv_init (event_hist hist).1).2

theorem awaited_quiet {es : List (Event (fullSource D hash enc) V S O)} {w : World (fullSource D hash enc) V S O}
    (h : run (init (start cells data)) es = some w) (hm : ∃ t, .app (.mount t) ∈ es) (hidle : Idle w) {n i : Nat}
    (hk : Awaited w ⟨.events n, i⟩) :
    ((Events.history (eventOps w n)).view i).dropped = false ∧ ((Events.history (eventOps w n)).view i).unread = none := by
  obtain ⟨k, -, h1, h2⟩ := told_quiet (told_part (idle_not_woken h hm hidle hk))
  exact ⟨h1, h2⟩

/-- An operation of a source is added to its history. -/
theorem op_part {ι : Type} [DecidableEq ι] {Z : ι → Source} {V S O : Type} {w w' : World (.family Z) V S O} {i : ι}
    {op : (Z i).Op} (h : step w (.op ⟨i, op⟩) = some w') :
    ∃ out, part Z i w'.hist = part Z i w.hist ++ [(op, out)] := by
  simp only [step] at h
  split at h
  · cases h
  · next s out hs =>
    have hout : ∃ o, out = ⟨i, op, o⟩ := by
      simp only at hs
      split at hs
      · cases hs; exact ⟨_, rfl⟩
      · cases hs
    obtain ⟨o, rfl⟩ := hout
    refine ⟨o, ?_⟩
    split at h
    · cases h
      simp only [part, List.filterMap_append, List.filterMap_cons, List.filterMap_nil]
      rw [only_self]
    · split at h
      · split at h
        · cases h
          simp only [part, List.filterMap_append, List.filterMap_cons, List.filterMap_nil]
          rw [only_self]
        · cases h
      · cases h

/-- An event has been delivered to the stream `i`: it is unread, and what happened to the streams after that is what
the specification says. -/
theorem event_unread {es1 es2 : List (Event (fullSource D hash enc) V S O)}
    {w1 w2 w3 : World (fullSource D hash enc) V S O} {n i : Nat} {l : Events.Listener} {e : Events.Ev}
    (h1 : run (init (start cells data)) es1 = some w1)
    (h2 : step w1 (.op ⟨.events n, .deliver l e⟩) = some w2)
    (hi : (Events.history (eventOps w1 n)).order[l.callback]? = some i) (h3 : run w2 es2 = some w3) :
    ∃ later, ofEvents w3 n = ofEvents w2 n ++ later ∧
      later.map (·.2) = Events.observed (Events.history (eventOps w2 n)) (later.map (·.1)) ∧
      ((Events.history (eventOps w2 n)).view i).unread = some e := by
  have hrun2 : run (init (start cells data)) (es1 ++ [.op ⟨.events n, .deliver l e⟩]) = some w2 :=
    run_append h1 (by simp only [run, h2])
  have hrun3 := run_append hrun2 h3
  obtain ⟨later, hl⟩ := run_part h3 (.events n)
  refine ⟨later, hl, ?_, ?_⟩
  · have hobs := events_hist hrun3 n
    have hops : eventOps w3 n = eventOps w2 n ++ later.map (·.1) := by
      simp only [eventOps, ofEvents, hl, List.map_append]
    rw [hops, Events.observed_append, ← events_hist hrun2 n] at hobs
    simp only [ofEvents] at hobs
    rw [hl, List.map_append] at hobs
    exact List.append_cancel_left hobs
  · obtain ⟨out, h4⟩ := op_part h2
    have hw2 : eventOps w2 n = eventOps w1 n ++ [.deliver l e] := by
      simp only [eventOps, ofEvents, h4, List.map_append, List.map_cons, List.map_nil]
    rw [hw2]
    simp only [Events.history, List.foldl_append, List.foldl_cons, List.foldl_nil] at hi ⊢
    simp [Events.History.next, hi, Events.History.upd]

/-- **C69, for one event.** An event `e` is delivered to the stream `i`. Whenever the browser is idle after that and the
stream still awaited, the stream has been polled since; and the first poll returned the event, or the last of
those that were delivered in the meantime. -/
theorem event_is_yielded {es1 es2 : List (Event (fullSource D hash enc) V S O)}
    {w1 w2 w3 : World (fullSource D hash enc) V S O} {n i : Nat} {l : Events.Listener} {e : Events.Ev}
    (h1 : run (init (start cells data)) es1 = some w1) (hm : ∃ t, .app (.mount t) ∈ es1)
    (h2 : step w1 (.op ⟨.events n, .deliver l e⟩) = some w2)
    (hi : (Events.history (eventOps w1 n)).order[l.callback]? = some i)
    (h3 : run w2 es2 = some w3) (hidle : Idle w3) (hk : Awaited w3 ⟨.events n, i⟩) :
    ∃ a b k o, ofEvents w3 n = ofEvents w2 n ++ (a ++ (.poll i k, o) :: b) ∧ (∀ x ∈ a, ∀ k', x.1 ≠ .poll i k') ∧
      o.polled = some ((e :: Events.delivered i (Events.history (eventOps w2 n)) (a.map (·.1))).getLast?) := by
  have hrun2 : run (init (start cells data)) (es1 ++ [.op ⟨.events n, .deliver l e⟩]) = some w2 :=
    run_append h1 (by simp only [run, h2])
  have hrun3 := run_append hrun2 h3
  have hq := (awaited_quiet hrun3 (by obtain ⟨t, ht⟩ := hm; exact ⟨t, by simp [ht]⟩) hidle hk).2
  obtain ⟨later, hl, hlater, hu⟩ := event_unread h1 h2 hi h3
  have hops : eventOps w3 n = eventOps w2 n ++ later.map (·.1) := by
    simp only [eventOps, ofEvents, hl, List.map_append]
  rw [hops] at hq
  simp only [Events.history, List.foldl_append] at hq
  obtain ⟨a, b, k, o, rfl, ha, hp⟩ := next_poll hlater hu hq
  exact ⟨a, b, k, o, hl, ha, hp⟩

/-- Nothing is left to do, and all of the streams `P` that have been polled and not dropped are awaited. -/
def Attentive (w : World (fullSource D hash enc) V S O) (n : Nat) (P : Nat → Bool) : Prop :=
  Idle w ∧ ∀ j, P j = true → (Events.history (eventOps w n)).listening j → Awaited w ⟨.events n, j⟩

/-- **C69.** Some event streams `P`, for example those that a loop makes one after the other. If the browser is idle
and they are awaited whenever an event is delivered to one of them, if they are dropped only when they have no
unread event, and if the browser is idle and they are awaited now: then the events that they have yielded are
those that they were given, in the same order. -/
theorem every_event_is_yielded {es : List (Event (fullSource D hash enc) V S O)} {w : World (fullSource D hash enc) V S O}
    {n : Nat} {P : Nat → Bool} (h : run (init (start cells data)) es = some w)
    (hd : ∀ es1 l e es2 w1, es = es1 ++ .op ⟨.events n, .deliver l e⟩ :: es2 → run (init (start cells data)) es1 = some w1 →
      ∀ i, (Events.history (eventOps w1 n)).order[l.callback]? = some i → P i = true →
        (∃ t, .app (.mount t) ∈ es1) ∧ Attentive w1 n P ∧ Awaited w1 ⟨.events n, i⟩)
    (hx : ∀ es1 j es2 w1, es = es1 ++ .op ⟨.events n, .drop j⟩ :: es2 → run (init (start cells data)) es1 = some w1 →
      P j = true → ((Events.history (eventOps w1 n)).view j).unread = none)
    (hm : ∃ t, .app (.mount t) ∈ es) (hend : Attentive w n P) :
    Events.yieldedBy P (eventOps w n) ((ofEvents w n).map (·.2)) = Events.deliveredTo P {} (eventOps w n) := by
  -- a prefix of the history of the streams is the history at some time
  have split : ∀ a op b, eventOps w n = a ++ op :: b → ∃ es1 es2 w1, es = es1 ++ .op ⟨.events n, op⟩ :: es2 ∧
      run (init (start cells data)) es1 = some w1 ∧ eventOps w1 n = a := by
    intro a op b hab
    obtain ⟨a', b', heq, ha, hb⟩ := List.map_eq_append_iff.1 hab
    obtain ⟨⟨op', out⟩, b'', rfl, hop, -⟩ := List.map_eq_cons_iff.1 hb
    cases hop
    obtain ⟨es1, es2, w1, h1, h2, h3⟩ := part_split h (i := .events n) (a := a') (b := b'') (op := op') (out := out)
      (by rw [show part (things D hash enc) (.events n) w.hist = _ from heq]; rfl)
    refine ⟨es1, es2, w1, h1, h2, ?_⟩
    rw [← ha]
    exact congrArg _ h3
  obtain ⟨pend, h1, h2, h3⟩ := Events.yieldedBy_eq (P := P) (ops := eventOps w n) (H := {}) (pend := none)
    Events.known_nil (.inl ⟨rfl, by simp⟩) (by simp)
    (by
      intro a l e b hab i hi hP
      obtain ⟨es1, es2, w1, h4, h5, rfl⟩ := split a _ b hab
      obtain ⟨hm, ⟨hidle, hall⟩, hiaw⟩ := hd es1 l e es2 w1 h4 h5 i hi hP
      exact ⟨(awaited_quiet h5 hm hidle hiaw).1, fun j hj hlis => (awaited_quiet h5 hm hidle (hall j hj hlis)).2⟩)
    (by
      intro a j b hab hP
      obtain ⟨es1, es2, w1, h4, h5, rfl⟩ := split a _ b hab
      exact hx es1 j es2 w1 h4 h5 hP)
  have hk : Events.Known (Events.history (eventOps w n)) := by
    have : ∀ (ops : List Events.Op) (H : Events.History), Events.Known H → Events.Known (ops.foldl Events.History.next H) := by
      intro ops
      induction ops with
      | nil => exact fun _ h => h
      | cons op ops ih => exact fun H h => ih _ (Events.known_next h op)
    exact this _ _ Events.known_nil
  have hpend : pend = none := by
    rcases h1 with ⟨h1, -⟩ | ⟨i, e, -, h4, h5, -⟩
    · exact h1
    · exfalso
      have hne : ((Events.history (eventOps w n)).view i).unread ≠ none := by rw [Events.history, h5]; nofun
      cases hdr : ((Events.history (eventOps w n)).view i).dropped with
      | true => exact hne (h2 i h4 hdr)
      | false => exact hne (awaited_quiet h hm hend.1 (hend.2 i h4 ⟨hk.unread i hne, hdr⟩)).2
  rw [events_hist h n]
  rw [hpend] at h3
  simpa using h3.symm

end
end Verif.Live
