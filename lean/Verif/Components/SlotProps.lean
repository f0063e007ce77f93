import Verif.Components.Slot

/-!
# C38: DynamicSlot shows the last future set

All theorems are over every list of `Op`s that does not panic; `slot_total` and `slot_touchy` say
which do.
-/

namespace Verif.Slot

/-- What the slot has been asked for, and whether a poll has taken the request up. -/
structure Want where
  fut : Option Fut := none
  taken : Bool := true
deriving DecidableEq, Repr

/-- Only the last request counts.  When rendering stops, a request already taken up goes with it. -/
def Want.next (v : Want) : Op → Want
  | .set f => ⟨some f, false⟩
  | .clear => ⟨none, false⟩
  | .poll _ _ => { v with taken := true }
  | .stop => if v.taken then {} else v

/-- The future last asked for. -/
def wanted (ops : List Op) : Option Fut := (ops.foldl Want.next {}).fut

/-- The waker of the last poll, after one more `Op`. -/
def wakerNext (k : Waker) : Op → Waker
  | .poll w _ => w
  | _ => k

/-- The waker of the last poll. -/
def lastWaker (ops : List Op) : Waker := ops.foldl wakerNext dummy

/-- What a poll should poll. -/
def due (v : Want) : Op → List Fut
  | .poll _ _ => v.fut.toList
  | _ => []

/-- The futures given to `set_future`. -/
def given (ops : List Op) : List Fut :=
  ops.filterMap fun op => match op with | .set f => some f | _ => none

/-- The futures dropped. -/
def drops (es : List Event) : List Fut :=
  es.filterMap fun e => match e with | .dropped f => some f | _ => none

/-- The futures polled. -/
def polls (es : List Event) : List Fut :=
  es.filterMap fun e => match e with | .polled f _ => some f | _ => none

/-- What holds of the slot after a history. -/
structure Inv (S : State) (v : Want) (k : Waker) (all gone : List Fut) : Prop where
  idle : v.taken = true → S.message = .noChange ∧ S.held = v.fut
  waiting : v.taken = false →
    S.message = (match v.fut with | some f => Message.set f | none => .clear)
  waker : S.waker = k
  all : all.Perm (gone ++ S.held.toList ++ S.message.fut.toList)

theorem inv_new : Inv new {} dummy [] [] := by
  constructor <;> simp [new, Message.fut]

theorem drops_append (a b : List Event) : drops (a ++ b) = drops a ++ drops b := by
  simp [drops]

theorem dropBorrowed_drops {o : Option Fut} {d : List Event} (h : dropBorrowed o = some d) :
    drops d = o.toList ∧ polls d = [] := by
  cases o with
  | none => simp [dropBorrowed] at h; subst h; simp [drops, polls]
  | some f =>
    simp only [dropBorrowed] at h
    split at h
    · cases h
    · simp at h; subst h; simp [drops, polls]

/-- The effect of a step on the events. -/
theorem inv_step {S S1 : State} {v : Want} {k : Waker} {all gone : List Fut} {op : Op}
    {es : List Event} (h : Inv S v k all gone) (hs : step S op = some (S1, es)) :
    Inv S1 (v.next op) (wakerNext k op)
      (all ++ given [op]) (gone ++ drops es) ∧
    polls es = due v op := by
  obtain ⟨h1, h2, h3, h4⟩ := h
  have send_ok : ∀ m : Message, m ≠ .noChange → send S m = some (S1, es) →
      S1 = { S with message := m } ∧ drops es = S.message.fut.toList ∧ polls es = [] := by
    intro m _ hm
    simp only [send, Option.bind_eq_bind, Option.bind_eq_some_iff, Option.some.injEq,
      Prod.mk.injEq] at hm
    obtain ⟨d, hd, rfl, rfl⟩ := hm
    obtain ⟨e1, e2⟩ := dropBorrowed_drops hd
    refine ⟨rfl, ?_, ?_⟩
    · rw [drops_append, e1]; simp [drops]
    · simp only [polls, List.filterMap_append] at e2 ⊢; rw [e2]; simp
  cases op with
  | set f =>
    obtain ⟨rfl, e1, e2⟩ := send_ok _ (by simp) hs
    refine ⟨⟨by simp [Want.next], by simp [Want.next], h3, ?_⟩, e2⟩
    rw [e1]
    have : given [.set f] = [f] := rfl
    rw [this]
    simp only [Message.fut, Option.toList_some]
    refine (h4.append_right _).trans ?_
    apply List.Perm.append_right
    simp only [List.append_assoc]
    exact List.Perm.append_left _ List.perm_append_comm
  | clear =>
    obtain ⟨rfl, e1, e2⟩ := send_ok _ (by simp) hs
    refine ⟨⟨by simp [Want.next], by simp [Want.next], h3, ?_⟩, e2⟩
    rw [e1]
    have : given [Op.clear] = [] := rfl
    rw [this, List.append_nil]
    simp only [Message.fut, Option.toList_none, List.append_nil]
    refine h4.trans ?_
    simp only [List.append_assoc]
    exact List.Perm.append_left _ List.perm_append_comm
  | stop =>
    simp only [step, Option.some.injEq, Prod.mk.injEq] at hs
    obtain ⟨rfl, rfl⟩ := hs
    have e1 : drops (S.held.map Event.dropped).toList = S.held.toList := by
      cases S.held <;> simp [drops]
    refine ⟨⟨?_, ?_, h3, ?_⟩, ?_⟩
    · intro ht
      simp only [Want.next] at ht ⊢
      split at ht
      · rename_i hv; rw [if_pos hv]; exact ⟨(h1 hv).1, rfl⟩
      · rename_i hv; exact absurd ht hv
    · intro ht
      simp only [Want.next] at ht ⊢
      split at ht
      · cases ht
      · rename_i hv; rw [if_neg hv]; exact h2 ht
    · have : given [Op.stop] = [] := rfl
      rw [e1, this]
      simpa using h4
    · cases S.held <;> simp [polls, due]
  | poll w r =>
    simp only [step, Option.bind_eq_bind, Option.bind_eq_some_iff] at hs
    obtain ⟨⟨S', d⟩, hr, hs⟩ := hs
    have hr' : S' = ⟨w, .noChange, v.fut⟩ ∧ polls d = [] ∧
        (all).Perm (gone ++ drops d ++ v.fut.toList) := by
      have hw : (if S.waker = w then S.waker else w) = w := by split <;> simp_all
      simp only [receive, Option.bind_eq_bind, Option.bind_eq_some_iff, hw, Option.some.injEq,
        Prod.mk.injEq] at hr
      obtain ⟨⟨held, d'⟩, hm, rfl, rfl⟩ := hr
      cases ht : v.taken with
      | true =>
        obtain ⟨hn, hh⟩ := h1 ht
        simp only [apply, hn, Option.some.injEq, Prod.mk.injEq] at hm
        obtain ⟨rfl, rfl⟩ := hm
        rw [hn] at h4
        simpa [hh, drops, polls, Message.fut] using h4
      | false =>
        have hm' := h2 ht
        cases hf : v.fut with
        | none =>
          rw [hf] at hm'
          simp only at hm'
          rw [hm'] at h4
          simp only [apply, hm', Option.map_eq_some_iff, Prod.mk.injEq] at hm
          obtain ⟨d'', hd, rfl, rfl⟩ := hm
          obtain ⟨e1, e2⟩ := dropBorrowed_drops hd
          refine ⟨rfl, e2, ?_⟩
          rw [e1]; simpa [Message.fut] using h4
        | some f =>
          rw [hf] at hm'
          simp only at hm'
          rw [hm'] at h4
          simp only [apply, hm', Option.map_eq_some_iff, Prod.mk.injEq] at hm
          obtain ⟨d'', hd, rfl, rfl⟩ := hm
          obtain ⟨e1, e2⟩ := dropBorrowed_drops hd
          refine ⟨rfl, e2, ?_⟩
          rw [e1]; simpa [Message.fut] using h4
    obtain ⟨rfl, hp, hall⟩ := hr'
    have hg : given [Op.poll w r] = [] := rfl
    cases hf : v.fut with
    | none =>
      rw [hf] at hs hall
      simp only [Option.some.injEq, Prod.mk.injEq] at hs
      obtain ⟨rfl, rfl⟩ := hs
      refine ⟨⟨by simp [Want.next, hf], by simp [Want.next], rfl, ?_⟩, by simpa [due, hf] using hp⟩
      simpa [hg, Message.fut] using hall
    | some f =>
      rw [hf] at hs hall
      simp only [Option.some.injEq, Prod.mk.injEq] at hs
      obtain ⟨rfl, rfl⟩ := hs
      refine ⟨⟨by simp [Want.next, hf], by simp [Want.next], rfl, ?_⟩, ?_⟩
      · simpa [hg, Message.fut, drops] using hall
      · simp only [polls, List.filterMap_append] at hp ⊢
        rw [hp]; simp [due, hf]

theorem run_append {S : State} {xs ys : List Op} :
    run S (xs ++ ys) = (run S xs).bind fun p => (run p.1 ys).map fun q => (q.1, p.2 ++ q.2) := by
  induction xs generalizing S with
  | nil => simp [run]
  | cons x xs ih =>
    simp only [List.cons_append, run, bind]
    cases step S x with
    | none => rfl
    | some p =>
      obtain ⟨S1, o⟩ := p
      simp only [Option.bind_some, ih]
      cases run S1 xs with
      | none => rfl
      | some q =>
        simp only [Option.bind_some]
        cases run q.1 ys <;> simp

theorem run_length {S S1 : State} {ops : List Op} {os : List (List Event)}
    (h : run S ops = some (S1, os)) : os.length = ops.length := by
  induction ops generalizing S os with
  | nil => simp [run] at h; simp [← h.2]
  | cons op ops ih =>
    simp only [run, Option.bind_eq_bind, Option.bind_eq_some_iff, Option.some.injEq,
      Prod.mk.injEq] at h
    obtain ⟨⟨S', o⟩, -, ⟨S'', os'⟩, hr, rfl, rfl⟩ := h
    simp [ih hr]

theorem inv_run {S S1 : State} {v : Want} {k : Waker} {all gone : List Fut} {ops : List Op}
    {os : List (List Event)} (h : Inv S v k all gone) (hr : run S ops = some (S1, os)) :
    Inv S1 (ops.foldl Want.next v)
      (ops.foldl wakerNext k)
      (all ++ given ops) (gone ++ drops os.flatten) := by
  induction ops generalizing S v k all gone os with
  | nil =>
    simp only [run, Option.some.injEq, Prod.mk.injEq] at hr
    obtain ⟨rfl, rfl⟩ := hr
    simpa [given, drops] using h
  | cons op ops ih =>
    simp only [run, Option.bind_eq_bind, Option.bind_eq_some_iff, Option.some.injEq,
      Prod.mk.injEq] at hr
    obtain ⟨⟨S', o⟩, hs, ⟨S'', os'⟩, hr, rfl, rfl⟩ := hr
    have := ih (inv_step h hs).1 hr
    have hg : given (op :: ops) = given [op] ++ given ops := by
      simp only [given, ← List.filterMap_append]; rfl
    simpa [hg, drops_append] using this

/-- **C38**: each poll of the slot polls exactly the future last asked for, and nothing if that was
`clear_future` (or nothing was asked for). -/
theorem slot_polls {pre post : List Op} {w : Waker} {r : Bool} {S : State} {os : List (List Event)}
    (h : run new (pre ++ .poll w r :: post) = some (S, os)) :
    ∃ es, os[pre.length]? = some es ∧ polls es = (wanted pre).toList := by
  rw [run_append] at h
  obtain ⟨⟨S1, os1⟩, h1, h2⟩ := Option.bind_eq_some_iff.1 h
  simp only [run, Option.bind_eq_bind, Option.map_eq_some_iff, Option.bind_eq_some_iff,
    Option.some.injEq, Prod.mk.injEq] at h2
  obtain ⟨⟨q1, q2⟩, ⟨⟨S', es⟩, hs, ⟨S'', os'⟩, -, rfl, rfl⟩, -, rfl⟩ := h2
  refine ⟨es, ?_, (inv_step (inv_run inv_new h1) hs).2⟩
  rw [List.getElem?_append_right (by rw [run_length h1]; omega), run_length h1]
  simp

/-- Other operations poll nothing. -/
theorem slot_only_polls {pre post : List Op} {op : Op} {S : State} {os : List (List Event)}
    (h : run new (pre ++ op :: post) = some (S, os)) (hop : ∀ w r, op ≠ .poll w r) :
    ∃ es, os[pre.length]? = some es ∧ polls es = [] := by
  rw [run_append] at h
  obtain ⟨⟨S1, os1⟩, h1, h2⟩ := Option.bind_eq_some_iff.1 h
  simp only [run, Option.bind_eq_bind, Option.map_eq_some_iff, Option.bind_eq_some_iff,
    Option.some.injEq, Prod.mk.injEq] at h2
  obtain ⟨⟨q1, q2⟩, ⟨⟨S', es⟩, hs, ⟨S'', os'⟩, -, rfl, rfl⟩, -, rfl⟩ := h2
  refine ⟨es, ?_, ?_⟩
  · rw [List.getElem?_append_right (by rw [run_length h1]; omega), run_length h1]
    simp
  · have := (inv_step (inv_run inv_new h1) hs).2
    cases op with
    | poll w r => exact absurd rfl (hop w r)
    | _ => exact this

/-- **C38**: right after a poll, every future ever given to the slot has been dropped exactly once,
except the one last asked for, which has not been dropped. -/
theorem slot_drops {ops : List Op} {w : Waker} {r : Bool} {S : State} {os : List (List Event)}
    (h : run new (ops ++ [.poll w r]) = some (S, os)) :
    (given ops).Perm (drops os.flatten ++ (wanted ops).toList) := by
  have hi := inv_run inv_new h
  have ht : ((ops ++ [Op.poll w r]).foldl Want.next {}).taken = true := by
    simp [Want.next]
  have hf : ((ops ++ [Op.poll w r]).foldl Want.next {}).fut = wanted ops := by
    simp [Want.next, wanted]
  obtain ⟨hm, hh⟩ := hi.idle ht
  have hall := hi.all
  rw [hm, hh, hf] at hall
  simpa [given, Message.fut] using hall

/-- **C38**: a future that another request replaces before the slot is polled is never polled. -/
theorem slot_replaced {pre mid post : List Op} {f : Fut} {op : Op} {S : State}
    {os : List (List Event)}
    (h : run new (pre ++ .set f :: mid ++ op :: post) = some (S, os))
    (hop : op = .clear ∨ ∃ g, op = .set g) (hmid : ∀ w r, Op.poll w r ∉ mid)
    (hone : f ∉ given pre ++ given mid ++ given (op :: post)) : f ∉ polls os.flatten := by
  -- the future wanted after some `Op`s is one of those given
  have key : ∀ (xs : List Op) (v : Want), f ∉ given xs → v.fut ≠ some f →
      (xs.foldl Want.next v).fut ≠ some f := by
    intro xs
    induction xs with
    | nil => intro v _ hv; exact hv
    | cons x xs ih =>
      intro v hx hv
      have hg : given (x :: xs) = given [x] ++ given xs := by
        simp only [given, ← List.filterMap_append]; rfl
      rw [hg, List.mem_append] at hx
      apply ih _ (fun hh => hx (Or.inr hh))
      cases x with
      | set g =>
        simp only [Want.next, ne_eq, Option.some.injEq]
        rintro rfl
        exact hx (Or.inl (by simp [given]))
      | clear => simp [Want.next]
      | poll w r => simpa [Want.next] using hv
      | stop => simp only [Want.next]; split <;> simp_all
  intro hp
  simp only [polls, List.mem_filterMap, List.mem_flatten] at hp
  obtain ⟨e, ⟨es, hes, hee⟩, hef⟩ := hp
  obtain ⟨k, hk, hke⟩ := List.getElem_of_mem hes
  have hpe : f ∈ polls es := by
    simp only [polls, List.mem_filterMap]; exact ⟨e, hee, hef⟩
  have hlen := run_length h
  rw [hlen] at hk
  -- the `Op` at which it would be polled
  generalize hall : pre ++ .set f :: mid ++ op :: post = all at *
  have hsplit : all = all.take k ++ all[k] :: all.drop (k + 1) := by simp
  have hkl : (all.take k).length = k := by simp; omega
  by_cases hpoll : ∃ w r, all[k] = .poll w r
  · obtain ⟨w, r, hwr⟩ := hpoll
    rw [hsplit, hwr] at h
    obtain ⟨es', he1, he2⟩ := slot_polls h
    rw [hkl] at he1
    have : es' = es := by
      rw [← hke]
      rw [List.getElem?_eq_some_iff] at he1
      exact he1.2.symm
    subst this
    rw [he2] at hpe
    have hw : wanted (all.take k) = some f := by
      cases hw : wanted (all.take k) with
      | none => rw [hw] at hpe; simp at hpe
      | some g => rw [hw] at hpe; simp at hpe; rw [hpe]
    refine absurd hw ?_
    simp only [List.mem_append, not_or] at hone
    -- where the poll is
    have hall' : all = pre ++ (.set f :: mid ++ op :: post) := by rw [← hall]; simp
    rcases Nat.lt_or_ge pre.length k with hk1 | hk1
    · rcases Nat.lt_or_ge (pre.length + 1 + mid.length) k with hk2 | hk2
      · have : all.take k = (pre ++ .set f :: mid ++ [op]) ++
            post.take (k - (pre.length + 1 + mid.length + 1)) := by
          have hal : all = (pre ++ .set f :: mid ++ [op]) ++ post := by rw [← hall]; simp
          rw [hal, List.take_append]
          have h1 : (pre ++ Op.set f :: mid ++ [op]).length = pre.length + 1 + mid.length + 1 := by
            simp; omega
          rw [List.take_of_length_le (by omega), h1]
        rw [this]
        simp only [wanted, List.foldl_append]
        apply key
        · intro hg
          apply hone.2
          have hg' : given (op :: post) = given [op] ++ given post := by
            simp only [given, ← List.filterMap_append]; rfl
          rw [hg', List.mem_append]
          right
          simp only [given, List.mem_filterMap] at hg ⊢
          obtain ⟨a, ha, hb⟩ := hg
          exact ⟨a, List.mem_of_mem_take ha, hb⟩
        · simp only [List.foldl_cons, List.foldl_nil]
          rcases hop with rfl | ⟨g, rfl⟩
          · simp [Want.next]
          · simp only [Want.next, ne_eq, Option.some.injEq]
            rintro rfl
            exact hone.2 (by simp [given])
      · -- inside `mid` there is no poll
        exfalso
        have hmem : all[k] ∈ op :: mid := by
          subst hall
          grind
        rw [hwr] at hmem
        rcases List.mem_cons.1 hmem with hh | hh
        · rcases hop with rfl | ⟨g, rfl⟩ <;> simp at hh
        · exact hmid w r hh
    · have : all.take k = pre.take k := by
        rw [hall', List.take_append]
        have : k - pre.length = 0 := by omega
        rw [this]; simp
      rw [this, wanted]
      apply key _ _ _ (by simp)
      intro hg
      apply hone.1.1
      simp only [given, List.mem_filterMap] at hg ⊢
      obtain ⟨a, ha, hb⟩ := hg
      exact ⟨a, List.mem_of_mem_take ha, hb⟩
  · rw [hsplit] at h
    obtain ⟨es', he1, he2⟩ := slot_only_polls h (fun w r hh => hpoll ⟨w, r, hh⟩)
    rw [hkl] at he1
    have : es' = es := by
      rw [← hke]
      rw [List.getElem?_eq_some_iff] at he1
      exact he1.2.symm
    subst this
    rw [he2] at hpe
    cases hpe

/-- **C38**: every request wakes the waker with which the slot was last polled, so that the poll
which takes the request up will come. -/
theorem slot_wakes {ops : List Op} {op : Op} {S : State} {os : List (List Event)}
    (h : run new (ops ++ [op]) = some (S, os)) (hop : op = .clear ∨ ∃ f, op = .set f) :
    ∃ es, os.getLast? = some es ∧ Event.woke (lastWaker ops) ∈ es := by
  rw [run_append] at h
  obtain ⟨⟨S1, os1⟩, h1, h2⟩ := Option.bind_eq_some_iff.1 h
  simp only [run, Option.bind_eq_bind, Option.map_eq_some_iff, Option.bind_eq_some_iff,
    Option.some.injEq, Prod.mk.injEq] at h2
  obtain ⟨⟨q1, q2⟩, ⟨⟨S', es⟩, hs, ⟨S'', os'⟩, ⟨rfl, rfl⟩, rfl, rfl⟩, -, rfl⟩ := h2
  have hw := (inv_run inv_new h1).waker
  refine ⟨es, by simp, ?_⟩
  rw [lastWaker, ← hw]
  rcases hop with rfl | ⟨f, rfl⟩
  all_goals
    simp only [step, send, Option.bind_eq_bind, Option.bind_eq_some_iff, Option.some.injEq,
      Prod.mk.injEq] at hs
    obtain ⟨d, -, -, rfl⟩ := hs
    simp

/-- Nothing panics if no destructor uses the slot. -/
theorem slot_total {ops : List Op} (h : ∀ f ∈ given ops, f.touchy = false) :
    ∃ S os, run new ops = some (S, os) := by
  -- neither the message nor the future in the slot is touchy
  have key : ∀ (ops : List Op) (S : State), (∀ f ∈ given ops, f.touchy = false) →
      (∀ f ∈ S.held.toList ++ S.message.fut.toList, f.touchy = false) →
      ∃ S1 os, run S ops = some (S1, os) := by
    intro ops
    induction ops with
    | nil => intro S _ _; exact ⟨S, [], rfl⟩
    | cons op ops ih =>
      intro S hg hS
      have hg' : given (op :: ops) = given [op] ++ given ops := by
        simp only [given, ← List.filterMap_append]; rfl
      rw [hg'] at hg
      have hb : ∀ o : Option Fut, (∀ f ∈ o.toList, f.touchy = false) → ∃ d, dropBorrowed o = some d := by
        intro o ho
        cases o with
        | none => exact ⟨[], rfl⟩
        | some f => exact ⟨[.dropped f], by simp [dropBorrowed, ho f (by simp)]⟩
      have hstep : ∃ S1 o, step S op = some (S1, o) ∧
          (∀ f ∈ S1.held.toList ++ S1.message.fut.toList, f.touchy = false) := by
        obtain ⟨dm, hdm⟩ := hb S.message.fut (fun f hf => hS f (by simp [List.mem_append, hf]))
        obtain ⟨dh, hdh⟩ := hb S.held (fun f hf => hS f (by simp [List.mem_append, hf]))
        have hS1 : ∀ f ∈ S.held.toList, f.touchy = false := fun f hf => hS f (by simp [hf])
        cases op with
        | set f =>
          refine ⟨{ S with message := .set f }, dm ++ [.woke S.waker],
            by simp only [step, send, hdm, bind, Option.bind], ?_⟩
          intro g hgm
          simp only [Message.fut, Option.toList_some, List.mem_append, List.mem_singleton] at hgm
          rcases hgm with hgm | rfl
          · exact hS1 g hgm
          · exact hg g (by simp [given])
        | clear =>
          refine ⟨{ S with message := .clear }, dm ++ [.woke S.waker],
            by simp only [step, send, hdm, bind, Option.bind], ?_⟩
          simpa [Message.fut] using hS1
        | stop =>
          refine ⟨_, _, rfl, ?_⟩
          intro g hgm
          exact hS g (by simp only [Option.toList_none, List.nil_append] at hgm; simp [hgm])
        | poll w r =>
          have hrec : ∃ held d, apply S = some (held, d) ∧ ∀ f ∈ held.toList, f.touchy = false := by
            cases hm : S.message with
            | set f =>
              refine ⟨some f, dh, by simp [apply, hm, hdh], ?_⟩
              intro g hgm
              exact hS g (by simp at hgm; simp [hm, Message.fut, hgm])
            | clear => exact ⟨none, dh, by simp [apply, hm, hdh], by simp⟩
            | noChange => exact ⟨S.held, [], by simp [apply, hm], hS1⟩
          obtain ⟨held, d, hr, hh⟩ := hrec
          cases held with
          | none =>
            exact ⟨⟨if S.waker = w then S.waker else w, .noChange, none⟩, d,
              by simp only [step, receive, hr, bind, Option.bind], by simp [Message.fut]⟩
          | some f =>
            exact ⟨⟨if S.waker = w then S.waker else w, .noChange, some f⟩, d ++ [.polled f r],
              by simp only [step, receive, hr, bind, Option.bind], by simpa [Message.fut] using hh⟩
      obtain ⟨S1, o, hs, hS1⟩ := hstep
      obtain ⟨S2, os, hr⟩ := ih S1 (fun f hf => hg f (by simp [hf])) hS1
      exact ⟨S2, o :: os, by simp [run, hs, hr]⟩
  exact key ops new h (by simp [new, Message.fut])

/-- The other way: replacing a future whose destructor uses the slot panics (`BorrowMutError`). -/
theorem slot_touchy {ops : List Op} {f : Fut} {w : Waker} {r r' : Bool} (hf : f.touchy = true) (g : Fut) :
    run new (ops ++ [.set f, .set g]) = none ∧
    run new (ops ++ [.set f, .poll w r, .set g, .poll w r']) = none := by
  have hset : ∀ S : State, step S (.set f) = none ∨
      ∃ es, step S (.set f) = some ({ S with message := .set f }, es) := by
    intro S
    simp only [step, send]
    cases dropBorrowed S.message.fut with
    | none => left; rfl
    | some d => right; exact ⟨_, rfl⟩
  constructor
  · rw [run_append]
    cases run new ops with
    | none => rfl
    | some p =>
      simp only [Option.bind_some, Option.map_eq_none_iff, run]
      rcases hset p.1 with h | ⟨es, h⟩
      · simp [h]
      · simp only [h, bind, Option.bind_some]
        simp [step, send, Message.fut, dropBorrowed, hf]
  · rw [run_append]
    cases run new ops with
    | none => rfl
    | some p =>
      simp only [Option.bind_some, Option.map_eq_none_iff, run]
      rcases hset p.1 with h | ⟨es, h⟩
      · simp [h]
      · simp only [h, bind, Option.bind_some]
        cases hd : dropBorrowed p.1.held with
        | none => simp [step, receive, apply, hd]
        | some d =>
          have hb : dropBorrowed (some f) = none := by simp [dropBorrowed, hf]
          have hn : dropBorrowed none = some [] := rfl
          simp [step, receive, apply, hd, send, Message.fut, hb, hn]

/-- A future that has completed stays in the slot and is polled again by the next poll: an `async`
block panics then. -/
theorem slot_repolls (f : Fut) (w : Waker) :
    (run new [.set f, .poll w true, .poll w true]).map (·.2) =
      some [[.woke dummy], [.polled f true], [.polled f true]] := by
  simp [run, step, send, receive, apply, new, Message.fut, dropBorrowed]

/-- The hypotheses of the theorems above are met by a history in which one future is replaced before
it is polled, one after, and one is cleared. -/
def demo : List Op :=
  [.set ⟨1, false⟩, .poll 9 false, .poll 9 false, .set ⟨2, false⟩, .set ⟨3, false⟩, .poll 8 false,
    .clear, .poll 8 false]

example : (run new demo).map (·.2) = some [[.woke 0], [.polled ⟨1, false⟩ false],
    [.polled ⟨1, false⟩ false], [.woke 9], [.dropped ⟨2, false⟩, .woke 9],
    [.dropped ⟨1, false⟩, .polled ⟨3, false⟩ false], [.woke 8], [.dropped ⟨3, false⟩]] := by decide

example : demo = [.set ⟨1, false⟩, .poll 9 false, .poll 9 false] ++ Op.set ⟨2, false⟩ :: [] ++
    Op.set ⟨3, false⟩ :: [.poll 8 false, .clear, .poll 8 false] := rfl

end Verif.Slot
