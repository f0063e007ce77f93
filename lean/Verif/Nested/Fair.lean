import Verif.Nested.Props
/-! An item of a list that waits for its turn: how often can the list let others do something before? -/
namespace Verif.Nested
open Verif.Comb
variable {V S O : Type}

theorem next_wait {gone : List Nat} {i : Nat} (hi : i ∉ gone) (post : List Nat) : ∀ (n : Nat) (pre : List Nat),
    (∀ q', next gone n (pre ++ i :: post) = .yield q' → ∃ pre', q' = pre' ++ i :: post ∧ pre'.length + n = pre.length) ∧
      (∀ n', next gone n (pre ++ i :: post) ≠ .sleep n') ∧
      (∀ j n' q', next gone n (pre ++ i :: post) = .run j n' q' →
        j = i ∨ ∃ pre', q' = pre' ++ i :: post ∧ pre'.length + n ≤ pre.length + n')
  | 0, pre => by
    refine ⟨fun q' h => ?_, fun n' h => ?_, fun j n' q' h => ?_⟩ <;> simp only [next] at h
    · cases h; exact ⟨pre, rfl, rfl⟩
    · cases h
    · cases h
  | n + 1, [] => by
    simp only [List.nil_append, next, if_neg hi]
    refine ⟨fun q' h => (by cases h), fun n' h => (by cases h), fun j n' q' h => ?_⟩
    simp only [Next.run.injEq] at h
    exact .inl h.1.symm
  | n + 1, k :: pre => by
    obtain ⟨h1, h2, h3⟩ := next_wait hi post n pre
    simp only [List.cons_append, next]
    split
    · refine ⟨fun q' h => ?_, h2, fun j n' q' h => ?_⟩
      · obtain ⟨pre', h4, h5⟩ := h1 q' h
        exact ⟨pre', h4, by simp; omega⟩
      · rcases h3 j n' q' h with h4 | ⟨pre', h4, h5⟩
        · exact .inl h4
        · exact .inr ⟨pre', h4, by simp; omega⟩
    · refine ⟨fun q' h => (by cases h), fun n' h => (by cases h), fun j n' q' h => ?_⟩
      simp only [Next.run.injEq] at h
      obtain ⟨rfl, rfl, rfl⟩ := h
      exact .inr ⟨pre, rfl, by simp; omega⟩

/-- Item `i` is in the queue; the list has yielded `y` times, and can do so only a few times more before `i`. -/
def LW (i L K y : Nat) (l : LObj) : Prop :=
  i ∈ l.gone ∨ (l.limit = L ∧ ∃ pre post, l.queue = pre ++ i :: post ∧ y * L + (L - l.left) + pre.length ≤ K)

theorem go_wait {l l' : LObj} {w : Place} {r : Reply} {i L K y : Nat} (hlim : l.left ≤ l.limit) (h : LW i L K y l)
    (hg : l.go w = (l', r)) :
    r.polls = some i ∨ LW i L K (y + if r.polls = none ∧ r.wakes.isSome then 1 else 0) l' := by
  by_cases hi : i ∈ l.gone
  · right; left
    simp only [LObj.go] at hg
    split at hg <;> (obtain ⟨rfl, rfl⟩ := Prod.mk.inj hg; exact hi)
  · obtain ⟨rfl, pre, post, hq, hK⟩ := h.resolve_left hi
    obtain ⟨h1, h2, h3⟩ := next_wait hi post l.left pre
    simp only [LObj.go, hq] at hg
    split at hg
    · next q hn =>
      obtain ⟨rfl, rfl⟩ := Prod.mk.inj hg
      obtain ⟨pre', h4, h5⟩ := h1 _ hn
      refine .inr (.inr ⟨rfl, pre', post, h4, ?_⟩)
      simp only [Option.isSome_some, and_self, if_true, Nat.add_mul, Nat.one_mul]
      omega
    · next left hn => exact absurd hn (h2 _)
    · next j left q hn =>
      obtain ⟨rfl, rfl⟩ := Prod.mk.inj hg
      rcases h3 _ _ _ hn with h4 | ⟨pre', h4, h5⟩
      · subst h4; exact .inl rfl
      · refine .inr (.inr ⟨rfl, pre', post, h4, ?_⟩)
        simp only [reduceCtorEq, false_and, if_false, Nat.add_zero]
        have := (next_suffix.2.2 _ _ _ hn).2
        omega

theorem back_wait {l : LObj} {i L K y : Nat} (h : LW i L K y l) (j : Nat) (b : Bool) : LW i L K y (l.back j b) := by
  simp only [LObj.back]
  split
  · exact h
  · split
    · rcases h with h | ⟨h1, pre, post, h2, h3⟩
      · exact .inl h
      · exact .inr ⟨h1, pre, post ++ [j], by simp [h2], h3⟩
    · exact h

theorem push_wait {l : LObj} {i L K y : Nat} (h : LW i L K y l) (j : Nat) : LW i L K y (l.push j).1 := by
  rcases h with h | ⟨h1, pre, post, h2, h3⟩
  · exact .inl h
  · exact .inr ⟨h1, pre, post ++ [j], by simp [LObj.push, h2], h3⟩

/-- `LW` for the list with number `c`, or else the item has been polled. -/
def SW (c i L K N : Nat) (s : Sys V S O) : Prop :=
  N < s.log.count (.polled (.sub c i)) ∨
    N ≤ s.log.count (.polled (.sub c i)) ∧
      ∃ l, s.objs[c]? = some (.list l) ∧ LW i L K (s.log.count (.yielded c)) l

theorem SW.congr {c i L K N : Nat} {s s' : Sys V S O} (h : SW c i L K N s) (ho : s'.objs[c]? = s.objs[c]?)
    (h1 : s.log.count (.polled (.sub c i)) ≤ s'.log.count (.polled (.sub c i)))
    (h2 : s'.log.count (.yielded c) = s.log.count (.yielded c)) : SW c i L K N s' := by
  rcases h with h | ⟨hN, l, h3, h4⟩
  · exact .inl (Nat.lt_of_lt_of_le h h1)
  · exact .inr ⟨Nat.le_trans hN h1, l, by rw [ho]; exact h3, by rw [h2]; exact h4⟩

theorem append_some {objs new : List (Obj V S O)} {c : Nat} {o : Obj V S O} (h : objs[c]? = some o) :
    (objs ++ new)[c]? = some o := by
  rw [List.getElem?_append_left (List.getElem?_eq_some_iff.1 h).1]; exact h

theorem SW.append {c i L K N : Nat} {s s' : Sys V S O} (h : SW c i L K N s) {new : List (Obj V S O)}
    (ho : s'.objs = s.objs ++ new) (hl : s'.log = s.log) : SW c i L K N s' := by
  rcases h with h | ⟨hN, l, h3, h4⟩
  · exact .inl (by rw [hl]; exact h)
  · exact .inr ⟨by rw [hl]; exact hN, l, by rw [ho]; exact append_some h3, by rw [hl]; exact h4⟩

/-- A list changes without being polled. -/
theorem SW.set {c i L K N : Nat} {s s' : Sys V S O} (h : SW c i L K N s) {d : Nat} {l l' : LObj}
    (hd : s.objs[d]? = some (.list l)) (ho : s'.objs = s.objs.set d (.list l'))
    (h1 : s.log.count (.polled (.sub c i)) ≤ s'.log.count (.polled (.sub c i)))
    (h2 : s'.log.count (.yielded c) = s.log.count (.yielded c))
    (hw : ∀ y, LW i L K y l → LW i L K y l') : SW c i L K N s' := by
  rcases h with h | ⟨hN, l1, h3, h4⟩
  · exact .inl (Nat.lt_of_lt_of_le h h1)
  · refine .inr ⟨Nat.le_trans hN h1, ?_⟩
    by_cases he : d = c
    · subst he
      rw [hd] at h3; cases h3
      exact ⟨l', by rw [ho]; exact get_set hd, by rw [h2]; exact hw _ h4⟩
    · exact ⟨l1, by rw [ho, List.getElem?_set_ne he]; exact h3, by rw [h2]; exact h4⟩

/-- Number `id` has been polled or has had an answer. -/
theorem SW.answer {c i L K N : Nat} {s : Sys V S O} (h : SW c i L K N s) {id : Nat} {e : Ask V} (he : ∀ j, e ≠ .wake j)
    (hI : ∀ l, s.objs[id]? = some (.list l) → LOk l) {s1 : Sys V S O} {r : Reply} (hst : s.stack ≠ [])
    (hs : stepObj s id e = some (s1, r)) : SW c i L K N (answer s1 id r) := by
  obtain ⟨o, o', ho, hs, rfl⟩ := stepObj_some hs
  by_cases hc : id = c
  · subst hc
    rcases h with h | ⟨hN, l, h1, h2⟩
    · left
      refine Nat.lt_of_lt_of_le h ?_
      simp only [Nested.answer]
      split
      · simp only [List.count_cons]; omega
      · split
        · split
          · exact Nat.le_refl _
          · split
            · simp only [List.count_cons]; omega
            · exact Nat.le_refl _
        · exact Nat.le_refl _
    · rw [ho] at h1; cases h1
      have hok := hI l ho
      obtain ⟨l', h3, rfl⟩ := Obj.step_list hs
      have key : r.ready = false ∧
          (r.polls = some i ∨ LW i L K (s.log.count (.yielded id) + if r.polls = none ∧ r.wakes.isSome then 1 else 0) l') := by
        cases e with
        | poll w =>
          simp only [LObj.step] at h3
          split at h3
          · have h4 := Option.some.inj h3
            exact ⟨(go_facts (V := V) (S := S) (O := O) hok.toLQ h4).2.2.2.2.2.2.2, go_wait hok.lim h2 h4⟩
          · cases h3
        | back j x w =>
          simp only [LObj.step] at h3
          split at h3
          · next hrun =>
            have h4 := Option.some.inj h3
            have h5 := (back_list hok hrun x.isSome).1
            exact ⟨(go_facts (V := V) (S := S) (O := O) h5 h4).2.2.2.2.2.2.2, go_wait h5.lim (back_wait h2 _ _) h4⟩
          · cases h3
        | wake j => exact absurd rfl (he j)
      obtain ⟨hr, key⟩ := key
      cases hp : r.polls with
      | some j =>
        rw [hp] at key
        simp only [Nested.answer, hp]
        rcases key with key | key
        · cases key
          left
          simp only [List.count_cons_self]
          exact Nat.lt_succ_of_le hN
        · refine .inr ⟨Nat.le_trans hN (List.count_le_count_cons ..), l', get_set ho, ?_⟩
          simpa using key
      | none =>
        rw [hp] at key
        have key := key.resolve_left (by simp)
        obtain ⟨f, fs, hst⟩ := List.exists_cons_of_ne_nil hst
        simp only [Nested.answer, hp, hst, hr, if_false, Bool.false_eq_true]
        cases hw : r.wakes with
        | some w => exact .inr ⟨by simpa using hN, l', get_set ho, by simpa [hw, List.count_cons] using key⟩
        | none => exact .inr ⟨hN, l', get_set ho, by simpa [hw] using key⟩
  · have hne : (s.objs.set id o')[c]? = s.objs[c]? := List.getElem?_set_ne hc
    simp only [Nested.answer]
    split
    · refine h.congr hne ?_ ?_
      · simp only [List.count_cons]; omega
      · simp
    · split
      · split
        · exact h.congr hne (Nat.le_refl _) rfl
        · split
          · refine h.congr hne ?_ ?_
            · simp only [List.count_cons]; omega
            · simp [hc]
          · exact h.congr hne (Nat.le_refl _) rfl
      · exact h.congr hne (Nat.le_refl _) rfl

theorem step_SW {c i L K N : Nat} {s s' : Sys V S O} (hI : Inv s) (h : SW c i L K N s) {e : Event V S O}
    (hs : step s e = some s') : SW c i L K N s' := by
  have hok : ∀ (c : Nat) (l : LObj), s.objs[c]? = some (.list l) → LOk l := fun c l ho => (hI.core c _ ho (by simp) (.inl trivial)).ok
  cases e with
  | pollTask t =>
    simp only [step] at hs
    split at hs
    · cases hs; exact h.congr rfl (by simp) (by simp)
    · cases hs
  | create g n =>
    simp only [step] at hs
    split at hs
    · cases hs; exact h.append rfl rfl
    · cases hs
  | cancel =>
    simp only [step] at hs
    split at hs
    · cases hs; exact h.congr rfl (Nat.le_refl _) rfl
    · cases hs
  | await =>
    simp only [step] at hs
    split at hs
    · next f fs hst hw =>
      split at hs
      · split at hs
        · next s1 r h1 =>
          cases hs
          have h0 : SW c i L K N { s with stack := ⟨f.place, true⟩ :: fs } := h
          exact h0.answer (by simp) (hok _) (by simp) h1
        · cases hs
      · cases hs
    · cases hs
  | ret x =>
    simp only [step] at hs
    split at hs
    · split at hs
      · next f fs hst hw hc =>
        generalize hs0 : (if x.isSome = true then
          { s with child := update s.child f.place none, log := .returned f.place :: s.log } else s) = s0 at hs
        have h0 : SW c i L K N s0 := by
          subst hs0
          split
          · exact h.congr rfl (by simp) (by simp)
          · exact h
        have hobjs : s0.objs = s.objs := by subst hs0; cases x.isSome <;> rfl
        split at hs
        · next id j f' fs' hf =>
          split at hs
          · next s1 r h1 =>
            cases hs
            have h2 : SW c i L K N { s0 with stack := f' :: fs' } := h0
            exact h2.answer (by simp) (by simp only [hobjs]; exact hok _) (by simp) h1
          · cases hs
        · cases hs
        · cases hs; exact h0
      · cases hs
    · cases hs
  | newList limit =>
    simp only [step] at hs
    split at hs
    · cases hs; exact h.append rfl rfl
    · cases hs
  | insert d =>
    simp only [step] at hs
    split at hs
    · next l ho hw =>
      cases hs
      refine h.set ho rfl (by simp) (by simp) ?_
      intro y hy
      have : LW i L K y { l with n := l.n + 1 } := hy
      exact push_wait this _
    · cases hs
  | remove d j =>
    simp only [step] at hs
    split at hs
    · next l ho hw =>
      split at hs
      · have hy : ∀ y, LW i L K y l → LW i L K y { l with gone := j :: l.gone } :=
          fun y => Or.imp_left (List.mem_cons_of_mem _)
        split at hs
        · cases hs; exact h.set ho rfl (Nat.le_refl _) rfl hy
        · cases hs; exact h.set ho rfl (Nat.le_refl _) rfl (fun y h => push_wait (hy y h) _)
      · cases hs
    · cases hs
  | render d =>
    simp only [step] at hs
    split at hs
    · next f fs l hst hw ho =>
      split at hs
      · cases hs
        refine h.set ho rfl (Nat.le_refl _) rfl ?_
        intro y hy
        rcases hy with h1 | ⟨h1, pre, post, h2, h3⟩
        · exact .inl h1
        · refine .inr ⟨h1, pre, post, h2, ?_⟩
          show y * L + (L - l.limit) + pre.length ≤ K
          omega
      · cases hs
    · cases hs
  | wake p =>
    simp only [step] at hs
    split at hs
    · cases hs; exact h.congr rfl (Nat.le_refl _) rfl
    · cases hs
  | propagate =>
    simp only [step] at hs
    split at hs
    · cases hs
    · cases hs; exact h.congr rfl (by simp) (by simp)
    · next id j hw =>
      split at hs
      · next s1 r h1 =>
        cases hs
        obtain ⟨o, o', ho, hs, rfl⟩ := stepObj_some h1
        cases o with
        | comb o =>
          obtain ⟨c', out, -, -, rfl, -⟩ := Obj.step_comb hs
          by_cases hc : id = c
          · subst hc
            rcases h with h | ⟨-, l, h3, -⟩
            · exact .inl (by simpa using h)
            · rw [ho] at h3; cases h3
          · exact h.congr (List.getElem?_set_ne hc) (by simp) (by simp)
        | list l =>
          obtain ⟨l', h3, rfl⟩ := Obj.step_list hs
          refine h.set ho rfl (by simp) (by simp) ?_
          intro y hy
          simp only [LObj.step] at h3
          split at h3
          · split at h3
            · cases h3; exact hy
            · split at h3
              · cases h3; exact hy
              · cases h3; exact push_wait hy _
          · cases h3
      · cases hs

theorem run_SW {c i L K N : Nat} {s s' : Sys V S O} (hI : Inv s) (h : SW c i L K N s) {es : List (Event V S O)}
    (hs : run s es = some s') : SW c i L K N s' := by
  induction es generalizing s with
  | nil => cases hs; exact h
  | cons e es ih =>
    simp only [run] at hs
    split at hs
    · next s1 h1 => exact ih (step_inv hI h1) (step_SW hI h h1) hs
    · cases hs

/-- An item that needs to be polled waits for its turn: until it is polled or removed, the `run` future of its list lets
others do something at most `n / limit + 1` times, where `n` items have been inserted into the list so far,
no matter how many items are inserted later and how often other items are woken. -/
theorem list_item_waits (es es' : List (Event V S O)) (s s' : Sys V S O) (h : run init es = some s) (hr : Rest s)
    (c i : Nat) (l : LObj) (ho : s.objs[c]? = some (.list l)) (hi : (Obj.list l : Obj V S O).Has i)
    (hret : .returned (.sub c i) ∉ s.log) (hn : NeedsPoll (.sub c i) s.log) (h' : run s es' = some s') :
    ∃ new, s'.log = new ++ s.log ∧
      (.polled (.sub c i) ∈ new ∨ (∃ o : Obj V S O, s'.objs[c]? = some o ∧ ¬ o.Has i) ∨
        new.count (.yielded c) * l.limit < l.n + l.limit) := by
  have hI : Inv s := run_inv init_inv h
  obtain ⟨-, new, hJ⟩ := run_J hI (J.start hI hr.2) h'
  refine ⟨new, hJ.log, ?_⟩
  have hc := hI.core c _ ho (by simp) (.inl trivial)
  have hok : LOk l := hc.ok
  have hrun : l.running = none := by
    cases hp : l.running with
    | none => rfl
    | some j =>
      have := hc.busy j hp
      rw [hr.1] at this; simp [places] at this
  have hq : i ∈ l.queue := by
    have := hc.need i hi.1 (fun h => hret ((hc.fin i hi.1).1 h)) hi.2 hn
    simpa [Obj.awake, Obj.rest, LObj.late, hrun] using this
  obtain ⟨pre, post, hq'⟩ := List.append_of_mem hq
  have hlen : pre.length < l.n := by
    have h2 := hok.nd.length_le_of_subset (l₂ := List.range l.n) fun j hj => List.mem_range.2 (hok.bound j hj)
    rw [hq'] at h2
    simp at h2
    omega
  have h0 : SW c i l.limit (s.log.count (.yielded c) * l.limit + (l.limit - l.left) + pre.length)
      (s.log.count (.polled (.sub c i))) s := .inr ⟨Nat.le_refl _, l, ho, .inr ⟨rfl, pre, post, hq', Nat.le_refl _⟩⟩
  rcases run_SW hI h0 h' with h1 | ⟨-, l', h1, h2 | ⟨h2, pre', post', h3, h4⟩⟩
  · left
    rw [hJ.log, List.count_append] at h1
    exact List.count_pos_iff.1 (by omega)
  · exact .inr (.inl ⟨_, h1, fun hh => hh.2 h2⟩)
  · right; right
    rw [hJ.log, List.count_append, Nat.add_mul] at h4
    omega

/-- The block of task `t` is awaiting list `c`, of which `i` is an item that has not returned. -/
def ItemOf (s : Sys V S O) (t c i : Nat) : Prop :=
  s.child (.task t) = some c ∧ (∃ o, s.objs[c]? = some o ∧ o.Has i) ∧ .returned (.sub c i) ∉ s.log

/-- The task is polled `k` times; other things happen as well. `i` is an item of its list after each poll. -/
inductive Rounds (t c i : Nat) : Nat → Sys V S O → Sys V S O → Prop
  | nil (s : Sys V S O) : Rounds t c i 0 s s
  | cons {s s1 s' : Sys V S O} {es : List (Event V S O)} {k : Nat} : run s (.pollTask t :: es) = some s1 → Rest s1 →
      ItemOf s1 t c i → Rounds t c i k s1 s' → Rounds t c i (k + 1) s s'

theorem ItemOf.part {s : Sys V S O} {t c i : Nat} (h : ItemOf s t c i) : PartOf s t (.sub c i) := by
  obtain ⟨h1, ⟨o, h2, h3⟩, h4⟩ := h
  exact .sub .task h1 h2 h3 h4

theorem InList.not_task {s : Sys V S O} {c t : Nat} : ¬ InList s c (.task t) := by
  intro h; cases h

theorem ItemOf.only {s : Sys V S O} (hI : Inv s) {t c i c' : Nat} (h : ItemOf s t c i) (hl : InList s c' (.sub c i)) :
    c' = c := by
  cases hl with
  | item => rfl
  | @sub q _ _ h1 h2 =>
    have := hI.inj _ _ _ h2 h.1
    subst this
    exact absurd h1 InList.not_task

theorem Rounds.count {t c i k : Nat} {s s' : Sys V S O} (h : Rounds t c i k s s') :
    ∀ (es : List (Event V S O)), run init es = some s → Rest s → ItemOf s t c i → NeedsPoll (.sub c i) s.log →
    ∃ (es' : List (Event V S O)) (new : List Note), run s es' = some s' ∧ s'.log = new ++ s.log ∧
      (.polled (.sub c i) ∈ new ∨ k ≤ new.count (.yielded c)) ∧ Rest s' ∧ ItemOf s' t c i := by
  induction h with
  | nil s => intro es he hr hi hn; exact ⟨[], [], rfl, rfl, .inr (Nat.zero_le _), hr, hi⟩
  | @cons s s1 s' es1 k h1 h2 h3 h4 ih =>
    intro es he hr hi hn
    have hI : Inv s1 := run_inv (run_inv init_inv he) h1
    obtain ⟨-, new1, e1, hs⟩ := nested_wake_is_served es es1 s s1 he hr t (.sub c i) hi.part hn h1 h2.1 h3.part
    have hrun : run init (es ++ .pollTask t :: es1) = some s1 := by rw [run_append, he]; exact h1
    by_cases hm : .polled (.sub c i) ∈ new1
    · -- it has been polled; only the other parts are needed
      clear ih
      have : ∀ {k : Nat} {a b : Sys V S O}, Rounds t c i k a b → Rest a → ItemOf a t c i → Inv a →
          ∃ (es' : List (Event V S O)) (new : List Note), run a es' = some b ∧ b.log = new ++ a.log ∧ Rest b ∧ ItemOf b t c i := by
        intro k a b hab
        induction hab with
        | nil s => intro hr hi _; exact ⟨[], [], rfl, rfl, hr, hi⟩
        | @cons a a1 b es2 k g1 g2 g3 g4 ih =>
          intro hr hi hIa
          obtain ⟨-, new2, hJ⟩ := run_J hIa (J.start hIa hr.2) g1
          obtain ⟨es', new, a1, a2, a3, a4⟩ := ih g2 g3 (run_inv hIa g1)
          refine ⟨.pollTask t :: es2 ++ es', new ++ new2, ?_, by rw [a2, hJ.log]; simp, a3, a4⟩
          rw [run_append, g1]; exact a1
      obtain ⟨es', new, a1, a2, a3, a4⟩ := this h4 h2 h3 hI
      refine ⟨.pollTask t :: es1 ++ es', new ++ new1, ?_, by rw [a2, e1]; simp, .inl (List.mem_append_right _ hm), a3, a4⟩
      rw [run_append, h1]; exact a1
    · have hn1 : NeedsPoll (.sub c i) s1.log := by rw [e1]; exact Due.needs ⟨hn, hm⟩
      obtain ⟨c', hy, hl⟩ := (hs.resolve_left hm).1
      have hc := h3.only hI hl
      subst hc
      obtain ⟨es', new, a1, a2, a3, a4, a5⟩ := ih _ hrun h2 h3 hn1
      refine ⟨.pollTask t :: es1 ++ es', new ++ new1, ?_, by rw [a2, e1]; simp, ?_, a4, a5⟩
      · rw [run_append, h1]; exact a1
      · rcases a3 with a3 | a3
        · exact .inl (List.mem_append_left _ a3)
        · right
          have := List.count_pos_iff.2 hy
          rw [List.count_append]; omega

/-- An item of a list that a task renders and that needs to be polled is polled, unless it is removed, by the time the
task has been polled `n / limit + 1` times, rounded up: `n` items have been inserted into the list so far. -/
theorem list_item_is_served (es : List (Event V S O)) (s s' : Sys V S O) (h : run init es = some s) (hr : Rest s)
    (t c i k : Nat) (l : LObj) (ho : s.objs[c]? = some (.list l)) (hi : ItemOf s t c i)
    (hn : NeedsPoll (.sub c i) s.log) (h' : Rounds t c i k s s') (hk : l.n + l.limit ≤ k * l.limit) :
    ∃ new, s'.log = new ++ s.log ∧ .polled (.sub c i) ∈ new := by
  obtain ⟨es', new, a1, a2, a3, -, a5⟩ := h'.count es h hr hi hn
  refine ⟨new, a2, ?_⟩
  rcases a3 with a3 | a3
  · exact a3
  obtain ⟨o, ho', hi'⟩ := hi.2.1
  rw [ho] at ho'; cases ho'
  obtain ⟨new', b1, b2⟩ := list_item_waits es es' s s' h hr c i l ho hi' hi.2.2 hn a1
  have : new' = new := List.append_cancel_right (b1.symm.trans a2)
  subst this
  rcases b2 with b2 | ⟨o, b2, b3⟩ | b2
  · exact b2
  · obtain ⟨o', c1, c2⟩ := a5.2.1
    rw [b2] at c1; cases c1
    exact absurd c2 b3
  · have := Nat.mul_le_mul_right l.limit a3
    omega

/-! ### A concrete case: the third item of `exList`, which waits since the list has run two tasks -/

/-- The task is polled three times. -/
def exRound (k : Nat) : List (Event Nat Nat (List Nat)) :=
  [.pollTask 0, .await] ++ (if k = 0 then [.ret none] else []) ++ [.ret none]

theorem exRound_view : (run init (exList ++ exRound 0)).map view =
      some ([], none, [.polled (.sub 0 2), .polled (.task 0),
      .woken (.task 0), .yielded 0, .polled (.sub 0 1), .polled (.sub 1 1), .polled (.sub 1 0),
      .polled (.sub 0 0), .polled (.task 0), .inserted 0 2, .inserted 0 1, .inserted 0 0], some 0, some 1,
      [(3, []), (2, [])]) ∧
    (run init (exList ++ exRound 0 ++ exRound 1)).map view =
      some ([], none, [.polled (.task 0), .polled (.sub 0 2), .polled (.task 0),
      .woken (.task 0), .yielded 0, .polled (.sub 0 1), .polled (.sub 1 1), .polled (.sub 1 0),
      .polled (.sub 0 0), .polled (.task 0), .inserted 0 2, .inserted 0 1, .inserted 0 0], some 0, some 1,
      [(3, []), (2, [])]) ∧
    (run init (exList ++ exRound 0 ++ exRound 1 ++ exRound 2)).map view =
      some ([], none, [.polled (.task 0), .polled (.task 0), .polled (.sub 0 2), .polled (.task 0),
      .woken (.task 0), .yielded 0, .polled (.sub 0 1), .polled (.sub 1 1), .polled (.sub 1 0),
      .polled (.sub 0 0), .polled (.task 0), .inserted 0 2, .inserted 0 1, .inserted 0 0], some 0, some 1,
      [(3, []), (2, [])]) := ⟨by rfl, by rfl, by rfl⟩

theorem ex_item {s : Sys Nat Nat (List Nat)} (h1 : s.child (.task 0) = some 0)
    (h3 : s.objs.map Obj.content = [(3, []), (2, [])]) (h4 : ∀ p, .returned p ∉ s.log) : ItemOf s 0 0 2 := by
  obtain ⟨objs, child, stack, waking, log⟩ := s
  simp only at h1 h3 h4
  simp only [List.map_eq_cons_iff, List.map_eq_nil_iff] at h3
  obtain ⟨o1, l, rfl, e1, o2, l', rfl, e2, rfl⟩ := h3
  exact ⟨h1, ⟨o1, rfl, o1.has_content e1 (by omega) (by simp)⟩, h4 _⟩

theorem exLimit : (run init exList).map (fun s => s.objs.map fun o : Obj Nat Nat (List Nat) =>
    match o with | .list l => some (l.n, l.limit) | .comb _ => none) = some [some (3, 2), none] := by rfl

example : ∃ (s s' : Sys Nat Nat (List Nat)) (l : LObj), run init exList = some s ∧ Rest s ∧
    s.objs[0]? = some (.list l) ∧ ItemOf s 0 0 2 ∧ NeedsPoll (.sub 0 2) s.log ∧ Rounds 0 0 2 3 s s' ∧
    l.n + l.limit ≤ 3 * l.limit := by
  obtain ⟨v1, v2, v3⟩ := exRound_view
  obtain ⟨s, hs, hv⟩ := Option.map_eq_some_iff.1 exList_view
  obtain ⟨s1, hs1, hv1⟩ := Option.map_eq_some_iff.1 v1
  obtain ⟨s2, hs2, hv2⟩ := Option.map_eq_some_iff.1 v2
  obtain ⟨s3, hs3, hv3⟩ := Option.map_eq_some_iff.1 v3
  rw [run_append, hs2] at hs3
  rw [run_append, hs1] at hs2
  rw [run_append, hs] at hs1
  have hl := exLimit
  simp only [hs, Option.map_some, Option.some.injEq] at hl
  simp only [view, Prod.mk.injEq] at hv hv1 hv2 hv3
  obtain ⟨a1, a2, a3, a4, a5, a6⟩ := hv
  obtain ⟨b1, b2, b3, b4, b5, b6⟩ := hv1
  obtain ⟨c1, c2, c3, c4, c5, c6⟩ := hv2
  obtain ⟨d1, d2, d3, d4, d5, d6⟩ := hv3
  have hl' : ∃ l, s.objs[0]? = some (.list l) ∧ l.n = 3 ∧ l.limit = 2 := by
    simp only [List.map_eq_cons_iff] at hl
    obtain ⟨o, os, h1, h2, -⟩ := hl
    cases o with
    | comb o => cases h2
    | list l =>
      simp only [Option.some.injEq, Prod.mk.injEq] at h2
      exact ⟨l, by simp [h1], h2.1, h2.2⟩
  obtain ⟨l, e1, e2, e3⟩ := hl'
  exact ⟨s, s3, l, hs, ⟨a1, a2⟩, e1, ex_item a4 a6 (by simp [a3]), by simp [a3, NeedsPoll],
    .cons hs1 ⟨b1, b2⟩ (ex_item b4 b6 (by simp [b3])) (.cons hs2 ⟨c1, c2⟩ (ex_item c4 c6 (by simp [c3]))
      (.cons hs3 ⟨d1, d2⟩ (ex_item d4 d6 (by simp [d3])) (.nil _))), by omega⟩

end Verif.Nested
