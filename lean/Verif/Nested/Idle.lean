import Verif.Nested.Fair
/-! The items of a list are polled only when there is a reason. -/
namespace Verif.Nested
open Verif.Comb
variable {V S O : Type}

/-- Items of list `c` were polled only when they had been woken since (or never polled), and had not returned. -/
def Sparse (c : Nat) : List Note → Prop
  | [] => True
  | x :: log => (∀ i, x = .polled (.sub c i) → NeedsPoll (.sub c i) log ∧ .returned (.sub c i) ∉ log) ∧ Sparse c log

theorem Sparse.split {c i : Nat} {b : List Note} : ∀ {a : List Note}, Sparse c (a ++ .polled (.sub c i) :: b) →
    NeedsPoll (.sub c i) b ∧ .returned (.sub c i) ∉ b
  | [], h => h.1 i rfl
  | _ :: a, h => Sparse.split (a := a) h.2

/-- The queue. -/
def QN (c : Nat) (l : LObj) (log : List Note) : Prop :=
  ∀ i ∈ l.queue, i ∈ l.gone ∨ (NeedsPoll (.sub c i) log ∧ .returned (.sub c i) ∉ log)

/-- The item that runs. -/
def RN (c : Nat) (l : LObj) (log : List Note) : Prop :=
  ∀ i, l.running = some i → .returned (.sub c i) ∉ log ∧ (l.again = true → NeedsPoll (.sub c i) log)

def PL (s : Sys V S O) : Prop :=
  ∀ (c : Nat) (l : LObj), s.objs[c]? = some (.list l) → QN c l s.log ∧ RN c l s.log ∧ Sparse c s.log

theorem needs_cons {p : Place} {log : List Note} (h : NeedsPoll p log) : ∀ {x : Note}, x ≠ .polled p → NeedsPoll p (x :: log)
  | .polled _, hx => ⟨fun he => hx (he ▸ rfl), h⟩
  | .woken _, _ => .inr h
  | .returned _, _ => h
  | .yielded _, _ => h
  | .inserted _ _, _ => h

/-- An entry that does not concern the list. -/
def Foreign (c : Nat) (x : Note) : Prop := ∀ i, x ≠ .polled (.sub c i) ∧ x ≠ .returned (.sub c i)

theorem QN.cons {c : Nat} {l : LObj} {log : List Note} (h : QN c l log) {x : Note} (hx : Foreign c x) : QN c l (x :: log) := by
  intro i hi
  refine (h i hi).imp_right fun ⟨h1, h2⟩ => ⟨needs_cons h1 (hx i).1, fun hm => ?_⟩
  rcases List.mem_cons.1 hm with hm | hm
  · exact (hx i).2 hm.symm
  · exact h2 hm

theorem RN.cons {c : Nat} {l : LObj} {log : List Note} (h : RN c l log) {x : Note} (hx : Foreign c x) : RN c l (x :: log) := by
  intro i hi
  obtain ⟨h1, h2⟩ := h i hi
  refine ⟨fun hm => ?_, fun ha => needs_cons (h2 ha) (hx i).1⟩
  rcases List.mem_cons.1 hm with hm | hm
  · exact (hx i).2 hm.symm
  · exact h1 hm

theorem Sparse.cons {c : Nat} {log : List Note} (h : Sparse c log) {x : Note} (hx : Foreign c x) : Sparse c (x :: log) :=
  ⟨fun i he => absurd he (hx i).1, h⟩

/-- Nothing happens to the lists. -/
theorem PL.cons {s s' : Sys V S O} (h : PL s) {x : Note} (ho : s'.objs = s.objs) (hl : s'.log = x :: s.log)
    (hx : ∀ c, Foreign c x) : PL s' := by
  intro c l hc
  rw [ho] at hc; rw [hl]
  obtain ⟨h1, h2, h3⟩ := h c l hc
  exact ⟨h1.cons (hx c), h2.cons (hx c), h3.cons (hx c)⟩

theorem PL.same {s s' : Sys V S O} (h : PL s) (ho : s'.objs = s.objs) (hl : s'.log = s.log) : PL s' := by
  intro c l hc
  rw [ho] at hc; rw [hl]
  exact h c l hc

/-- The `run` future goes on. -/
theorem go_PL {c : Nat} {l l' : LObj} {log : List Note} {w : Place} {r : Reply} (hl : LQ l) (h1 : QN c l log)
    (h3 : Sparse c log) (hg : l.go w = (l', r)) :
    (∀ i, r.polls = some i → QN c l' (.polled (.sub c i) :: log) ∧ RN c l' (.polled (.sub c i) :: log) ∧
      Sparse c (.polled (.sub c i) :: log)) ∧ (r.polls = none → QN c l' log ∧ RN c l' log) := by
  simp only [LObj.go] at hg
  split at hg
  · next q hn =>
    obtain ⟨rfl, rfl⟩ := Prod.mk.inj hg
    exact ⟨fun i hi => (by cases hi), fun _ => ⟨fun i hi => h1 i ((next_yield hn).2 i hi), fun i hi => (by cases hi)⟩⟩
  · next n hn =>
    obtain ⟨rfl, rfl⟩ := Prod.mk.inj hg
    exact ⟨fun i hi => (by cases hi), fun _ => ⟨fun i hi => (by cases hi), fun i hi => (by cases hi)⟩⟩
  · next j n q hn =>
    obtain ⟨rfl, rfl⟩ := Prod.mk.inj hg
    refine ⟨fun i hi => ?_, fun h => (by cases h)⟩
    cases hi
    obtain ⟨-, h4, h5⟩ := next_run hn
    have h6 := (List.nodup_cons.1 (hl.nd.sublist (next_suffix.2.2 _ _ _ hn).1.sublist)).1
    have hng : j ∉ l.gone := next_not_gone hn
    obtain ⟨h7, h8⟩ := (h1 j h4).resolve_left hng
    refine ⟨fun i hi => ?_, fun i hi => ?_, fun i hi => ?_, h3⟩
    · refine (h1 i (h5 i hi)).imp_right fun ⟨a, b⟩ => ⟨needs_cons a ?_, by simpa using b⟩
      intro he
      cases he
      exact h6 hi
    · cases hi
      exact ⟨by simpa using h8, fun h => (by cases h)⟩
    · cases hi; exact ⟨h7, h8⟩
where
  next_not_gone {gone : List Nat} : ∀ {n j n' : Nat} {q q' : List Nat}, next gone n q = .run j n' q' → j ∉ gone
    | 0, _, _, q, _, h => by simp [next] at h
    | n + 1, _, _, [], _, h => by simp [next] at h
    | n + 1, j, n', k :: q, q', h => by
      simp only [next] at h
      split at h
      · exact next_not_gone h
      · next hk =>
        simp only [Next.run.injEq] at h
        exact h.1 ▸ hk

theorem back_PL {c : Nat} {l : LObj} {log : List Note} (h1 : QN c l log) (h2 : RN c l log) (hl : LOk l) {j : Nat}
    (hr : l.running = some j) (b : Bool) (log' : List Note)
    (hlog : log' = if b then .returned (.sub c j) :: log else log) : QN c (l.back j b) log' := by
  obtain ⟨h3, h4⟩ := h2 j hr
  intro i hi
  cases b with
  | true =>
    simp only [if_true] at hlog
    subst hlog
    have hi : i ∈ l.queue := hi
    refine (h1 i hi).imp_right fun ⟨a, b⟩ => ⟨a, fun hm => ?_⟩
    rcases List.mem_cons.1 hm with hm | hm
    · simp only [Note.returned.injEq, Place.sub.injEq, true_and] at hm
      exact (hl.run j hr).2 (hm ▸ hi)
    · exact b hm
  | false =>
    simp only [Bool.false_eq_true, if_false] at hlog
    subst hlog
    simp only [LObj.back, Bool.false_eq_true, if_false] at hi ⊢
    split at hi
    · next hc =>
      rw [if_pos hc]
      rcases List.mem_append.1 hi with hi | hi
      · exact h1 i hi
      · rw [List.mem_singleton.1 hi]
        exact .inr ⟨h4 hc.1, h3⟩
    · next hc => rw [if_neg hc]; exact h1 i hi

/-- The list that has been asked has answered. -/
theorem answer_PL {s : Sys V S O} {id : Nat} {o' : Obj V S O} {r : Reply} {o : Obj V S O} (ho : s.objs[id]? = some o)
    (h : ∀ (c : Nat) (l : LObj), c ≠ id → s.objs[c]? = some (.list l) → QN c l s.log ∧ RN c l s.log ∧ Sparse c s.log)
    (hid : ∀ l', o' = .list l' → Sparse id s.log ∧ (∀ i, r.polls = some i → QN id l' (.polled (.sub id i) :: s.log) ∧
      RN id l' (.polled (.sub id i) :: s.log) ∧ Sparse id (.polled (.sub id i) :: s.log)) ∧
      (r.polls = none → QN id l' s.log ∧ RN id l' s.log)) :
    PL (answer { s with objs := s.objs.set id o' } id r) := by
  have hf : ∀ (c i : Nat), c ≠ id → Foreign c (.polled (.sub id i)) := by
    intro c i hc j
    simp only [ne_eq, Note.polled.injEq, Place.sub.injEq, reduceCtorEq, not_false_eq_true, and_true]
    exact fun hh => hc hh.1.symm
  have hf' : ∀ c d, Foreign c (.yielded d) := fun c d j => by simp
  intro c l hc
  rw [answer_objs] at hc
  simp only at hc
  rcases set_get hc with ⟨rfl, rfl⟩ | ⟨hne, hc⟩
  · obtain ⟨h1, h2, h3⟩ := hid l rfl
    simp only [answer]
    split
    · next i hp => exact h2 i hp
    · next hp =>
      obtain ⟨a, b⟩ := h3 hp
      split
      · split
        · exact ⟨a, b, h1⟩
        · split
          · exact ⟨a.cons (hf' _ _), b.cons (hf' _ _), h1.cons (hf' _ _)⟩
          · exact ⟨a, b, h1⟩
      · exact ⟨a, b, h1⟩
  · have hne : c ≠ id := by first | exact hne | exact Ne.symm hne
    obtain ⟨a, b, h1⟩ := h c l hne hc
    simp only [answer]
    split
    · next i hp => exact ⟨a.cons (hf _ _ hne), b.cons (hf _ _ hne), h1.cons (hf _ _ hne)⟩
    · next hp =>
      split
      · split
        · exact ⟨a, b, h1⟩
        · split
          · exact ⟨a.cons (hf' _ _), b.cons (hf' _ _), h1.cons (hf' _ _)⟩
          · exact ⟨a, b, h1⟩
      · exact ⟨a, b, h1⟩

/-- A list changes without being polled. -/
theorem PL.set {s s' : Sys V S O} (h : PL s) {d : Nat} {l' : LObj} {o : Obj V S O} (hd : s.objs[d]? = some o)
    (ho : s'.objs = s.objs.set d (.list l')) (new : List Note) (hl : s'.log = new ++ s.log)
    (hx : ∀ x ∈ new, ∀ c, Foreign c x) (h1 : QN d l' s'.log) (h2 : RN d l' s'.log) (h3 : Sparse d s.log) : PL s' := by
  intro c l hc
  rw [ho] at hc
  rcases set_get hc with ⟨rfl, he⟩ | ⟨hne, hc⟩
  · cases he
    refine ⟨h1, h2, ?_⟩
    rw [hl]
    clear hl h1 h2
    induction new with
    | nil => exact h3
    | cons x new ih => exact (ih fun y hy => hx y (.tail _ hy)).cons (hx x (.head _) _)
  · obtain ⟨a, b, e⟩ := h c l hc
    rw [hl]
    clear hl h1 h2
    induction new with
    | nil => exact ⟨a, b, e⟩
    | cons x new ih =>
      obtain ⟨a', b', e'⟩ := ih fun y hy => hx y (.tail _ hy)
      exact ⟨a'.cons (hx x (.head _) _), b'.cons (hx x (.head _) _), e'.cons (hx x (.head _) _)⟩

theorem push_PL {c : Nat} {l : LObj} {log : List Note} (h : QN c l log) {i : Nat}
    (hi : i ∈ l.gone ∨ (NeedsPoll (.sub c i) log ∧ .returned (.sub c i) ∉ log)) : QN c (l.push i).1 log := by
  intro j hj
  simp only [LObj.push, List.mem_append, List.mem_singleton] at hj
  rcases hj with hj | rfl
  · exact h j hj
  · exact hi

theorem never_polled {p : Place} : ∀ {log : List Note}, .polled p ∉ log → NeedsPoll p log
  | [], _ => trivial
  | _ :: _, h => needs_cons (never_polled fun hm => h (.tail _ hm)) fun he => h (he ▸ .head _)

theorem no_notes {s : Sys V S O} (hI : Inv s) (hK : Known s) {c i : Nat}
    (h : ∀ o : Obj V S O, s.objs[c]? = some o → o.isList ∧ o.size ≤ i) :
    .polled (.sub c i) ∉ s.log ∧ .returned (.sub c i) ∉ s.log := by
  refine ⟨fun hm => ?_, fun hm => ?_⟩
  · obtain ⟨o, h1, h2⟩ := hK.seen c i hm
    have := (h o h1).2
    omega
  · have h1 := hI.logB c i hm
    obtain ⟨o, ho⟩ : ∃ o, s.objs[c]? = some o := ⟨_, List.getElem?_eq_getElem h1⟩
    have h2 := (hI.core c o ho (by simp) (.inl (h o ho).1)).bnd i hm
    have := (h o ho).2
    omega

theorem sparse_none {c : Nat} : ∀ {log : List Note}, (∀ i, .polled (.sub c i) ∉ log) → Sparse c log
  | [], _ => trivial
  | _ :: _, h => ⟨fun i he => absurd (he ▸ .head _) (h i), sparse_none fun i hm => h i (.tail _ hm)⟩

/-- A new list or combinator. -/
theorem PL.append {s s' : Sys V S O} (h : PL s) (hI : Inv s) (hK : Known s) {o : Obj V S O} (ho : s'.objs = s.objs ++ [o])
    (hl : s'.log = s.log) (hnew : ∀ l, o = .list l → l.queue = [] ∧ l.running = none) : PL s' := by
  intro c l hc
  rw [ho] at hc; rw [hl]
  by_cases hlt : c < s.objs.length
  · rw [List.getElem?_append_left hlt] at hc
    exact h c l hc
  · have hn : s.objs[c]? = none := List.getElem?_eq_none (Nat.le_of_not_lt hlt)
    rw [List.getElem?_append_right (Nat.le_of_not_lt hlt)] at hc
    have hol : o = .list l := by
      cases hk : c - s.objs.length with
      | zero => rw [hk] at hc; simpa using hc
      | succ k => rw [hk] at hc; simp at hc
    obtain ⟨h1, h2⟩ := hnew l hol
    refine ⟨fun i hi => (by rw [h1] at hi; cases hi), fun i hi => (by rw [h2] at hi; cases hi), sparse_none fun i => ?_⟩
    exact (no_notes hI hK fun o' h' => (by rw [hn] at h'; cases h')).1

theorem step_PL {s s' : Sys V S O} (hI : Inv s) (hK : Known s) (h : PL s) {e : Event V S O} (hs : step s e = some s') :
    PL s' := by
  have hok : ∀ (c : Nat) (l : LObj), s.objs[c]? = some (.list l) → LOk l :=
    fun c l ho => (hI.core c _ ho (by simp) (.inl trivial)).ok
  cases e with
  | pollTask t =>
    simp only [step] at hs
    split at hs
    · cases hs; exact h.cons rfl rfl (fun c i => by simp)
    · cases hs
  | create g n =>
    simp only [step] at hs
    split at hs
    · cases hs; exact h.append hI hK rfl rfl (fun l hl => by cases hl)
    · cases hs
  | cancel =>
    simp only [step] at hs
    split at hs
    · cases hs; exact h.same rfl rfl
    · cases hs
  | await =>
    simp only [step] at hs
    split at hs
    · next f fs hst hw =>
      split at hs
      · next id hid =>
        split at hs
        · next s1 r h1 =>
          cases hs
          obtain ⟨o, o', ho, hso, rfl⟩ := stepObj_some h1
          refine answer_PL (s := { s with stack := ⟨f.place, true⟩ :: fs }) ho (fun c l _ hc => h c l hc) ?_
          rintro l' rfl
          cases o with
          | comb o => obtain ⟨c', out, -, -, h2, -⟩ := Obj.step_comb hso; cases h2
          | list l =>
            obtain ⟨l1, h3, h4⟩ := Obj.step_list hso
            cases h4
            simp only [LObj.step] at h3
            split at h3
            · obtain ⟨a, b, e⟩ := h id l ho
              obtain ⟨g1, g2⟩ := go_PL (hok id l ho).toLQ a e (Option.some.inj h3)
              exact ⟨e, g1, g2⟩
            · cases h3
        · cases hs
      · cases hs
    · cases hs
  | ret x =>
    simp only [step] at hs
    split at hs
    · split at hs
      · next f fs hst hw hc =>
        generalize hs0 : (if x.isSome = true then
          { s with child := update s.child f.place none, log := .returned f.place :: s.log } else s) = s0 at hs
        have hobjs : s0.objs = s.objs := by subst hs0; cases x.isSome <;> rfl
        have hlog : s0.log = if x.isSome then .returned f.place :: s.log else s.log := by subst hs0; cases x.isSome <;> rfl
        split at hs
        · next id j f' fs' hf =>
          split at hs
          · next s1 r h1 =>
            cases hs
            obtain ⟨o, o', ho, hso, rfl⟩ := stepObj_some h1
            have ho' : s.objs[id]? = some o := hobjs ▸ ho
            rw [hf] at hlog
            refine answer_PL (s := { s0 with stack := f' :: fs' }) ho (fun c l hne hc => ?_) ?_
            · have hc : s.objs[c]? = some (.list l) := hobjs ▸ hc
              obtain ⟨a, b, e⟩ := h c l hc
              show QN c l s0.log ∧ RN c l s0.log ∧ Sparse c s0.log
              rw [hlog]
              split
              · have hfo : Foreign c (.returned (.sub id j)) := fun i => by
                  simp only [ne_eq, reduceCtorEq, not_false_eq_true, Note.returned.injEq, Place.sub.injEq, true_and]
                  exact fun hh => hne hh.1.symm
                exact ⟨a.cons hfo, b.cons hfo, e.cons hfo⟩
              · exact ⟨a, b, e⟩
            · rintro l' rfl
              cases o with
              | comb o => obtain ⟨c', out, -, -, h2, -⟩ := Obj.step_comb hso; cases h2
              | list l =>
                obtain ⟨l1, h3, h4⟩ := Obj.step_list hso
                cases h4
                simp only [LObj.step] at h3
                split at h3
                · next hrun =>
                  obtain ⟨a, b, e⟩ := h id l ho'
                  have hq := back_PL a b (hok id l ho') hrun x.isSome s0.log hlog
                  have e' : Sparse id s0.log := by
                    rw [hlog]
                    split
                    · exact ⟨fun i he => (by cases he), e⟩
                    · exact e
                  obtain ⟨g1, g2⟩ := go_PL (back_list (hok id l ho') hrun x.isSome).1 hq e' (Option.some.inj h3)
                  exact ⟨e', g1, g2⟩
                · cases h3
          · cases hs
        · cases hs
        · next t hf =>
          cases hs
          rw [hf] at hlog
          split at hlog
          · exact h.cons hobjs hlog (fun c i => by simp)
          · exact h.same hobjs hlog
      · cases hs
    · cases hs
  | newList limit =>
    simp only [step] at hs
    split at hs
    · cases hs; exact h.append hI hK rfl rfl (fun l hl => by cases hl; exact ⟨rfl, rfl⟩)
    · cases hs
  | insert d =>
    simp only [step] at hs
    split at hs
    · next l ho hw =>
      cases hs
      obtain ⟨a, b, e⟩ := h d l ho
      have hf : ∀ c, Foreign c (.inserted d l.n) := fun c i => by simp
      refine h.set ho rfl [.inserted d l.n] rfl (by simpa using hf) ?_ ?_ e
      · have a' : QN d { l with n := l.n + 1 } (.inserted d l.n :: s.log) := a.cons (hf d)
        obtain ⟨h1, h2⟩ := no_notes hI hK (c := d) (i := l.n) (fun o ho' => by
          rw [ho] at ho'; cases ho'; exact ⟨trivial, Nat.le_refl _⟩)
        exact push_PL a' (.inr ⟨never_polled (by simpa using h1), by simpa using h2⟩)
      · exact b.cons (hf d)
    · cases hs
  | remove d j =>
    simp only [step] at hs
    split at hs
    · next l ho hw =>
      obtain ⟨a, b, e⟩ := h d l ho
      have a' : QN d { l with gone := j :: l.gone } s.log := fun i hi => (a i hi).imp_left (.tail _)
      split at hs
      · split at hs
        · cases hs
          exact h.set ho rfl [] rfl (by simp) a' b e
        · cases hs
          exact h.set ho rfl [] rfl (by simp) (push_PL a' (.inl (.head _))) b e
      · cases hs
    · cases hs
  | render d =>
    simp only [step] at hs
    split at hs
    · next f fs l hst hw ho =>
      obtain ⟨a, b, e⟩ := h d l ho
      split at hs
      · cases hs
        exact h.set ho rfl [] rfl (by simp) a b e
      · cases hs
    · cases hs
  | wake p =>
    simp only [step] at hs
    split at hs
    · cases hs; exact h.same rfl rfl
    · cases hs
  | propagate =>
    simp only [step] at hs
    split at hs
    · cases hs
    · cases hs; exact h.cons rfl rfl (fun c i => by simp)
    · next id j hw =>
      have hf : ∀ c, Foreign c (.woken (.sub id j)) := fun c i => by simp
      split at hs
      · next s1 r h1 =>
        cases hs
        obtain ⟨o, o', ho, hso, rfl⟩ := stepObj_some h1
        have ho : s.objs[id]? = some o := ho
        cases o with
        | comb o =>
          obtain ⟨c', out, -, -, rfl, -⟩ := Obj.step_comb hso
          intro c l hc
          rcases set_get hc with ⟨-, h2⟩ | ⟨-, hc⟩
          · cases h2
          · obtain ⟨a, b, e⟩ := h c l hc
            exact ⟨a.cons (hf c), b.cons (hf c), e.cons (hf c)⟩
        | list l =>
          obtain ⟨l', h3, rfl⟩ := Obj.step_list hso
          obtain ⟨a, b, e⟩ := h id l ho
          have hcore := hI.core id _ ho (by simp) (.inl trivial)
          simp only [LObj.step] at h3
          split at h3
          · next hj =>
            split at h3
            · cases h3
              exact h.set ho rfl [.woken (.sub id j)] rfl (by simpa using hf) (a.cons (hf _)) (b.cons (hf _)) e
            · next hc =>
              split at h3
              · next hrun =>
                cases h3
                refine h.set ho rfl [.woken (.sub id j)] rfl (by simpa using hf) (a.cons (hf _)) ?_ e
                intro i hi
                have hi : l.running = some i := hi
                rw [hrun] at hi; cases hi
                exact ⟨by simpa using (b j hrun).1, fun _ => .inl rfl⟩
              · cases h3
                refine h.set ho rfl [.woken (.sub id j)] rfl (by simpa using hf) (push_PL (a.cons (hf _)) ?_) (b.cons (hf _)) e
                refine .inr ⟨.inl rfl, fun hm => hc (.inr (.inl ?_))⟩
                exact (hcore.fin j hj).2 (by simpa using hm)
          · cases h3
      · cases hs

theorem run_PL {s s' : Sys V S O} (hI : Inv s) (hK : Known s) (h : PL s) {es : List (Event V S O)}
    (hs : run s es = some s') : PL s' := by
  induction es generalizing s with
  | nil => cases hs; exact h
  | cons e es ih =>
    simp only [run] at hs
    split at hs
    · next s1 h1 => exact ih (step_inv hI h1) (step_known hI hK h1) (step_PL hI hK h h1) hs
    · cases hs

/-- The items of a list are polled only when they have a reason to be: whenever one was polled, it had been woken since its
previous poll or had never been polled, and it had not returned. -/
theorem list_polls_only_woken (es : List (Event V S O)) (s : Sys V S O) (h : run init es = some s) (c i : Nat) (l : LObj)
    (ho : s.objs[c]? = some (.list l)) (later earlier : List Note) (hl : s.log = later ++ .polled (.sub c i) :: earlier) :
    NeedsPoll (.sub c i) earlier ∧ .returned (.sub c i) ∉ earlier := by
  have hP : PL s := run_PL init_inv init_known (fun c l hc => by simp [init] at hc) h
  have h1 := (hP c l ho).2.2
  rw [hl] at h1
  exact h1.split

/-! ### items that have been removed -/

/-- Item `i` of list `c` has been removed; it has been polled `N` times. -/
def SG (c i N : Nat) (s : Sys V S O) : Prop :=
  s.log.count (.polled (.sub c i)) = N ∧ ∃ l, s.objs[c]? = some (.list l) ∧ i ∈ l.gone

theorem SG.set {c i N : Nat} {s s' : Sys V S O} (h : SG c i N s) {d : Nat} {o o' : Obj V S O} (hd : s.objs[d]? = some o)
    (ho : s'.objs = s.objs.set d o') (hl : s'.log.count (.polled (.sub c i)) = s.log.count (.polled (.sub c i)))
    (hg : ∀ l, o = .list l → ∃ l', o' = .list l' ∧ ∀ j ∈ l.gone, j ∈ l'.gone) : SG c i N s' := by
  obtain ⟨h1, l, h2, h3⟩ := h
  refine ⟨hl.trans h1, ?_⟩
  rw [ho]
  by_cases he : d = c
  · subst he
    rw [hd] at h2; cases h2
    obtain ⟨l', rfl, h4⟩ := hg l rfl
    exact ⟨l', get_set hd, h4 i h3⟩
  · exact ⟨l, by rw [List.getElem?_set_ne he]; exact h2, h3⟩

theorem SG.same {c i N : Nat} {s s' : Sys V S O} (h : SG c i N s) {new : List (Obj V S O)} (ho : s'.objs = s.objs ++ new)
    (hl : s'.log.count (.polled (.sub c i)) = s.log.count (.polled (.sub c i))) : SG c i N s' := by
  obtain ⟨h1, l, h2, h3⟩ := h
  exact ⟨hl.trans h1, l, by rw [ho]; exact append_some h2, h3⟩

theorem go_gone {l l' : LObj} {w : Place} {r : Reply} (h : l.go w = (l', r)) :
    l'.gone = l.gone ∧ ∀ i, r.polls = some i → i ∉ l.gone := by
  simp only [LObj.go] at h
  split at h
  · obtain ⟨rfl, rfl⟩ := Prod.mk.inj h; exact ⟨rfl, fun i hi => (by cases hi)⟩
  · obtain ⟨rfl, rfl⟩ := Prod.mk.inj h; exact ⟨rfl, fun i hi => (by cases hi)⟩
  · next j n q hn =>
    obtain ⟨rfl, rfl⟩ := Prod.mk.inj h
    refine ⟨rfl, fun i hi => ?_⟩
    cases hi
    exact go_PL.next_not_gone hn

theorem step_gone {l l' : LObj} {e : Ask V} {r : Reply} (h : l.step e = some (l', r)) :
    l'.gone = l.gone ∧ ((∀ j, e ≠ .wake j) → ∀ i, r.polls = some i → i ∉ l.gone) := by
  cases e with
  | poll w =>
    simp only [LObj.step] at h
    split at h
    · have := go_gone (Option.some.inj h); exact ⟨this.1, fun _ => this.2⟩
    · cases h
  | back j x w =>
    simp only [LObj.step] at h
    split at h
    · have := go_gone (Option.some.inj h)
      have hb : (l.back j x.isSome).gone = l.gone := by
        simp only [LObj.back]
        split
        · rfl
        · split <;> rfl
      rw [hb] at this
      exact ⟨this.1, fun _ => this.2⟩
    · cases h
  | wake j =>
    refine ⟨?_, fun h => absurd rfl (h j)⟩
    simp only [LObj.step] at h
    split at h
    · split at h
      · cases h; rfl
      · split at h <;> cases h <;> rfl
    · cases h

theorem SG.answer {c i N : Nat} {s : Sys V S O} (h : SG c i N s) {id : Nat} {e : Ask V} (he : ∀ j, e ≠ .wake j)
    {s1 : Sys V S O} {r : Reply} (hs : stepObj s id e = some (s1, r)) : SG c i N (answer s1 id r) := by
  obtain ⟨o, o', ho, hs, rfl⟩ := stepObj_some hs
  refine h.set ho answer_objs ?_ ?_
  · simp only [Nested.answer]
    split
    · next j hp =>
      have hne : Note.polled (.sub id j) ≠ .polled (.sub c i) := by
        intro heq
        cases heq
        obtain ⟨-, l, h2, h3⟩ := h
        rw [ho] at h2; cases h2
        obtain ⟨l', h4, -⟩ := Obj.step_list hs
        exact (step_gone h4).2 he i hp h3
      simp only [List.count_cons, beq_iff_eq, if_neg hne, Nat.add_zero]
    · split
      · split
        · rfl
        · split
          · simp
          · rfl
      · rfl
  · rintro l rfl
    obtain ⟨l', h4, rfl⟩ := Obj.step_list hs
    exact ⟨l', rfl, fun j hj => (step_gone h4).1 ▸ hj⟩

theorem step_SG {c i N : Nat} {s s' : Sys V S O} (h : SG c i N s) {e : Event V S O} (hs : step s e = some s') :
    SG c i N s' := by
  cases e with
  | pollTask t =>
    simp only [step] at hs
    split at hs
    · cases hs; exact h.same (List.append_nil _).symm (by simp)
    · cases hs
  | create g n =>
    simp only [step] at hs
    split at hs
    · cases hs; exact h.same rfl rfl
    · cases hs
  | cancel =>
    simp only [step] at hs
    split at hs
    · cases hs; exact h.same (List.append_nil _).symm rfl
    · cases hs
  | await =>
    simp only [step] at hs
    split at hs
    · next f fs hst hw =>
      split at hs
      · split at hs
        · next s1 r h1 =>
          cases hs
          have h0 : SG c i N { s with stack := ⟨f.place, true⟩ :: fs } := h
          exact h0.answer (by simp) h1
        · cases hs
      · cases hs
    · cases hs
  | ret x =>
    simp only [step] at hs
    split at hs
    · split at hs
      · next f fs hst hw hc =>
        generalize hs0 : (if x.isSome = true then
          { s with child := update s.child f.place none, log := .returned f.place :: s.log } else s) = s0 at hs
        have h0 : SG c i N s0 := by
          subst hs0
          split
          · exact h.same (List.append_nil _).symm (by simp)
          · exact h
        split at hs
        · next id j f' fs' hf =>
          split at hs
          · next s1 r h1 =>
            cases hs
            have h2 : SG c i N { s0 with stack := f' :: fs' } := h0
            exact h2.answer (by simp) h1
          · cases hs
        · cases hs
        · cases hs; exact h0
      · cases hs
    · cases hs
  | newList limit =>
    simp only [step] at hs
    split at hs
    · cases hs; exact h.same rfl rfl
    · cases hs
  | insert d =>
    simp only [step] at hs
    split at hs
    · next l ho hw =>
      cases hs
      exact h.set ho rfl (by simp) (fun l' hl => by cases hl; exact ⟨_, rfl, fun _ h => h⟩)
    · cases hs
  | remove d j =>
    simp only [step] at hs
    split at hs
    · next l ho hw =>
      split at hs
      · split at hs
        · cases hs; exact h.set ho rfl rfl (fun l' hl => by cases hl; exact ⟨_, rfl, fun _ h => .tail _ h⟩)
        · cases hs; exact h.set ho rfl rfl (fun l' hl => by cases hl; exact ⟨_, rfl, fun _ h => .tail _ h⟩)
      · cases hs
    · cases hs
  | render d =>
    simp only [step] at hs
    split at hs
    · next f fs l hst hw ho =>
      split at hs
      · cases hs; exact h.set ho rfl rfl (fun l' hl => by cases hl; exact ⟨_, rfl, fun _ h => h⟩)
      · cases hs
    · cases hs
  | wake p =>
    simp only [step] at hs
    split at hs
    · cases hs; exact h.same (List.append_nil _).symm rfl
    · cases hs
  | propagate =>
    simp only [step] at hs
    split at hs
    · cases hs
    · cases hs; exact h.same (List.append_nil _).symm (by simp)
    · next id j hw =>
      split at hs
      · next s1 r h1 =>
        cases hs
        obtain ⟨o, o', ho, hso, rfl⟩ := stepObj_some h1
        refine h.set ho rfl (by simp) ?_
        rintro l rfl
        obtain ⟨l', h4, rfl⟩ := Obj.step_list hso
        exact ⟨l', rfl, fun k hk => (step_gone h4).1 ▸ hk⟩
      · cases hs

theorem run_SG {c i N : Nat} {s s' : Sys V S O} (h : SG c i N s) {es : List (Event V S O)}
    (hs : run s es = some s') : SG c i N s' := by
  induction es generalizing s with
  | nil => cases hs; exact h
  | cons e es ih =>
    simp only [run] at hs
    split at hs
    · next s1 h1 => exact ih (step_SG h h1) hs
    · cases hs

/-- An item that is removed from its list is not polled any more. -/
theorem list_removed_not_polled (s s' : Sys V S O) (c i : Nat) (es : List (Event V S O))
    (h : run s (.remove c i :: es) = some s') :
    s'.log.count (.polled (.sub c i)) = s.log.count (.polled (.sub c i)) := by
  simp only [run] at h
  split at h
  · next s1 h1 =>
    have hg : SG c i (s.log.count (.polled (.sub c i))) s1 := by
      simp only [step] at h1
      split at h1
      · next l ho hw =>
        split at h1
        · split at h1
          · cases h1; exact ⟨rfl, _, get_set ho, .head _⟩
          · cases h1; exact ⟨rfl, _, get_set ho, .head _⟩
        · cases h1
      · cases h1
    exact (run_SG hg h).1
  · cases h

/-! ### Concrete cases -/

/-- In `exListPoll` the first item is polled a second time, after it has been woken. -/
example : ∃ (s : Sys Nat Nat (List Nat)) (l : LObj) (later earlier : List Note),
    run init (exList ++ exListWoken ++ exListPoll) = some s ∧ s.objs[0]? = some (.list l) ∧
    s.log = later ++ .polled (.sub 0 0) :: earlier ∧ .polled (.sub 0 0) ∈ earlier := by
  obtain ⟨s, hs, hv⟩ := Option.map_eq_some_iff.1 exListPoll_view
  simp only [view, Prod.mk.injEq] at hv
  obtain ⟨a1, a2, a3, a4, a5, a6⟩ := hv
  have hl : ((run init (exList ++ exListWoken ++ exListPoll)).bind fun s => s.objs[0]?).map
      (fun o : Obj Nat Nat (List Nat) => match o with | .list _ => true | .comb _ => false) = some true := by rfl
  simp only [hs, Option.bind_some, Option.map_eq_some_iff] at hl
  obtain ⟨o, h1, h2⟩ := hl
  cases o with
  | comb o => cases h2
  | list l => exact ⟨s, l, [.woken (.task 0), .yielded 0, .polled (.sub 1 1)], _, hs, h1, a3, by simp⟩

/-- The third item, which waits, is removed; the task is polled, and polls no item. -/
example : (run init (exList ++ .remove 0 2 :: [.pollTask 0, .await, .ret none])).map view =
    some ([], none, [.polled (.task 0),
      .woken (.task 0), .yielded 0, .polled (.sub 0 1), .polled (.sub 1 1), .polled (.sub 1 0),
      .polled (.sub 0 0), .polled (.task 0), .inserted 0 2, .inserted 0 1, .inserted 0 0], some 0, some 1,
      [(3, [2]), (2, [])]) := by rfl

end Verif.Nested
