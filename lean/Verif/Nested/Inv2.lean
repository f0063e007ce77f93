import Verif.Nested.Inv
/-! The invariant is preserved by every event. -/
namespace Verif.Nested
open Verif.Comb
variable {V S O : Type}

theorem not_top_of_nil {s : Sys V S O} (h : s.stack = []) (q : Place) : ¬ Top s q := by
  rintro ⟨fs, hf⟩; rw [h] at hf; cases hf

theorem pollTask_inv {s : Sys V S O} (h : Inv s) (t : Nat) (h0 : s.stack = []) :
    Inv { s with stack := [⟨.task t, false⟩], log := .polled (.task t) :: s.log } := by
  refine ⟨h.bound, h.inj, ?_, ⟨⟨t, rfl⟩, trivial⟩, by simp [places], ?_, ?_⟩
  · intro c i hm; exact h.logB c i (by simpa using hm)
  · intro c o ho _ hk
    refine (h.core c o ho (by simp) hk).mono ?_ (fun _ => by simp) (fun _ hn => hn.2)
    intro i _ hm
    rw [h0] at hm; simp [places] at hm
  · intro q c o hq ho _
    have h1 := h.link q c o hq ho (by simp)
    refine ⟨?_, .inr (h1.par.resolve_left (not_top_of_nil h0 q))⟩
    intro ha
    rcases h1.pend ha with h2 | h2 | h2
    · by_cases he : Place.task t = q
      · exact .inr (.inr ⟨[], by rw [he]⟩)
      · exact .inl ⟨he, h2⟩
    · exact .inr (.inl h2)
    · exact absurd h2 (not_top_of_nil h0 q)

theorem update_eq {child : Place → Option Nat} {p q : Place} {x : Option Nat} :
    update child p x q = if q = p then x else child q := rfl

/-- The innermost block drops what it awaits. -/
theorem cancel_inv {s : Sys V S O} (h : Inv s) {f : Frame} {fs : List Frame} (hst : s.stack = f :: fs) :
    Inv { s with child := update s.child f.place none } := by
  have hnd := h.nodup
  rw [hst] at hnd
  simp only [places, List.map_cons, List.nodup_cons] at hnd
  have hch : ∀ q c, update s.child f.place none q = some c → s.child q = some c := by
    intro q c hq
    simp only [update_eq] at hq
    split at hq
    · cases hq
    · exact hq
  refine ⟨?_, ?_, h.logB, ?_, h.nodup, ?_, ?_⟩
  · intro q c hq; exact h.bound q c (hch q c hq)
  · intro q q' c h1 h2; exact h.inj q q' c (hch q c h1) (hch q' c h2)
  · refine h.links.congr ?_ fun id i _ o ho => ⟨o, ho, rfl⟩
    intro q hq
    simp only [hst, List.tail_cons] at hq
    simp only [update_eq, ite_eq_right_iff]
    rintro rfl
    exact absurd hq hnd.1
  · intro c o ho _ hk
    exact (h.core c o ho (by simp) (hk.imp_right fun ⟨q, hq⟩ => ⟨q, hch q c hq⟩)).mono (fun _ _ h => h)
      (fun _ => .rfl) (fun _ h => h)
  · intro q c o hq ho _
    have := h.link q c o (hch q c hq) ho (by simp)
    exact ⟨this.pend, this.par⟩

/-- A combinator or list comes into being, and is perhaps awaited by the innermost block at once. -/
theorem new_inv {s : Sys V S O} (h : Inv s) (o : Obj V S O) (hok : o.Ok) (hidle : o.busy = none)
    (hf : ∀ i, ¬ o.fin i) (ha : ∀ i, i < o.size → i ∈ o.awake) : Inv { s with objs := s.objs ++ [o] } := by
  have hold : ∀ c (o' : Obj V S O), c < s.objs.length → (s.objs ++ [o])[c]? = some o' → s.objs[c]? = some o' := by
    intro c o hc ho
    rwa [List.getElem?_append_left hc] at ho
  refine ⟨?_, h.inj, ?_, ?_, h.nodup, ?_, ?_⟩
  · intro q c hq
    have := h.bound q c hq
    simp only [List.length_append]; omega
  · intro c i hm
    have := h.logB c i hm
    simp only [List.length_append]; omega
  · refine h.links.congr (fun _ _ => rfl) ?_
    intro id i _ o' ho
    have hid : id < s.objs.length := (List.getElem?_eq_some_iff.1 ho).1
    exact ⟨o', by simp only [List.getElem?_append_left hid]; exact ho, rfl⟩
  · intro c o' ho _ hk
    simp only at ho
    by_cases hc : c < s.objs.length
    · exact (h.core c o' (hold c o' hc ho) (by simp) hk).mono (fun _ _ h => h) (fun _ => .rfl) (fun _ h => h)
    · rw [List.getElem?_append_right (Nat.le_of_not_lt hc)] at ho
      obtain rfl : o = o' := by
        cases hx : c - s.objs.length with
        | zero => rw [hx] at ho; simpa using ho
        | succ k => rw [hx] at ho; simp at ho
      have hr : ∀ i, .returned (.sub c i) ∉ s.log := fun i hm => hc (h.logB c i hm)
      exact ⟨hok, fun i hi => (by rw [hidle] at hi; cases hi), fun i _ => ⟨fun h => absurd h (hf i), fun h => absurd h (hr i)⟩,
        fun i hm => absurd hm (hr i), fun i hi _ _ _ => .inl (ha i hi)⟩
  · intro q c o' hq ho _
    have := h.link q c o' hq (hold c o' (h.bound q c hq) ho) (by simp)
    exact ⟨this.pend, this.par⟩

/-- The innermost block awaits something that is idle and that nobody awaits. -/
theorem attach_inv {s : Sys V S O} (h : Inv s) {f : Frame} {fs : List Frame} (hst : s.stack = f :: fs) {c : Nat}
    {o : Obj V S O} (ho : s.objs[c]? = some o) (hcore : Core s c o) (hfree : ∀ q, s.child q ≠ some c) :
    Inv { s with child := update s.child f.place (some c), stack := ⟨f.place, false⟩ :: fs } := by
  have hnd := h.nodup
  rw [hst] at hnd
  simp only [places, List.map_cons, List.nodup_cons] at hnd
  have hch : ∀ q c', update s.child f.place (some c) q = some c' → (q = f.place ∧ c' = c) ∨ (q ≠ f.place ∧ s.child q = some c') := by
    intro q c' hq
    simp only [update_eq] at hq
    split at hq
    · next e => exact .inl ⟨e, (Option.some.inj hq).symm⟩
    · next e => exact .inr ⟨e, hq⟩
  have hpl : places (⟨f.place, false⟩ :: fs) = places s.stack := by rw [hst]; rfl
  refine ⟨?_, ?_, h.logB, ?_, by rw [hpl]; exact h.nodup, ?_, ?_⟩
  · intro q c' hq
    rcases hch q c' hq with ⟨-, rfl⟩ | ⟨-, hq⟩
    · exact (List.getElem?_eq_some_iff.1 ho).1
    · exact h.bound q c' hq
  · intro q q' c' h1 h2
    rcases hch q c' h1 with ⟨rfl, rfl⟩ | ⟨-, h1⟩ <;> rcases hch q' c' h2 with ⟨rfl, h3⟩ | ⟨-, h2⟩
    · rfl
    · exact absurd h2 (hfree _)
    · rw [h3] at h1; exact absurd h1 (hfree _)
    · exact h.inj q q' c' h1 h2
  · have hl := h.links
    rw [hst] at hl
    refine (hl.weak (f' := ⟨f.place, false⟩) rfl).congr ?_ fun id i _ o ho => ⟨o, ho, rfl⟩
    intro q hq
    simp only [update_eq]
    split
    · next e => subst e; exact absurd hq hnd.1
    · rfl
  · intro c' o' ho' _ hk
    have : Core s c' o' := by
      rcases hk with hk | ⟨q, hq⟩
      · exact h.core c' o' ho' (by simp) (.inl hk)
      · rcases hch q c' hq with ⟨-, rfl⟩ | ⟨-, hq⟩
        · simp only at ho'; rw [ho] at ho'; cases ho'; exact hcore
        · exact h.own hq ho' (by simp)
    exact this.mono (fun i _ h => by simp only [hpl]; exact h) (fun _ => .rfl) (fun _ h => h)
  · intro q c' o' hq ho' _
    rcases hch q c' hq with ⟨rfl, rfl⟩ | ⟨hne, hq⟩
    · exact ⟨fun _ => .inr (.inr ⟨fs, rfl⟩), .inl ⟨fs, rfl⟩⟩
    · have h1 := h.link q c' o' hq ho' (by simp)
      have ht : ¬ Top s q := by
        rintro ⟨fs', hf⟩
        rw [hst] at hf; cases hf; exact hne rfl
      exact ⟨fun ha => (h1.pend ha).imp_right (Or.imp_right fun h => absurd h ht), .inr (h1.par.resolve_left ht)⟩

theorem set_get {objs : List (Obj V S O)} {id c : Nat} {o' o : Obj V S O} (h : (objs.set id o')[c]? = some o) :
    (c = id ∧ o = o') ∨ (c ≠ id ∧ objs[c]? = some o) := by
  rw [List.getElem?_set] at h
  split at h
  · next e =>
    split at h
    · exact .inl ⟨e.symm, (Option.some.inj h).symm⟩
    · cases h
  · next e => exact .inr ⟨fun h => e h.symm, h⟩

theorem get_set {objs : List (Obj V S O)} {id : Nat} {o o' : Obj V S O} (h : objs[id]? = some o) :
    (objs.set id o')[id]? = some o' := by
  have := (List.getElem?_eq_some_iff.1 h).1
  simp [this]

/-- A list changes while nobody polls it. -/
theorem setList_inv {s : Sys V S O} (h : Inv s) (hw : s.waking = none) {c : Nat} {l l' : LObj}
    (ho : s.objs[c]? = some (.list l)) (hrun : l'.running = l.running) (hlate : l'.late = l.late) (hdone : l'.done = l.done) (hn : l.n ≤ l'.n)
    (hok : LOk l') (hq : ∀ i ∈ l.queue, i ∈ l'.queue) (hg : ∀ i ∈ l.gone, i ∈ l'.gone)
    (hnew : ∀ i, l.n ≤ i → i < l'.n → i ∈ l'.queue) (w : Option Place) (log' : List Note)
    (hret : ∀ p, .returned p ∈ log' ↔ .returned p ∈ s.log) (hneed : ∀ p, NeedsPoll p log' ↔ NeedsPoll p s.log)
    (hurg : ∀ q, s.child q = some c → (∀ v, l.waker = some v → v = q) → l'.running = none → l'.waker = none →
      (l.running = none ∧ l.waker = none) ∨ w = some q)
    (hpar : ∀ v, l'.waker = some v → l.waker = some v) :
    Inv { s with objs := s.objs.set c (.list l'), waking := w, log := log' } := by
  have hc0 := h.core c _ ho (by simp) (.inl trivial)
  have hlok : LOk l := hc0.ok
  have hmem : ∀ i ∈ l.queue ++ l.late, i ∈ l'.queue ++ l'.late := by
    intro i hi
    rw [hlate]
    exact (List.mem_append.1 hi).elim (fun hi => List.mem_append_left _ (hq i hi)) (List.mem_append_right _)
  refine ⟨?_, h.inj, ?_, ?_, h.nodup, ?_, ?_⟩
  · intro q c hq; simpa using h.bound q c hq
  · intro c i hm; simpa using h.logB c i ((hret _).1 hm)
  · refine h.links.congr (fun _ _ => rfl) ?_
    intro id i _ o ho'
    by_cases he : c = id
    · subst he
      rw [ho] at ho'; cases ho'
      exact ⟨.list l', get_set ho, hrun⟩
    · exact ⟨o, by simp only [List.getElem?_set_ne he]; exact ho', rfl⟩
  · intro c' o' ho' _ hk
    simp only at ho'
    rcases set_get ho' with ⟨rfl, rfl⟩ | ⟨hne, ho'⟩
    · refine ⟨hok, ?_, ?_, ?_, ?_⟩
      · intro i hi
        exact hc0.busy i (by rw [← hi]; exact hrun.symm)
      · intro i hi
        rw [hret]
        show i ∈ l'.done ↔ _
        rw [hdone]
        by_cases hlt : i < l.n
        · exact hc0.fin i hlt
        · exact ⟨fun h => absurd (hlok.dn i h) hlt, fun h => absurd (hc0.bnd i h) hlt⟩
      · intro i hm
        exact Nat.lt_of_lt_of_le (hc0.bnd i ((hret _).1 hm)) hn
      · intro i hi hf hgo hnp
        left
        by_cases hlt : i < l.n
        · have hf : i ∉ l'.done := hf
          rw [hdone] at hf
          rcases hc0.need i hlt hf (fun h => hgo (hg i h)) ((hneed _).1 hnp) with h1 | h1
          · exact hmem i h1
          · refine hmem i ?_
            simp only [Obj.rest] at h1
            split at h1
            · exact h1
            · cases h1
        · exact List.mem_append_left _ (hnew i (Nat.le_of_not_lt hlt) hi)
    · exact (h.core c' o' ho' (by simp) hk).mono (fun _ _ h => h) (fun _ => hret _) (fun _ => (hneed _).1)
  · intro q c' o' hq' ho' _
    simp only at ho'
    rcases set_get ho' with ⟨rfl, rfl⟩ | ⟨hne, ho'⟩
    · have h1 := h.link q c' _ hq' ho (by simp)
      refine ⟨?_, h1.par.imp_right fun hp v hv => hp v (hpar v hv)⟩
      intro hu
      rcases h1.par with ht | hp
      · exact .inr (.inr ht)
      · rcases hurg q hq' hp hu.1 hu.2 with h2 | h2
        · rcases h1.pend h2 with h3 | h3 | h3
          · exact .inl ((hneed q).2 h3)
          · rw [hw] at h3; cases h3
          · exact .inr (.inr h3)
        · exact .inr (.inl h2)
    · have h1 := h.link q c' o' hq' ho' (by simp)
      refine ⟨?_, h1.par⟩
      intro hu
      rcases h1.pend hu with h3 | h3 | h3
      · exact .inl ((hneed q).2 h3)
      · rw [hw] at h3; cases h3
      · exact .inr (.inr h3)

/-- Nobody awaits `c` any more. -/
theorem detach_inv {s : Sys V S O} (h : Inv s) {c : Nat} {o : Obj V S O} (ho : s.objs[c]? = some o)
    (hidle : o.busy = none) :
    Inv { s with child := fun p => if s.child p = some c then none else s.child p } := by
  have hch : ∀ (q : Place) (c' : Nat), (if s.child q = some c then none else s.child q) = some c' →
      s.child q = some c' := by
    intro q c' hq
    split at hq
    · cases hq
    · exact hq
  refine ⟨?_, ?_, h.logB, ?_, h.nodup, ?_, ?_⟩
  · intro q c hq; exact h.bound q c (hch q c hq)
  · intro q q' c h1 h2; exact h.inj q q' c (hch q c h1) (hch q' c h2)
  · refine h.links.congr ?_ fun id i _ o ho => ⟨o, ho, rfl⟩
    intro q hq
    obtain ⟨id, i, o', a1, a2, a3⟩ := h.links.tail hq
    simp only
    rw [if_neg]
    rw [a1]
    rintro ⟨⟩
    rw [ho] at a2; cases a2
    rw [hidle] at a3; cases a3
  · intro c' o' ho' _ hk
    exact (h.core c' o' ho' (by simp) (hk.imp_right fun ⟨q, hq⟩ => ⟨q, hch q c' hq⟩)).mono (fun _ _ h => h)
      (fun _ => .rfl) (fun _ h => h)
  · intro q c' o' hq ho' _
    have := h.link q c' o' (hch q c' hq) ho' (by simp)
    exact ⟨this.pend, this.par⟩

theorem render_inv {s : Sys V S O} (h : Inv s) (hw : s.waking = none) {f : Frame} {fs : List Frame}
    (hst : s.stack = f :: fs) {c : Nat} {l : LObj} (ho : s.objs[c]? = some (.list l)) (hrun : l.running = none) :
    Inv { s.setObj c (.list { l with left := l.limit, waker := none }) with
          child := fun p => if p = f.place then some c else if s.child p = some c then none else s.child p
          stack := ⟨f.place, false⟩ :: fs } := by
  have h1 := detach_inv h ho (by exact hrun)
  have hlok : LOk l := (h.core c _ ho (by simp) (.inl trivial)).ok
  have h2 := setList_inv (l' := { l with left := l.limit, waker := none }) h1 hw ho rfl rfl rfl (Nat.le_refl _)
    ⟨⟨hlok.bound, hlok.dn, hlok.nd, Nat.le_refl _⟩, by simp, hlok.run⟩ (fun _ h => h) (fun _ h => h)
    (fun i h1 h2 => absurd h2 (Nat.not_lt.2 h1)) s.waking s.log (fun _ => .rfl) (fun _ => .rfl)
    (by
      intro q hq
      simp only at hq
      split at hq
      · cases hq
      · next hne => exact absurd hq hne) (by simp)
  refine attach_inv (f := f) (fs := fs) h2 hst (get_set ho) ?_ ?_
  · exact h2.core c _ (get_set ho) (by simp) (.inl trivial)
  · intro q hq
    simp only at hq
    split at hq
    · cases hq
    · next hne => exact absurd hq hne

theorem await_inv {s s1 : Sys V S O} (h : Inv s) {f : Frame} {fs : List Frame} (hst : s.stack = f :: fs)
    (hwk : s.waking = none) {id : Nat} (hc : s.child f.place = some id) {r : Reply}
    (hs : stepObj { s with stack := ⟨f.place, true⟩ :: fs } id (.poll f.place) = some (s1, r)) :
    Inv (answer s1 id r) := by
  obtain ⟨o, o1, ho, hstep, rfl⟩ := stepObj_some hs
  simp only at ho
  have hnot := Inv.top_idle h hst hc
  have hnd := h.nodup
  rw [hst] at hnd hnot
  have hb := h.own hc ho (by simp)
  have hid := h.bound _ _ hc
  have hpl : places (⟨f.place, true⟩ :: fs) = places s.stack := by rw [hst]; rfl
  refine answer_inv (o := o1) (f := ⟨f.place, true⟩) (fs := fs) ?_ rfl rfl hwk hc (get_set ho) hnot ?_ ?_
  · refine ⟨?_, h.inj, ?_, ?_, hnd, ?_, ?_⟩
    · intro q c hq; simpa using h.bound q c hq
    · intro c i hm; simpa using h.logB c i hm
    · have hl := h.links
      rw [hst] at hl
      refine (hl.weak (f' := ⟨f.place, true⟩) rfl).congr (fun _ _ => rfl) ?_
      intro id' i hm o' ho'
      have hne : id ≠ id' := by
        rintro rfl; exact hnot i hm
      exact ⟨o', by simp only [List.getElem?_set_ne hne]; exact ho', rfl⟩
    · intro c o' ho' hne hk
      simp only at ho'
      rcases set_get ho' with ⟨rfl, -⟩ | ⟨hcid, ho'⟩
      · exact absurd rfl hne
      · exact (h.core c o' ho' (by simp) hk).mono (fun i _ h => by simp only [hpl]; exact h) (fun _ => .rfl) (fun _ h => h)
    · intro q c o' hq ho' hne
      simp only at ho'
      rcases set_get ho' with ⟨rfl, -⟩ | ⟨hcid, ho'⟩
      · exact absurd rfl hne
      · have h1 := h.link q c o' hq ho' (by simp)
        have ht : ¬ Top s q := by
          rintro ⟨fs', hf⟩
          rw [hst] at hf; cases hf
          simp only at hq
          rw [hc] at hq; cases hq; exact hcid rfl
        exact ⟨fun ha => (h1.pend ha).imp_right (Or.imp_right fun h => absurd h ht), .inr (h1.par.resolve_left ht)⟩
  · intro hr
    obtain ⟨hidle, a1, a2, a3, a4, a5, a6, a7⟩ := poll_facts hb.ok hstep hr
    refine ⟨o.awake, ⟨a1, ?_, ?_, ?_, fun hu => .inr (a7 hu), a6⟩, a2⟩
    · intro i hi
      rw [a4]; exact hb.fin i (a3 ▸ hi)
    · intro i hm
      rw [a3]; exact hb.bnd i hm
    · intro i hi hf hg hn
      rw [a4] at hf
      rw [a5] at hg
      rcases hb.need i (a3 ▸ hi) hf hg hn with h1 | h1
      · exact .inr h1
      · rw [Obj.rest_nil hidle] at h1; cases h1
  · intro hr
    obtain ⟨h1, h2⟩ := ready_facts hb.ok hstep (by simp) hr
    exact ⟨h1, fun h => h2 ((step_isList hstep).1 h)⟩

/-- The innermost block returns, before its combinator or list takes note. -/
theorem ret_inv {s : Sys V S O} (h : Inv s) {f : Frame} {fs : List Frame} (hst : s.stack = f :: fs)
    (b : Bool) (hr : b = true ∨ s.child f.place = none ∨ f.awaited = true) {s0 : Sys V S O}
    (hs0 : s0 = if b then
          { s with child := update s.child f.place none, log := .returned f.place :: s.log } else s)
    (hbusy : ∀ id i, f.place = .sub id i → id < s.objs.length) (skip : Option Nat)
    (hskip : ∀ id i, f.place = .sub id i → skip = some id) :
    InvX { s0 with stack := fs } skip := by
  have hch : ∀ q c, s0.child q = some c → s.child q = some c ∧ (q = f.place → b = false) := by
    intro q c hq
    subst hs0
    cases b with
    | false => exact ⟨hq, fun _ => rfl⟩
    | true =>
      simp only [if_true, update_eq] at hq
      split at hq
      · cases hq
      · next hne => exact ⟨hq, fun h => absurd h hne⟩
  have hobjs : s0.objs = s.objs := by subst hs0; cases b <;> rfl
  have hwk : s0.waking = s.waking := by subst hs0; cases b <;> rfl
  have hneed : ∀ q, NeedsPoll q s0.log ↔ NeedsPoll q s.log := by
    subst hs0; cases b <;> simp [needs_returned]
  have hlog : ∀ p, .returned p ∈ s0.log ↔ .returned p ∈ s.log ∨ (p = f.place ∧ b = true) := by
    subst hs0; cases b <;> simp [or_comm]
  have hnd := h.nodup
  rw [hst] at hnd
  have hnd2 : f.place ∉ places fs ∧ (places fs).Nodup := List.nodup_cons.1 hnd
  have hl := h.links
  rw [hst] at hl
  have hkeep : ∀ q, q ≠ f.place → s0.child q = s.child q := by
    intro q hq
    subst hs0
    cases b with
    | false => rfl
    | true => simp [update_eq, hq]
  have htop : ∀ q c, s.child q = some c → (q = f.place → b = false) → ¬ Top s q := by
    rintro q c hq hb ⟨fs', hf⟩
    rw [hst] at hf; cases hf
    rcases hr with hr | hr | hr
    · rw [hb rfl] at hr; cases hr
    · rw [hr] at hq; cases hq
    · cases hr
  refine ⟨?_, ?_, ?_, ?_, hnd2.2, ?_, ?_⟩
  · intro q c hq; simp only [hobjs]; exact h.bound q c (hch q c hq).1
  · intro q q' c h1 h2; exact h.inj q q' c (hch q c h1).1 (hch q' c h2).1
  · intro c i hm
    simp only [hobjs]
    rcases (hlog _).1 hm with h1 | ⟨h1, -⟩
    · exact h.logB c i h1
    · exact hbusy c i h1.symm
  · refine hl.2.congr ?_ ?_
    · intro q hq
      refine hkeep q ?_
      rintro rfl
      refine hnd2.1 ?_
      cases fs with
      | nil => simp [places] at hq
      | cons f' fs => simp [places] at hq ⊢; exact .inr hq
    · intro id i _ o ho
      exact ⟨o, by simp only [hobjs]; exact ho, rfl⟩
  · intro c o ho hne hk
    simp only [hobjs] at ho
    have hcf : ∀ i, f.place ≠ .sub c i := by
      intro i he
      exact hne (hskip c i he).symm
    refine (h.core c o ho (by simp) (hk.imp_right fun ⟨q, hq⟩ => ⟨q, (hch q c hq).1⟩)).mono ?_ ?_ ?_
    · intro i _ hm
      rw [hst] at hm
      simp only [places, List.map_cons, List.mem_cons] at hm
      rcases hm with h2 | h2
      · exact absurd h2.symm (hcf i)
      · exact h2
    · intro i
      rw [hlog]
      constructor
      · rintro (h2 | ⟨h2, -⟩)
        · exact h2
        · exact absurd h2.symm (hcf i)
      · exact .inl
    · intro i hn; exact (hneed _).1 hn
  · intro q c o hq ho hne
    obtain ⟨hq', hb⟩ := hch q c hq
    simp only [hobjs] at ho
    have h1 := h.link q c o hq' ho (by simp)
    have ht := htop q c hq' hb
    refine ⟨?_, .inr (h1.par.resolve_left ht)⟩
    intro ha
    simp only [hneed, hwk]
    exact (h1.pend ha).imp_right (Or.imp_right fun h => absurd h ht)

/-- The combinator or list takes note that its block has returned. -/
theorem ret_sub_inv {s s0 s1 : Sys V S O} (h : Inv s) {f f' : Frame} {fs : List Frame} (hst : s.stack = f :: f' :: fs)
    (hw : s.waking = none) {id i : Nat} (hf : f.place = .sub id i) {x : Option V}
    (hr : x.isSome = true ∨ s.child f.place = none ∨ f.awaited = true)
    (hs0 : s0 = if x.isSome then
          { s with child := update s.child f.place none, log := .returned f.place :: s.log } else s)
    {r : Reply}
    (hs : stepObj { s0 with stack := f' :: fs } id (.back i x f'.place) = some (s1, r)) :
    Inv (answer s1 id r) := by
  have hl := h.links
  rw [hst] at hl
  have hnd := h.nodup
  rw [hst] at hnd
  have hnd2 : f.place ∉ places (f' :: fs) ∧ (places (f' :: fs)).Nodup := List.nodup_cons.1 hnd
  have hobjs : s0.objs = s.objs := by subst hs0; cases x.isSome <;> rfl
  have hwk : s0.waking = s.waking := by subst hs0; cases x.isSome <;> rfl
  obtain ⟨o, o1, ho, hstep, rfl⟩ := stepObj_some hs
  simp only [hobjs] at ho
  obtain ⟨id', i', o', a1, a2, a3, a4, a5⟩ := hl.1
  rw [hf] at a1; cases a1
  rw [ho] at a3; cases a3
  have hid := h.bound _ _ a2
  have hb := h.own a2 ho (by simp)
  have hlk := h.link _ _ _ a2 ho (by simp)
  have hi := ret_inv h hst x.isSome hr hs0 (by
    intro id2 i2 he; rw [hf] at he; cases he; exact hid) (some id) (by
    intro id2 i2 he; rw [hf] at he; cases he; rfl)
  have hff : f'.place ≠ f.place := by
    intro he; refine hnd2.1 ?_; rw [← he]; simp [places]
  have hch : s0.child f'.place = some id := by
    subst hs0
    cases x.isSome with
    | false => exact a2
    | true => simp only [if_true, update_eq, hff, if_false]; exact a2
  have hnot : ∀ j, .sub id j ∉ places (f' :: fs) := by
    intro j hm
    obtain ⟨o2, b1, b2⟩ := Links.phase hl.2 hm
    rw [ho] at b1; cases b1
    rw [a4] at b2; cases b2
    rw [hf] at hnd2
    exact hnd2.1 hm
  have hnt : ¬ Top s f'.place := by
    rintro ⟨fs', he⟩
    rw [hst] at he; cases he
    exact hff rfl
  have hneed : ∀ q, NeedsPoll q s0.log ↔ NeedsPoll q s.log := by
    subst hs0; cases x.isSome <;> simp [needs_returned]
  have hlog : ∀ p, .returned p ∈ s0.log ↔ .returned p ∈ s.log ∨ (p = f.place ∧ x.isSome = true) := by
    subst hs0; cases x.isSome <;> simp [or_comm]
  refine answer_inv (o := o1) (f := f') (fs := fs) ?_ rfl a5 (by simp only [hwk]; exact hw) hch ?_ hnot ?_ ?_
  · refine ⟨?_, hi.inj, ?_, ?_, hi.nodup, ?_, ?_⟩
    · intro q c hq; simpa using hi.bound q c hq
    · intro c i hm; simpa using hi.logB c i hm
    · refine hi.links.congr (fun _ _ => rfl) ?_
      intro id' i hm o' ho'
      have hne : id ≠ id' := by
        rintro rfl; exact hnot i hm
      exact ⟨o', by simp only [List.getElem?_set_ne hne]; exact ho', rfl⟩
    · intro c o' ho' hne hk
      simp only at ho'
      rcases set_get ho' with ⟨rfl, -⟩ | ⟨hcid, ho'⟩
      · exact absurd rfl hne
      · exact (hi.core c o' ho' hne hk).mono (fun _ _ h => h) (fun _ => .rfl) (fun _ h => h)
    · intro q c o' hq ho' hne
      simp only at ho'
      rcases set_get ho' with ⟨rfl, -⟩ | ⟨hcid, ho'⟩
      · exact absurd rfl hne
      · have h1 := hi.link q c o' hq ho' hne
        exact ⟨h1.pend, h1.par⟩
  · exact get_set (by simp only [hobjs]; exact ho)
  · intro hr
    obtain ⟨b0, b1, b2, b3, b4, b5, b6, b7, b8, b9⟩ := back_facts hb.ok hstep hr
    refine ⟨o.rest, ⟨b2, ?_, ?_, ?_, ?_, b7 (hlk.par.resolve_left hnt)⟩, b3⟩
    · intro j hj
      rw [b4] at hj
      rw [b5 j hj, hb.fin j hj, hlog, hf]
      simp
    · intro j hm
      rw [b4]
      rcases (hlog _).1 hm with h1 | ⟨h1, -⟩
      · exact hb.bnd j h1
      · rw [hf] at h1; cases h1; exact b0
    · intro j hj hfl hg hn
      rw [b4] at hj
      rcases hb.need j hj (fun h => hfl ((b5 j hj).2 (.inl h))) (fun h => hg ((b6 j).2 h)) ((hneed _).1 hn) with h1 | h1
      · exact b9 j h1
      · exact .inr h1
    · intro hu
      rcases b8 hu with h1 | h1
      · rcases hlk.pend h1 with h2 | h2 | h2
        · exact .inl ((hneed _).2 h2)
        · rw [hw] at h2; cases h2
        · exact absurd h2 hnt
      · exact .inr h1
  · intro hr
    obtain ⟨h1, h2⟩ := ready_facts hb.ok hstep (by simp) hr
    exact ⟨h1, fun h => h2 ((step_isList hstep).1 h)⟩

theorem wake_inv {s : Sys V S O} (h : Inv s) (hw : s.waking = none) (p : Place) :
    Inv { s with waking := some p } := by
  refine ⟨h.bound, h.inj, h.logB, h.links.congr (fun _ _ => rfl) (fun _ _ _ o ho => ⟨o, ho, rfl⟩), h.nodup, ?_, ?_⟩
  · intro c o ho _ hk
    exact (h.core c o ho (by simp) hk).mono (fun _ _ h => h) (fun _ => .rfl) (fun _ h => h)
  · intro q c o hq ho _
    have h1 := h.link q c o hq ho (by simp)
    refine ⟨?_, h1.par⟩
    intro ha
    rcases h1.pend ha with h2 | h2 | h2
    · exact .inl h2
    · rw [hw] at h2; cases h2
    · exact .inr (.inr h2)

theorem wake_task_inv {s : Sys V S O} (h : Inv s) {t : Nat} (hw : s.waking = some (.task t)) :
    Inv { s with waking := none, log := .woken (.task t) :: s.log } := by
  refine ⟨h.bound, h.inj, fun c i hm => h.logB c i (by simpa using hm),
    h.links.congr (fun _ _ => rfl) (fun _ _ _ o ho => ⟨o, ho, rfl⟩), h.nodup, ?_, ?_⟩
  · intro c o ho _ hk
    refine (h.core c o ho (by simp) hk).mono (fun _ _ h => h) (fun _ => by simp) ?_
    intro i hn
    rcases hn with hn | hn
    · cases hn
    · exact hn
  · intro q c o hq ho _
    have h1 := h.link q c o hq ho (by simp)
    refine ⟨?_, h1.par⟩
    intro ha
    rcases h1.pend ha with h2 | h2 | h2
    · exact .inl (.inr h2)
    · rw [hw] at h2; exact .inl (.inl (Option.some.inj h2))
    · exact .inr (.inr h2)

theorem wake_sub_inv {s s1 : Sys V S O} (h : Inv s) {id i : Nat} (hw : s.waking = some (.sub id i)) {r : Reply}
    (hs : stepObj { s with log := .woken (.sub id i) :: s.log } id (.wake i) = some (s1, r)) :
    Inv { s1 with waking := r.wakes } := by
  obtain ⟨o, o1, ho, hstep, rfl⟩ := stepObj_some hs
  simp only at ho
  refine ⟨?_, h.inj, ?_, ?_, h.nodup, ?_, ?_⟩
  · intro q c hq; simpa using h.bound q c hq
  · intro c j hm
    have : Note.returned (.sub c j) ∈ s.log := by simpa using hm
    simpa using h.logB c j this
  · refine h.links.congr (fun _ _ => rfl) ?_
    intro id' j hm o' ho'
    by_cases he : id = id'
    · subst he
      rw [ho] at ho'; cases ho'
      exact ⟨o1, get_set ho, wake_busy hstep⟩
    · exact ⟨o', by simp only [List.getElem?_set_ne he]; exact ho', rfl⟩
  · intro c o' ho' _ hk
    simp only at ho'
    rcases set_get ho' with ⟨rfl, rfl⟩ | ⟨hcid, ho'⟩
    · have h1 := h.core c o ho (by simp) (hk.imp_left (step_isList hstep).1)
      obtain ⟨a1, a2, a3, a4, a5, a6, a7, a8, a9, a10⟩ := wake_facts h1.ok hstep
      refine ⟨a1, ?_, ?_, ?_, ?_⟩
      · intro j hp
        rw [a2] at hp
        exact h1.busy j hp
      · intro j hj
        rw [a4, h1.fin j (a3 ▸ hj)]; simp
      · intro j hm
        rw [a3]; exact h1.bnd j (by simpa using hm)
      · intro j hj hf hg hn
        rw [a4] at hf
        rw [a5] at hg
        rcases hn with hn | hn
        · cases hn; exact .inl (a9 hf hg)
        · rcases h1.need j (a3 ▸ hj) hf hg hn with h2 | h2
          · exact .inl (a7 j h2)
          · exact .inr (a8 j h2)
    · refine (h.core c o' ho' (by simp) hk).mono (fun _ _ h => h) (fun _ => by simp) ?_
      intro j hn
      rcases hn with hn | hn
      · cases hn; exact absurd rfl hcid
      · exact hn
  · intro q c o' hq ho' _
    simp only at hq ho'
    have old : ∀ o', Link s q o' → o'.Urgent → NeedsPoll q (.woken (.sub id i) :: s.log) ∨
        r.wakes = some q ∨ Top s q := by
      intro o' h1 ha
      rcases h1.pend ha with h2 | h2 | h2
      · exact .inl (.inr h2)
      · rw [hw] at h2; exact .inl (.inl (Option.some.inj h2))
      · exact .inr (.inr h2)
    rcases set_get ho' with ⟨rfl, rfl⟩ | ⟨hcid, ho'⟩
    · have h1 := h.own hq ho (by simp)
      have h2 := h.link q c o hq ho (by simp)
      obtain ⟨a1, a2, a3, a4, a5, a6, a7, a8, a9, a10⟩ := wake_facts h1.ok hstep
      rcases h2.par with ht | hp
      · exact ⟨fun _ => .inr (.inr ht), .inl ht⟩
      · obtain ⟨b1, b2⟩ := a10 q hp
        refine ⟨fun hu => ?_, .inr b1⟩
        rcases b2 hu with h3 | h3
        · exact old o h2 h3
        · exact .inr (.inl h3)
    · have h2 := h.link q c o' hq ho' (by simp)
      exact ⟨old o' h2, h2.par⟩

theorem new_filled (g : Cfg V S O) (n i : Nat) (hi : i < n) :
    (Comb.new g.kind.impl S Place n).filled[i]? = some false := by
  simp [Comb.new, hi]

theorem comb_new_inv {s : Sys V S O} (h : Inv s) (g : Cfg V S O) (n : Nat) :
    Inv { s with objs := s.objs ++ [.comb ⟨g, n, Comb.new g.kind.impl S Place n⟩] } := by
  refine new_inv h _ (new_ok g n) rfl ?_ ?_
  · intro i hf
    have hf : (Comb.new g.kind.impl S Place n).filled[i]? = some true := hf
    simp only [Comb.new, List.getElem?_replicate] at hf
    split at hf <;> cases hf
  · intro i hi
    rw [new_awake_obj]; simpa [Obj.size] using hi

theorem list_new_inv {s : Sys V S O} (h : Inv s) (limit : Nat) :
    Inv { s with objs := s.objs ++ [.list ⟨limit, limit, 0, [], [], [], none, false, none⟩] } := by
  refine new_inv h _ (show LOk _ from ⟨⟨by simp, by simp, by simp, Nat.le_refl _⟩, by simp, by simp⟩) rfl ?_ ?_
  · intro i; simp [Obj.fin]
  · intro i; simp [Obj.size]

theorem create_inv {s : Sys V S O} (h : Inv s) {f : Frame} {fs : List Frame} (hst : s.stack = f :: fs) (g : Cfg V S O)
    (n : Nat) :
    Inv { s with
        objs := s.objs ++ [.comb ⟨g, n, Comb.new g.kind.impl S Place n⟩]
        child := update s.child f.place (some s.objs.length)
        stack := ⟨f.place, false⟩ :: fs } := by
  have h1 := comb_new_inv h g n
  refine attach_inv h1 hst (o := .comb ⟨g, n, Comb.new g.kind.impl S Place n⟩) (by simp) ?_ ?_
  · have hr : ∀ i, .returned (.sub s.objs.length i) ∉ s.log := fun i hm => Nat.lt_irrefl _ (h.logB _ i hm)
    refine ⟨new_ok g n, ?_, ?_, ?_, ?_⟩
    · intro i hi; cases hi
    · intro i hi
      simp only [Obj.fin, new_filled g n i hi]
      exact ⟨fun h => by simp at h, fun h => absurd h (hr i)⟩
    · intro i hm; exact absurd hm (hr i)
    · intro i hi _ _ _
      left; rw [new_awake_obj]; simpa [Obj.size] using hi
  · intro q hq
    exact Nat.lt_irrefl _ (h.bound q _ hq)

theorem step_inv {s s' : Sys V S O} (h : Inv s) {e : Event V S O} (hs : step s e = some s') : Inv s' := by
  cases e with
  | pollTask t =>
    simp only [step] at hs
    split at hs
    · next hc => cases hs; exact pollTask_inv h t hc.1
    · cases hs
  | create g n =>
    simp only [step] at hs
    split at hs
    · next f fs hst hw => cases hs; exact create_inv h hst g n
    · cases hs
  | cancel =>
    simp only [step] at hs
    split at hs
    · next f fs hst hw => cases hs; exact cancel_inv h hst
    · cases hs
  | await =>
    simp only [step] at hs
    split at hs
    · next f fs hst hw =>
      split at hs
      · next id hc =>
        split at hs
        · next s1 out h1 => cases hs; exact await_inv h hst hw hc h1
        · cases hs
      · cases hs
    · cases hs
  | ret r =>
    simp only [step] at hs
    split at hs
    · next f fs hst hw =>
      split at hs
      · next hc =>
        split at hs
        · next id i f' fs' hf =>
          split at hs
          · next s1 out h1 => cases hs; exact ret_sub_inv h hst hw hf hc rfl h1
          · cases hs
        · cases hs
        · next t ht =>
          cases hs
          exact ret_inv h hst r.isSome hc rfl (by intro id i he; rw [ht] at he; cases he) none
            (by intro id i he; rw [ht] at he; cases he)
      · cases hs
    · cases hs
  | newList limit =>
    simp only [step] at hs
    split at hs
    · cases hs; exact list_new_inv h limit
    · cases hs
  | insert c =>
    simp only [step] at hs
    split at hs
    · next l ho hw =>
      cases hs
      have hlok : LOk l := (h.core c _ ho (by simp) (.inl trivial)).ok
      have h1 : LOk { l with n := l.n + 1 } := ⟨⟨fun i hi => Nat.lt_succ_of_lt (hlok.bound i hi),
        fun i hi => Nat.lt_succ_of_lt (hlok.dn i hi), hlok.nd, hlok.lim⟩, hlok.asleep,
        fun i hi => ⟨Nat.lt_succ_of_lt (hlok.run i hi).1, (hlok.run i hi).2⟩⟩
      obtain ⟨b1, b2⟩ := push_facts h1 (i := l.n) (Nat.lt_succ_self _)
        (fun h => Nat.lt_irrefl _ (hlok.bound _ h)) (fun h => Nat.lt_irrefl _ (hlok.run _ h).1)
      refine setList_inv (l' := (LObj.push { l with n := l.n + 1 } l.n).1) h hw ho rfl rfl rfl (Nat.le_succ _) b1 (fun i hi => List.mem_append_left _ hi) (fun _ h => h) ?_ _ _
        (fun _ => by simp) (fun _ => .rfl) (fun q _ hq h2 h3 => b2 h2 h3 q hq) (fun v hv => by simp [LObj.push] at hv)
      intro i h2 h3
      have h3 : i < l.n + 1 := h3
      obtain rfl : i = l.n := by omega
      exact List.mem_append_right _ (.head _)
    · cases hs
  | remove c i =>
    simp only [step] at hs
    split at hs
    · next l ho hw =>
      split at hs
      · next hi =>
        have hlok : LOk l := (h.core c _ ho (by simp) (.inl trivial)).ok
        have h1 : LOk { l with gone := i :: l.gone } := ⟨⟨hlok.bound, hlok.dn, hlok.nd, hlok.lim⟩, hlok.asleep, hlok.run⟩
        split at hs
        · cases hs
          have := setList_inv (l' := { l with gone := i :: l.gone }) h hw ho rfl rfl rfl (Nat.le_refl _) h1 (fun _ h => h)
            (fun _ h => .tail _ h) (fun i h1 h2 => absurd h2 (Nat.not_lt.2 h1)) s.waking s.log (fun _ => .rfl) (fun _ => .rfl)
            (fun _ _ _ h2 h3 => .inl ⟨h2, h3⟩) (fun _ h => h)
          exact this
        · next hc =>
          cases hs
          obtain ⟨b1, b2⟩ := push_facts h1 (i := i) hi.1 (fun h => hc (.inl h)) (fun h => hc (.inr (.inr h)))
          have := setList_inv (l' := (LObj.push { l with gone := i :: l.gone } i).1) h hw ho rfl rfl rfl (Nat.le_refl _) b1
            (fun _ h => List.mem_append_left _ h)
            (fun _ h => .tail _ h) (fun i h1 h2 => absurd h2 (Nat.not_lt.2 h1))
            (LObj.push { l with gone := i :: l.gone } i).2 s.log (fun _ => .rfl) (fun _ => .rfl)
            (fun q _ hq h2 h3 => b2 h2 h3 q hq) (fun v hv => by simp [LObj.push] at hv)
          exact this
      · cases hs
    · cases hs
  | render c =>
    simp only [step] at hs
    split at hs
    · next f fs l hst hw ho =>
      split at hs
      · next hrun => cases hs; exact render_inv h hw hst ho hrun
      · cases hs
    · cases hs
  | wake p =>
    simp only [step] at hs
    split at hs
    · next hw => cases hs; exact wake_inv h hw p
    · cases hs
  | propagate =>
    simp only [step] at hs
    split at hs
    · cases hs
    · next t hw => cases hs; exact wake_task_inv h hw
    · next id i hw =>
      split at hs
      · next s1 out h1 => cases hs; exact wake_sub_inv h hw h1
      · cases hs

theorem run_inv {s s' : Sys V S O} (h : Inv s) {es : List (Event V S O)} (hs : run s es = some s') : Inv s' := by
  induction es generalizing s with
  | nil => cases hs; exact h
  | cons e es ih =>
    simp only [run] at hs
    split at hs
    · next s1 h1 => exact ih (step_inv h h1) hs
    · cases hs

end Verif.Nested
