import Verif.Nested.Known
/-! What needed to be polled at some moment is handed down by the polls that follow. -/
namespace Verif.Nested
open Verif.Comb
variable {V S O : Type}

/-- The block needed to be polled when the log was `log0`, and has not been polled in `new`. -/
def Due (log0 new : List Note) (p : Place) : Prop := NeedsPoll p log0 ∧ .polled p ∉ new

/-- The list has let others do something, or the item is new. -/
def Late (new : List Note) (c i : Nat) : Prop := .yielded c ∈ new ∨ .inserted c i ∈ new

/-- What is due is going to be polled by the present poll, or recorded by the combinator or list whose owner is
due itself. -/
def DueAt (log0 new : List Note) (s : Sys V S O) (q : Place) (c : Nat) (o : Obj V S O) (before : List Nat) : Prop :=
  ∀ i, i < o.size → ¬ o.fin i → ¬ o.gone i → Due log0 new (.sub c i) →
    i ∈ before ∨ (i ∈ o.awake ∧ (Due log0 new q ∨ Top s q)) ∨ Late new c i

structure JX (s0 : Sys V S O) (new : List Note) (s : Sys V S O) (skip : Option Nat) : Prop where
  log : s.log = new ++ s0.log
  due : ∀ q c o, s.child q = some c → s.objs[c]? = some o → some c ≠ skip → DueAt s0.log new s q c o o.rest
  fresh : ∀ c i, .inserted c i ∈ new → ∀ o : Obj V S O, s0.objs[c]? = some o → o.size ≤ i

def J (s0 : Sys V S O) (s : Sys V S O) : Prop := Grows s0.objs s.objs ∧ ∃ new, JX s0 new s none

theorem Due.of_cons {log0 new : List Note} {x : Note} {p : Place} (h : Due log0 (x :: new) p) : Due log0 new p :=
  ⟨h.1, fun hm => h.2 (.tail _ hm)⟩

theorem Due.cons_other {log0 new : List Note} {x : Note} {p : Place} (hx : x ≠ .polled p) (h : Due log0 new p) :
    Due log0 (x :: new) p :=
  ⟨h.1, fun hm => by
    rcases List.mem_cons.1 hm with h1 | h1
    · exact hx h1.symm
    · exact h.2 h1⟩

theorem Late.cons {new : List Note} {x : Note} {c i : Nat} (h : Late new c i) : Late (x :: new) c i :=
  h.imp (.tail _) (.tail _)

theorem Due.needs {log0 : List Note} {p : Place} : ∀ {new : List Note}, Due log0 new p → NeedsPoll p (new ++ log0)
  | [], h => h.1
  | x :: new, h => by
    have ih := Due.needs h.of_cons
    cases x with
    | polled q => exact ⟨fun he => h.2 (by rw [he]; exact .head _), ih⟩
    | woken q => exact .inr ih
    | returned q => exact ih
    | yielded c => exact ih
    | inserted c i => exact ih

theorem fresh_cons {s0 : Sys V S O} {new : List Note} {x : Note} (hx : ∀ c i, x ≠ .inserted c i)
    (h : ∀ c i, .inserted c i ∈ new → ∀ o : Obj V S O, s0.objs[c]? = some o → o.size ≤ i) :
    ∀ c i, .inserted c i ∈ x :: new → ∀ o : Obj V S O, s0.objs[c]? = some o → o.size ≤ i := by
  intro c i hm
  rcases List.mem_cons.1 hm with h1 | h1
  · exact absurd h1.symm (hx c i)
  · exact h c i h1

theorem J.start {s : Sys V S O} (h : Inv s) (hw : s.waking = none) : J s s := by
  refine ⟨.rfl, [], rfl, ?_, by simp⟩
  intro q c o hq ho _ i hi hf hg hd
  have h1 := h.own hq ho (by simp)
  have h0 := h.link q c o hq ho (by simp)
  rcases h1.need i hi hf hg hd.1 with h2 | h2
  · rcases h1.ok.urgent h2 with h4 | h4
    · refine .inr (.inl ⟨h2, ?_⟩)
      rcases h0.pend h4 with h3 | h3 | h3
      · exact .inl ⟨h3, by simp⟩
      · rw [hw] at h3; cases h3
      · exact .inr h3
    · exact .inl h4
  · exact .inl h2

theorem answer_J {s0 : Sys V S O} {new : List Note} {s : Sys V S O} {f : Frame} {fs : List Frame} {id : Nat} {o : Obj V S O}
    {r : Reply} (hinj : ∀ q q' c, s.child q = some c → s.child q' = some c → q = q') (hgr : Grows s0.objs s.objs)
    (h : JX s0 new s (some id)) (hst : s.stack = f :: fs) (hf : f.awaited = true)
    (hc : s.child f.place = some id) (ho : s.objs[id]? = some o)
    (hans : r.ready = false → ∃ before, DueAt s0.log new s f.place id o before ∧ Answer o before f.place r)
    (hrdy : r.ready = true → r.polls = none) : J s0 (answer s id r) := by
  refine ⟨by rw [answer_objs]; exact hgr, ?_⟩
  by_cases hr : r.ready = true
  · have he : answer s id r = { s with child := update s.child f.place none } := by
      simp only [answer, hrdy hr, hr, if_true]
      split
      · next f' fs' he => rw [hst] at he; cases he; rfl
      · next he => rw [hst] at he; cases he
    rw [he]
    refine ⟨new, h.log, ?_, h.fresh⟩
    intro q c o' hq ho' _
    simp only [update_eq] at hq
    split at hq
    · cases hq
    · next hne =>
      exact h.due q c o' hq ho' (by rintro ⟨⟩; exact hne (hinj _ _ _ hq hc))
  · simp only [Bool.not_eq_true] at hr
    obtain ⟨before, hm, ha⟩ := hans hr
    have hnt : ∀ q, ¬ Top s q := by
      rintro q ⟨fs', hfs⟩
      rw [hst] at hfs; cases hfs; cases hf
    cases ha with
    | polls i hp hw hph hb =>
      simp only [answer, hp]
      refine ⟨.polled (.sub id i) :: new, by simp [h.log], ?_, fresh_cons (by simp) h.fresh⟩
      have keep : ∀ q, Due s0.log new q → Due s0.log (.polled (.sub id i) :: new) q ∨ q = .sub id i := by
        intro q hn
        by_cases he : q = .sub id i
        · exact .inr he
        · exact .inl (hn.cons_other (by simpa using Ne.symm he))
      intro q c o' hq ho' _ j hj hfl hg hd
      by_cases hcid : c = id
      · subst hcid
        obtain rfl : o' = o := by simp only at ho'; rw [ho] at ho'; exact (Option.some.inj ho').symm
        obtain rfl : q = f.place := hinj _ _ _ hq hc
        rcases hm j hj hfl hg hd.of_cons with h1 | ⟨h1, h2⟩ | h1
        · rcases hb j h1 hj hfl hg with rfl | h2
          · exact absurd (.head _) hd.2
          · exact .inl h2
        · refine .inr (.inl ⟨h1, ?_⟩)
          rcases keep _ (h2.resolve_right (hnt _)) with h2 | h2
          · exact .inl h2
          · exact .inr ⟨s.stack, by rw [h2]⟩
        · exact .inr (.inr h1.cons)
      · rcases h.due q c o' hq ho' (by simpa using hcid) j hj hfl hg hd.of_cons with h1 | ⟨h1, h2⟩ | h1
        · exact .inl h1
        · refine .inr (.inl ⟨h1, ?_⟩)
          rcases keep _ (h2.resolve_right (hnt _)) with h2 | h2
          · exact .inl h2
          · exact .inr ⟨s.stack, by rw [h2]⟩
        · exact .inr (.inr h1.cons)
    | pending hp hr hw hph hb =>
      have : answer s id r = s := by
        simp [answer, hp, hst, hr, hw]
      rw [this]
      refine ⟨new, h.log, ?_, h.fresh⟩
      intro q c o' hq ho' _
      by_cases hcid : c = id
      · subst hcid
        obtain rfl : o' = o := by rw [ho] at ho'; exact (Option.some.inj ho').symm
        obtain rfl : q = f.place := hinj _ _ _ hq hc
        intro j hj hfl hg hd
        rcases hm j hj hfl hg hd with h1 | h1
        · rcases hb j h1 hj with h2 | h2
          · exact absurd h2 hfl
          · exact absurd h2 hg
        · exact .inr h1
      · exact h.due q c o' hq ho' (by simpa using hcid)
    | yields hp hr hw hph hb =>
      have : answer s id r = { s with waking := some f.place, log := .yielded id :: s.log } := by
        simp [answer, hp, hst, hr, hw]
      rw [this]
      refine ⟨.yielded id :: new, by simp [h.log], ?_, fresh_cons (by simp) h.fresh⟩
      intro q c o' hq ho' _ j hj hfl hg hd
      by_cases hcid : c = id
      · subst hcid
        exact .inr (.inr (.inl (.head _)))
      · rcases h.due q c o' hq ho' (by simpa using hcid) j hj hfl hg hd.of_cons with h1 | ⟨h1, h2⟩ | h1
        · exact .inl h1
        · exact .inr (.inl ⟨h1, .inl ((h2.resolve_right (hnt _)).cons_other (by simp))⟩)
        · exact .inr (.inr h1.cons)

/-- A list changes while nobody polls it. -/
theorem setList_J {s0 s : Sys V S O} {new : List Note} (h : JX s0 new s none) {c : Nat} {l l' : LObj}
    (ho : s.objs[c]? = some (.list l)) (hrun : l'.running = l.running) (hl : l'.late = l.late)
    (hdone : l'.done = l.done) (hq : ∀ i ∈ l.queue, i ∈ l'.queue) (hg : ∀ i ∈ l.gone, i ∈ l'.gone) (w : Option Place) (n1 : List Note)
    (hn1 : ∀ x ∈ n1, ∃ c i, x = .inserted c i)
    (hnew : ∀ i, l.n ≤ i → i < l'.n → .inserted c i ∈ n1)
    (hf : ∀ c i, .inserted c i ∈ n1 ++ new → ∀ o : Obj V S O, s0.objs[c]? = some o → o.size ≤ i) :
    JX s0 (n1 ++ new) { s with objs := s.objs.set c (.list l'), waking := w, log := n1 ++ s.log } none := by
  have hdue : ∀ p, Due s0.log (n1 ++ new) p ↔ Due s0.log new p := by
    intro p
    constructor
    · exact fun h => ⟨h.1, fun hm => h.2 (List.mem_append_right _ hm)⟩
    · refine fun h => ⟨h.1, fun hm => ?_⟩
      rcases List.mem_append.1 hm with h1 | h1
      · obtain ⟨c, i, h2⟩ := hn1 _ h1; cases h2
      · exact h.2 h1
  have hlate : ∀ c i, Late new c i → Late (n1 ++ new) c i := fun c i =>
    Or.imp (List.mem_append_right _) (List.mem_append_right _)
  have hmem : ∀ i ∈ l.queue ++ l.late, i ∈ l'.queue ++ l'.late := by
    intro i hi
    rw [hl]
    exact (List.mem_append.1 hi).elim (fun hi => List.mem_append_left _ (hq i hi)) (List.mem_append_right _)
  refine ⟨by simp [h.log], ?_, hf⟩
  intro q c' o' hq' ho' _ i hi hfi hgi hd
  simp only at hq' ho'
  rcases set_get ho' with ⟨rfl, rfl⟩ | ⟨hne, ho'⟩
  · by_cases hlt : i < l.n
    · have hfi : i ∉ l'.done := hfi
      rw [hdone] at hfi
      rcases h.due q c' _ hq' ho (by simp) i hlt hfi (fun h => hgi (hg i h)) ((hdue _).1 hd) with h1 | ⟨h1, h2⟩ | h1
      · left
        simp only [Obj.rest, hrun] at h1 ⊢
        split at h1
        · exact hmem i h1
        · cases h1
      · exact .inr (.inl ⟨hmem i h1, h2.imp_left (hdue _).2⟩)
      · exact .inr (.inr (hlate _ _ h1))
    · exact .inr (.inr (.inr (List.mem_append_left _ (hnew i (Nat.le_of_not_lt hlt) hi))))
  · rcases h.due q c' o' hq' ho' (by simp) i hi hfi hgi ((hdue _).1 hd) with h1 | ⟨h1, h2⟩ | h1
    · exact .inl h1
    · exact .inr (.inl ⟨h1, h2.imp_left (hdue _).2⟩)
    · exact .inr (.inr (hlate _ _ h1))

theorem step_J {s0 : Sys V S O} {s s' : Sys V S O} (hI : Inv s) (h : J s0 s) {e : Event V S O}
    (hs : step s e = some s') : J s0 s' := by
  obtain ⟨hgr, new, h⟩ := h
  have hgr' := hgr.trans (step_grows hs)
  cases e with
  | pollTask t =>
    simp only [step] at hs
    split at hs
    · next hc =>
      cases hs
      refine ⟨hgr', .polled (.task t) :: new, by simp [h.log], ?_, fresh_cons (by simp) h.fresh⟩
      intro q c o hq ho _ i hi hf hg hd
      rcases h.due q c o hq ho (by simp) i hi hf hg hd.of_cons with h1 | ⟨h1, h2⟩ | h1
      · exact .inl h1
      · refine .inr (.inl ⟨h1, ?_⟩)
        have h2 := h2.resolve_right (not_top_of_nil hc.1 q)
        by_cases he : q = .task t
        · exact .inr ⟨[], by rw [he]⟩
        · exact .inl (h2.cons_other (by simpa using Ne.symm he))
      · exact .inr (.inr h1.cons)
    · cases hs
  | create g n =>
    simp only [step] at hs
    split at hs
    · next f fs hst hw =>
      cases hs
      refine ⟨hgr', new, h.log, ?_, h.fresh⟩
      intro q c o hq ho _ i hi hf hg hd
      simp only [update_eq] at hq
      split at hq
      · next hqf =>
        cases hq
        simp only [List.getElem?_append_right (Nat.le_refl _), Nat.sub_self, List.getElem?_cons_zero,
          Option.some.injEq] at ho
        subst ho
        refine .inr (.inl ⟨?_, .inr ⟨fs, by rw [hqf]⟩⟩)
        rw [new_awake_obj]; simpa [Obj.size] using hi
      · next hne =>
        have hlt := hI.bound q c hq
        simp only [List.getElem?_append_left hlt] at ho
        refine (h.due q c o hq ho (by simp) i hi hf hg hd).imp_right (Or.imp_left fun ⟨h1, h2⟩ => ⟨h1, h2.imp_right ?_⟩)
        rintro ⟨fs', hfs⟩
        rw [hst] at hfs; cases hfs
        exact absurd rfl hne
    · cases hs
  | cancel =>
    simp only [step] at hs
    split at hs
    · next f fs hst hw =>
      cases hs
      refine ⟨hgr', new, h.log, ?_, h.fresh⟩
      intro q c o hq ho _
      simp only [update_eq] at hq
      split at hq
      · cases hq
      · exact h.due q c o hq ho (by simp)
    · cases hs
  | await =>
    simp only [step] at hs
    split at hs
    · next f fs hst hw =>
      split at hs
      · next id hc =>
        split at hs
        · next s1 r h1 =>
          cases hs
          have hg1 := stepObj_grows h1
          obtain ⟨o, o1, ho, hstep, rfl⟩ := stepObj_some h1
          simp only at ho
          have hb := hI.own hc ho (by simp)
          refine answer_J (o := o1) (f := ⟨f.place, true⟩) (fs := fs) (new := new) hI.inj (hgr.trans hg1) ?_ rfl rfl hc
            (get_set ho) ?_ (fun hr => (ready_facts hb.ok hstep (by simp) hr).1)
          · refine ⟨h.log, ?_, h.fresh⟩
            intro q c o' hq ho' hne i hi hf hg hd
            simp only at ho'
            rcases set_get ho' with ⟨rfl, -⟩ | ⟨hcid, ho'⟩
            · exact absurd rfl hne
            · refine (h.due q c o' hq ho' (by simp) i hi hf hg hd).imp_right
                (Or.imp_left fun ⟨h1, h2⟩ => ⟨h1, h2.imp_right ?_⟩)
              rintro ⟨fs', hfs⟩
              rw [hst] at hfs; cases hfs
              simp only at hq
              rw [hc] at hq; cases hq
              exact absurd rfl hcid
          · intro hr
            obtain ⟨hidle, a1, a2, a3, a4, a5, a6, a7⟩ := poll_facts hb.ok hstep hr
            refine ⟨o.awake, ?_, a2⟩
            intro i hi hf hg hd
            rw [a4] at hf
            rw [a5] at hg
            rcases h.due _ _ _ hc ho (by simp) i (a3 ▸ hi) hf hg hd with h2 | h2 | h2
            · rw [Obj.rest_nil hidle] at h2; cases h2
            · exact .inl h2.1
            · exact .inr (.inr h2)
        · cases hs
      · cases hs
    · cases hs
  | ret x =>
    simp only [step] at hs
    split at hs
    · next f fs hst hw =>
      split at hs
      · next hc =>
        generalize hs0 : (if x.isSome = true then
          { s with child := update s.child f.place none, log := .returned f.place :: s.log } else s) = s1 at hs
        have hobjs : s1.objs = s.objs := by subst hs0; cases x.isSome <;> rfl
        have hch : ∀ q c, s1.child q = some c → s.child q = some c ∧ (q = f.place → x.isSome = false) := by
          intro q c hq
          subst hs0
          cases hrs : x.isSome with
          | false => rw [hrs] at hq; exact ⟨hq, fun _ => rfl⟩
          | true =>
            simp only [hrs, if_true, update_eq] at hq
            split at hq
            · cases hq
            · next hne => exact ⟨hq, fun h => absurd h hne⟩
        have htop : ∀ q c, s.child q = some c → (q = f.place → x.isSome = false) → ¬ Top s q := by
          rintro q c hq hb ⟨fs', hf⟩
          rw [hst] at hf; cases hf
          rcases hc with hr | hr | hr
          · rw [hb rfl] at hr; cases hr
          · rw [hr] at hq; cases hq
          · cases hr
        obtain ⟨new0, hlog0, hdue, hlate, hfr⟩ : ∃ new0, s1.log = new0 ++ s0.log ∧ (∀ p, Due s0.log new0 p ↔ Due s0.log new p) ∧
            (∀ c i, Late new c i → Late new0 c i) ∧
            ∀ c i, .inserted c i ∈ new0 → ∀ o : Obj V S O, s0.objs[c]? = some o → o.size ≤ i := by
          subst hs0
          cases hrs : x.isSome with
          | false => exact ⟨new, by simpa using h.log, fun _ => .rfl, fun _ _ h => h, h.fresh⟩
          | true =>
            exact ⟨.returned f.place :: new, by simp [h.log], fun p => ⟨.of_cons, .cons_other (by simp)⟩,
              fun _ _ h => h.cons, fresh_cons (by simp) h.fresh⟩
        have hJ0 : ∀ skip fs', JX s0 new0 { s1 with stack := fs' } skip := by
          intro skip fs'
          refine ⟨hlog0, ?_, hfr⟩
          intro q c o hq ho _ i hi hf hg hd
          obtain ⟨hq', hb⟩ := hch q c hq
          simp only [hobjs] at ho
          rcases h.due q c o hq' ho (by simp) i hi hf hg ((hdue _).1 hd) with h1 | ⟨h1, h2⟩ | h1
          · exact .inl h1
          · refine .inr (.inl ⟨h1, ?_⟩)
            rcases h2 with h2 | h2
            · exact .inl ((hdue _).2 h2)
            · exact absurd h2 (htop q c hq' hb)
          · exact .inr (.inr (hlate _ _ h1))
        split at hs
        · next id i f' fs' hf =>
          split at hs
          · next s2 r h1 =>
            cases hs
            have hg1 := stepObj_grows h1
            obtain ⟨o, o1, ho, hstep, rfl⟩ := stepObj_some h1
            simp only [hobjs] at ho
            have hl := hI.links
            rw [hst] at hl
            have hnd := hI.nodup
            rw [hst] at hnd
            have hnd2 : f.place ∉ places (f' :: fs') ∧ (places (f' :: fs')).Nodup := List.nodup_cons.1 hnd
            obtain ⟨id', i', o', a1, a2, a3, a4, a5⟩ := hl.1
            rw [hf] at a1; cases a1
            rw [ho] at a3; cases a3
            have hb := hI.own a2 ho (by simp)
            have hff : f'.place ≠ f.place := by
              intro he; refine hnd2.1 ?_; rw [← he]; simp [places]
            have hch' : s1.child f'.place = some id := by
              subst hs0
              cases x.isSome with
              | false => exact a2
              | true => simp only [if_true, update_eq, hff, if_false]; exact a2
            refine answer_J (o := o1) (f := f') (fs := fs') (new := new0) ?_ (hgr.trans (by rw [← hobjs]; exact hg1)) ?_ rfl a5 hch'
              (get_set (by simp only [hobjs]; exact ho)) ?_ (fun hr => (ready_facts hb.ok hstep (by simp) hr).1)
            · intro q q' c h1 h2
              exact hI.inj q q' c (hch q c h1).1 (hch q' c h2).1
            · refine ⟨hlog0, ?_, hfr⟩
              intro q c o' hq ho' hne
              simp only at ho'
              rcases set_get ho' with ⟨rfl, -⟩ | ⟨hcid, ho'⟩
              · exact absurd rfl hne
              · exact (hJ0 (some id) (f' :: fs')).due q c o' hq ho' hne
            · intro hr
              obtain ⟨b0, b1, b2, b3, b4, b5, b6, b7, b8, b9⟩ := back_facts hb.ok hstep hr
              refine ⟨o.rest, ?_, b3⟩
              intro j hj hfl hg hd
              rw [b4] at hj
              rcases (hJ0 none (f' :: fs')).due _ _ o hch' (by simp only [hobjs]; exact ho) (by simp) j hj
                (fun h => hfl ((b5 j hj).2 (.inl h))) (fun h => hg ((b6 j).2 h)) hd with h1 | ⟨h1, h2⟩ | h1
              · exact .inl h1
              · rcases b9 j h1 with h3 | h3
                · exact .inr (.inl ⟨h3, h2⟩)
                · exact .inl h3
              · exact .inr (.inr h1)
          · cases hs
        · cases hs
        · cases hs; exact ⟨hgr', new0, hJ0 none _⟩
      · cases hs
    · cases hs
  | newList limit =>
    simp only [step] at hs
    split at hs
    · cases hs
      refine ⟨hgr', new, h.log, ?_, h.fresh⟩
      intro q c o hq ho _
      have hlt := hI.bound q c hq
      simp only [List.getElem?_append_left hlt] at ho
      exact h.due q c o hq ho (by simp)
    · cases hs
  | insert c =>
    simp only [step] at hs
    split at hs
    · next l ho hw =>
      cases hs
      refine ⟨hgr', [.inserted c l.n] ++ new, ?_⟩
      refine setList_J (l' := (LObj.push { l with n := l.n + 1 } l.n).1) h ho rfl rfl rfl
        (fun i hi => List.mem_append_left _ hi) (fun _ h => h) (LObj.push { l with n := l.n + 1 } l.n).2 [.inserted c l.n]
        (by simp) ?_ ?_
      · intro i h1 h2
        have h2 : i < l.n + 1 := h2
        obtain rfl : i = l.n := by omega
        exact .head _
      · intro c' i hm o ho'
        simp only [List.cons_append, List.nil_append, List.mem_cons] at hm
        rcases hm with hm | hm
        · cases hm
          obtain ⟨o', h1, h2⟩ := hgr _ _ ho'
          rw [ho] at h1; cases h1
          exact h2
        · exact h.fresh c' i hm o ho'
    · cases hs
  | remove c i =>
    simp only [step] at hs
    split at hs
    · next l ho hw =>
      split at hs
      · next hi =>
        split at hs
        · cases hs
          refine ⟨hgr', new, ?_⟩
          exact setList_J (l' := { l with gone := i :: l.gone }) h ho rfl rfl rfl (fun _ h => h) (fun _ h => .tail _ h)
            s.waking [] (by simp) (fun i h1 h2 => absurd h2 (Nat.not_lt.2 h1)) h.fresh
        · cases hs
          refine ⟨hgr', new, ?_⟩
          exact setList_J (l' := (LObj.push { l with gone := i :: l.gone } i).1) h ho rfl rfl rfl
            (fun _ h => List.mem_append_left _ h) (fun _ h => .tail _ h) (LObj.push { l with gone := i :: l.gone } i).2 []
            (by simp) (fun i h1 h2 => absurd h2 (Nat.not_lt.2 h1)) h.fresh
      · cases hs
    · cases hs
  | render c =>
    simp only [step] at hs
    split at hs
    · next f fs l hst hw ho =>
      split at hs
      · next hrun =>
        cases hs
        refine ⟨hgr', new, h.log, ?_, h.fresh⟩
        intro q c' o' hq ho' _ i hi hf hg hd
        simp only at hq ho'
        split at hq
        · next hqf =>
          cases hq
          simp only [Sys.setObj] at ho'
          rw [get_set ho] at ho'
          cases ho'
          have hcore := hI.core c _ ho (by simp) (.inl trivial)
          have hn : NeedsPoll (.sub c i) s.log := by rw [h.log]; exact hd.needs
          refine .inr (.inl ⟨?_, .inr ⟨fs, by rw [hqf]⟩⟩)
          rcases hcore.need i hi hf hg hn with h1 | h1
          · exact h1
          · simp [Obj.rest, hrun] at h1
        · next hne =>
          split at hq
          · cases hq
          · next hcne =>
            simp only [Sys.setObj] at ho'
            rcases set_get ho' with ⟨rfl, -⟩ | ⟨-, ho'⟩
            · exact absurd hq hcne
            · refine (h.due q c' o' hq ho' (by simp) i hi hf hg hd).imp_right
                (Or.imp_left fun ⟨h1, h2⟩ => ⟨h1, h2.imp_right ?_⟩)
              rintro ⟨fs', hfs⟩
              rw [hst] at hfs; cases hfs
              exact absurd rfl hne
      · cases hs
    · cases hs
  | wake p =>
    simp only [step] at hs
    split at hs
    · cases hs; exact ⟨hgr', new, h.log, h.due, h.fresh⟩
    · cases hs
  | propagate =>
    simp only [step] at hs
    split at hs
    · cases hs
    · next t hw =>
      cases hs
      refine ⟨hgr', .woken (.task t) :: new, by simp [h.log], ?_, fresh_cons (by simp) h.fresh⟩
      intro q c o hq ho _ i hi hf hg hd
      exact (h.due q c o hq ho (by simp) i hi hf hg hd.of_cons).imp_right
        (Or.imp (fun ⟨h1, h2⟩ => ⟨h1, h2.imp_left (.cons_other (by simp))⟩) Late.cons)
    · next id i hw =>
      split at hs
      · next s1 r h1 =>
        cases hs
        obtain ⟨o, o1, ho, hstep, rfl⟩ := stepObj_some h1
        simp only at ho
        refine ⟨hgr', .woken (.sub id i) :: new, by simp [h.log], ?_, fresh_cons (by simp) h.fresh⟩
        intro q c o' hq ho' _ j hj hf hg hd
        simp only at hq ho'
        rcases set_get ho' with ⟨rfl, rfl⟩ | ⟨hcid, ho'⟩
        · have h1 := hI.own hq ho (by simp)
          obtain ⟨a1, a2, a3, a4, a5, a6, a7, a8, a9, a10⟩ := wake_facts h1.ok hstep
          rw [a4] at hf
          rw [a5] at hg
          rcases h.due q c o hq ho (by simp) j (a3 ▸ hj) hf hg hd.of_cons with h2 | ⟨h2, h3⟩ | h2
          · exact .inl (a8 j h2)
          · exact .inr (.inl ⟨a7 j h2, h3.imp_left (.cons_other (by simp))⟩)
          · exact .inr (.inr h2.cons)
        · exact (h.due q c o' hq ho' (by simp) j hj hf hg hd.of_cons).imp_right
            (Or.imp (fun ⟨h1, h2⟩ => ⟨h1, h2.imp_left (.cons_other (by simp))⟩) Late.cons)
      · cases hs

theorem run_J {s0 s s' : Sys V S O} (hI : Inv s) (h : J s0 s) {es : List (Event V S O)}
    (hs : run s es = some s') : J s0 s' := by
  induction es generalizing s with
  | nil => cases hs; exact h
  | cons e es ih =>
    simp only [run] at hs
    split at hs
    · next s1 h1 => exact ih (step_inv hI h1) (step_J hI h h1) hs
    · cases hs

end Verif.Nested
