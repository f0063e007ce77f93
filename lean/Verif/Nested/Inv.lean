import Verif.Nested.Objects
/-! The invariant of nested combinators and lists. -/
namespace Verif.Nested
open Verif.Comb
variable {V S O : Type}

/-- The innermost block, not yet awaiting in this poll. -/
def Top (s : Sys V S O) (q : Place) : Prop := ∃ fs, s.stack = ⟨q, false⟩ :: fs

def places (fs : List Frame) : List Place := fs.map (·.place)

/-- The block below in the stack awaits the combinator or list of the block above. -/
def Links (s : Sys V S O) : List Frame → Prop
  | [] => True
  | f :: fs =>
    (match fs with
     | [] => ∃ t, f.place = .task t
     | f' :: _ => ∃ id i o, f.place = .sub id i ∧ s.child f'.place = some id ∧ s.objs[id]? = some o ∧
        o.busy = some i ∧ f'.awaited = true) ∧ Links s fs

/-- What holds of a combinator that is awaited, and of any list. -/
structure Core (s : Sys V S O) (c : Nat) (o : Obj V S O) : Prop where
  ok : o.Ok
  busy : ∀ i, o.busy = some i → .sub c i ∈ places s.stack
  fin : ∀ i, i < o.size → (o.fin i ↔ .returned (.sub c i) ∈ s.log)
  bnd : ∀ i, .returned (.sub c i) ∈ s.log → i < o.size
  need : ∀ i, i < o.size → ¬ o.fin i → ¬ o.gone i → NeedsPoll (.sub c i) s.log → i ∈ o.awake ∨ i ∈ o.rest

/-- What holds of a combinator or list that is awaited by `q`. -/
structure Link (s : Sys V S O) (q : Place) (o : Obj V S O) : Prop where
  pend : o.Urgent → NeedsPoll q s.log ∨ s.waking = some q ∨ Top s q
  par : Top s q ∨ o.Par q

/-- The invariant; about number `skip` only that it exists. -/
structure InvX (s : Sys V S O) (skip : Option Nat) : Prop where
  bound : ∀ q c, s.child q = some c → c < s.objs.length
  inj : ∀ q q' c, s.child q = some c → s.child q' = some c → q = q'
  logB : ∀ c i, .returned (.sub c i) ∈ s.log → c < s.objs.length
  links : Links s s.stack
  nodup : (places s.stack).Nodup
  core : ∀ c o, s.objs[c]? = some o → some c ≠ skip → (o.isList ∨ ∃ q, s.child q = some c) → Core s c o
  link : ∀ q c o, s.child q = some c → s.objs[c]? = some o → some c ≠ skip → Link s q o

abbrev Inv (s : Sys V S O) : Prop := InvX s none

theorem InvX.own {s : Sys V S O} {skip : Option Nat} (h : InvX s skip) {q : Place} {c : Nat} {o : Obj V S O}
    (hq : s.child q = some c) (ho : s.objs[c]? = some o) (hne : some c ≠ skip) : Core s c o :=
  h.core c o ho hne (.inr ⟨q, hq⟩)

theorem needs_polled {p q : Place} {l : List Note} : NeedsPoll p (.polled q :: l) ↔ q ≠ p ∧ NeedsPoll p l := .rfl
theorem needs_woken {p q : Place} {l : List Note} : NeedsPoll p (.woken q :: l) ↔ q = p ∨ NeedsPoll p l := .rfl
theorem needs_returned {p q : Place} {l : List Note} : NeedsPoll p (.returned q :: l) ↔ NeedsPoll p l := .rfl
theorem needs_yielded {p : Place} {c : Nat} {l : List Note} : NeedsPoll p (.yielded c :: l) ↔ NeedsPoll p l := .rfl
theorem needs_inserted {p : Place} {c i : Nat} {l : List Note} : NeedsPoll p (.inserted c i :: l) ↔ NeedsPoll p l := .rfl

theorem Core.mono {s s' : Sys V S O} {c : Nat} {o : Obj V S O} (h : Core s c o)
    (hb : ∀ i, o.busy = some i → .sub c i ∈ places s.stack → .sub c i ∈ places s'.stack)
    (hl : ∀ i, .returned (.sub c i) ∈ s'.log ↔ .returned (.sub c i) ∈ s.log)
    (hn : ∀ i, NeedsPoll (.sub c i) s'.log → NeedsPoll (.sub c i) s.log) : Core s' c o :=
  ⟨h.ok, fun i hi => hb i hi (h.busy i hi), fun i hi => by rw [h.fin i hi, hl], fun i hm => h.bnd i ((hl i).1 hm),
    fun i hi hf hg hp => h.need i hi hf hg (hn i hp)⟩

theorem Links.congr {s s' : Sys V S O} : ∀ {fs : List Frame}, Links s fs →
    (∀ q ∈ places fs.tail, s'.child q = s.child q) →
    (∀ id i, .sub id i ∈ places fs → ∀ o, s.objs[id]? = some o → ∃ o', s'.objs[id]? = some o' ∧ o'.busy = o.busy) →
    Links s' fs
  | [], _, _, _ => trivial
  | f :: fs, h, h1, h2 => by
    refine ⟨?_, Links.congr h.2 (fun q hq => h1 q ?_) (fun id i hm => h2 id i (by simp [places] at hm ⊢; exact .inr hm))⟩
    · have := h.1
      cases fs with
      | nil => exact this
      | cons f' fs =>
        obtain ⟨id, i, o, a1, a2, a3, a4, a5⟩ := this
        obtain ⟨o', b1, b2⟩ := h2 id i (by simp [places, a1]) o a3
        exact ⟨id, i, o', a1, by rw [h1 _ (by simp [places])]; exact a2, b1, b2 ▸ a4, a5⟩
    · cases fs with
      | nil => simp [places] at hq
      | cons f' fs => simp [places] at hq ⊢; exact .inr hq

theorem Links.weak {s : Sys V S O} {f f' : Frame} {fs : List Frame} (h : Links s (f :: fs)) (hp : f'.place = f.place) :
    Links s (f' :: fs) := by
  refine ⟨?_, h.2⟩
  have := h.1
  cases fs with
  | nil => exact hp ▸ this
  | cons _ _ => exact hp ▸ this

/-- Every block of the stack is being polled by its combinator or list. -/
theorem Links.phase {s : Sys V S O} {id i : Nat} : ∀ {fs : List Frame}, Links s fs → .sub id i ∈ places fs →
    ∃ o, s.objs[id]? = some o ∧ o.busy = some i
  | [], _, hm => by simp [places] at hm
  | f :: fs, h, hm => by
    rw [places, List.map_cons, List.mem_cons] at hm
    rcases hm with hm | hm
    · have := h.1
      cases fs with
      | nil => obtain ⟨t, ht⟩ := this; rw [ht] at hm; cases hm
      | cons f' fs =>
        obtain ⟨id', i', o, a1, a2, a3, a4, a5⟩ := this
        rw [a1] at hm; cases hm
        exact ⟨o, a3, a4⟩
    · exact Links.phase h.2 hm

/-- What a block awaits that is not the innermost one is polling a block. -/
theorem Links.tail {s : Sys V S O} : ∀ {fs : List Frame} {q : Place}, Links s fs → q ∈ places fs.tail →
    ∃ id i o, s.child q = some id ∧ s.objs[id]? = some o ∧ o.busy = some i
  | [], _, _, hm => by simp [places] at hm
  | f :: [], _, _, hm => by simp [places] at hm
  | f :: f' :: fs, q, h, hm => by
    simp only [places, List.tail_cons, List.map_cons, List.mem_cons] at hm
    rcases hm with rfl | hm
    · obtain ⟨id, i, o, a1, a2, a3, a4, a5⟩ := h.1
      exact ⟨id, i, o, a2, a3, a4⟩
    · exact Links.tail h.2 hm

/-- The owner of the combinator or list of a block of the stack is below the top of the stack. -/
theorem Links.below {s : Sys V S O} {id i : Nat} {q : Place} (hinj : ∀ q q' c, s.child q = some c → s.child q' = some c → q = q')
    (hq : s.child q = some id) : ∀ {fs : List Frame}, Links s fs → .sub id i ∈ places fs → q ∈ places fs.tail
  | [], _, hm => by simp [places] at hm
  | f :: fs, h, hm => by
    rw [places, List.map_cons, List.mem_cons] at hm
    rcases hm with hm | hm
    · have := h.1
      cases fs with
      | nil => obtain ⟨t, ht⟩ := this; rw [ht] at hm; cases hm
      | cons f' fs =>
        obtain ⟨id', i', o, a1, a2, a3, a4, a5⟩ := this
        rw [a1] at hm; cases hm
        rw [hinj _ _ _ hq a2]; simp [places]
    · have := Links.below hinj hq h.2 hm
      cases fs with
      | nil => simp [places] at this
      | cons f' fs => simp [places] at this ⊢; exact .inr this

theorem init_inv : Inv (init : Sys V S O) := by
  refine ⟨?_, ?_, ?_, trivial, List.nodup_nil, ?_, ?_⟩ <;> simp [init]

/-- What is awaited by the innermost block is idle. -/
theorem Inv.top_idle {s : Sys V S O} {skip} (h : InvX s skip) {f : Frame} {fs : List Frame} (hs : s.stack = f :: fs)
    {id : Nat} (hc : s.child f.place = some id) (i : Nat) : .sub id i ∉ places s.stack := by
  intro hm
  have := h.links.below h.inj hc hm
  rw [hs] at this
  have hn := h.nodup
  rw [hs] at hn
  simp only [places, List.map_cons, List.nodup_cons, List.tail_cons] at hn this
  exact hn.1 this

/-! ### What is awaited has answered -/

/-- What holds of the combinator or list that has just been polled, or whose block has just returned. -/
structure Mid (s : Sys V S O) (q : Place) (id : Nat) (o : Obj V S O) (before : List Nat) (r : Reply) : Prop where
  ok : o.Ok
  fin : ∀ i, i < o.size → (o.fin i ↔ .returned (.sub id i) ∈ s.log)
  bnd : ∀ i, .returned (.sub id i) ∈ s.log → i < o.size
  need : ∀ i, i < o.size → ¬ o.fin i → ¬ o.gone i → NeedsPoll (.sub id i) s.log → i ∈ o.awake ∨ i ∈ before
  pend : o.Urgent → NeedsPoll q s.log ∨ r.wakes = some q
  par : o.Par q

theorem answer_inv {s : Sys V S O} {f : Frame} {fs : List Frame} {id : Nat} {o : Obj V S O}
    {r : Reply} (h : InvX s (some id)) (hst : s.stack = f :: fs) (hf : f.awaited = true)
    (hwk : s.waking = none)
    (hc : s.child f.place = some id) (ho : s.objs[id]? = some o) (hnot : ∀ i, .sub id i ∉ places s.stack)
    (hans : r.ready = false → ∃ before, Mid s f.place id o before r ∧ Answer o before f.place r)
    (hrdy : r.ready = true → r.polls = none ∧ ¬ o.isList) : Inv (answer s id r) := by
  have hnt : ∀ q, ¬ Top s q := by
    rintro q ⟨fs', hfs⟩
    rw [hst] at hfs; cases hfs; cases hf
  by_cases hr : r.ready = true
  · obtain ⟨hp, hlist⟩ := hrdy hr
    have he : answer s id r = { s with child := update s.child f.place none } := by
      simp only [answer, hp, hr, if_true]
      split
      · next f' fs' he => rw [hst] at he; cases he; rfl
      · next he => rw [hst] at he; cases he
    rw [he]
    have hnd := h.nodup
    rw [hst] at hnd
    simp only [places, List.map_cons, List.nodup_cons] at hnd
    have hch : ∀ q c, update s.child f.place none q = some c → q ≠ f.place ∧ s.child q = some c := by
      intro q c hq
      simp only [update] at hq
      split at hq
      · cases hq
      · next hne => exact ⟨hne, hq⟩
    have hne : ∀ q c, update s.child f.place none q = some c → some c ≠ some id := by
      rintro q c hq ⟨⟩
      exact (hch q id hq).1 (h.inj _ _ _ (hch q id hq).2 hc)
    refine ⟨?_, ?_, h.logB, ?_, h.nodup, ?_, ?_⟩
    · intro q c hq; exact h.bound q c (hch q c hq).2
    · intro q q' c h1 h2; exact h.inj q q' c (hch q c h1).2 (hch q' c h2).2
    · refine h.links.congr ?_ fun id i _ o ho => ⟨o, ho, rfl⟩
      intro q hq
      simp only [hst, List.tail_cons] at hq
      simp only [update, ite_eq_right_iff]
      rintro rfl
      exact absurd hq hnd.1
    · intro c o' ho' _ hk
      refine (h.core c o' ho' ?_ ?_).mono (fun _ _ h => h) (fun _ => .rfl) (fun _ h => h)
      · rcases hk with hk | ⟨q, hq⟩
        · rintro ⟨⟩
          simp only at ho'
          rw [ho] at ho'; cases ho'
          exact hlist hk
        · exact hne q c hq
      · exact hk.imp_right fun ⟨q, hq⟩ => ⟨q, (hch q c hq).2⟩
    · intro q c o' hq ho' _
      have := h.link q c o' (hch q c hq).2 ho' (hne q c hq)
      exact ⟨this.pend, this.par⟩
  · simp only [Bool.not_eq_true] at hr
    obtain ⟨before, hm, ha⟩ := hans hr
    have hqf : ∀ q c, s.child q = some c → some c ≠ some id → q ≠ f.place := by
      rintro q c h1 h2 rfl
      rw [hc] at h1; exact h2 h1.symm
    cases ha with
    | polls i hp hw hph hb =>
      simp only [answer, hp]
      have keep : ∀ q, NeedsPoll q s.log → NeedsPoll q (.polled (.sub id i) :: s.log) ∨
          (q = .sub id i) := by
        intro q hn
        by_cases he : Place.sub id i = q
        · exact .inr he.symm
        · exact .inl ⟨he, hn⟩
      have keep' : ∀ q, NeedsPoll q s.log → NeedsPoll q (.polled (.sub id i) :: s.log) ∨ s.waking = some q ∨
          ∃ fs, (⟨.sub id i, false⟩ :: s.stack : List Frame) = ⟨q, false⟩ :: fs := by
        intro q hn
        rcases keep q hn with h1 | h1
        · exact .inl h1
        · exact .inr (.inr ⟨s.stack, by rw [h1]⟩)
      refine ⟨h.bound, h.inj, ?_, ?_, ?_, ?_, ?_⟩
      · intro c j hm'
        exact h.logB c j (by simpa using hm')
      · refine ⟨?_, h.links.congr (fun _ _ => rfl) fun id i _ o ho => ⟨o, ho, rfl⟩⟩
        simp only [hst]
        exact ⟨id, i, o, rfl, hc, ho, hph, hf⟩
      · simp only [places, List.map_cons, List.nodup_cons]
        exact ⟨hnot i, h.nodup⟩
      · intro c o' ho' _ hk
        by_cases hcid : c = id
        · subst hcid
          obtain rfl : o' = o := by simp only at ho'; rw [ho] at ho'; exact (Option.some.inj ho').symm
          refine ⟨hm.ok, ?_, ?_, ?_, ?_⟩
          · intro j hp
            rw [hph] at hp; cases hp
            simp [places]
          · intro j hj
            rw [hm.fin j hj]; simp
          · intro j hj
            exact hm.bnd j (by simpa using hj)
          · intro j hj hfl hg hn
            rcases hm.need j hj hfl hg hn.2 with h1 | h1
            · exact .inl h1
            · rcases hb j h1 hj hfl hg with rfl | h2
              · exact absurd rfl hn.1
              · exact .inr h2
        · refine (h.core c o' ho' (by simpa using hcid) hk).mono ?_ ?_ ?_
          · intro j _ hj
            simp only [places, List.map_cons, List.mem_cons] at hj ⊢
            exact .inr hj
          · intro j; simp
          · intro j hn; exact hn.2
      · intro q c o' hq ho' _
        by_cases hcid : c = id
        · subst hcid
          obtain rfl : o' = o := by simp only at ho'; rw [ho] at ho'; exact (Option.some.inj ho').symm
          obtain rfl : q = f.place := h.inj _ _ _ hq hc
          refine ⟨fun hu => ?_, .inr hm.par⟩
          rcases hm.pend hu with h1 | h1
          · exact keep' _ h1
          · rw [hw] at h1; cases h1
        · have h0 := h.link q c o' hq ho' (by simpa using hcid)
          refine ⟨fun hu => ?_, .inr (h0.par.resolve_left (hnt q))⟩
          rcases h0.pend hu with h1 | h1 | h1
          · exact keep' _ h1
          · exact .inr (.inl h1)
          · exact absurd h1 (hnt q)
    | pending hp hr hw hph hb =>
      have : answer s id r = s := by
        simp [answer, hp, hst, hr, hw]
      rw [this]
      refine ⟨h.bound, h.inj, h.logB, h.links, h.nodup, ?_, ?_⟩
      · intro c o' ho' _ hk
        by_cases hcid : c = id
        · subst hcid
          obtain rfl : o' = o := by rw [ho] at ho'; exact (Option.some.inj ho').symm
          refine ⟨hm.ok, fun j hp => (by rw [hph] at hp; cases hp), hm.fin, hm.bnd, ?_⟩
          intro j hj hfl hg hn
          rcases hm.need j hj hfl hg hn with h1 | h1
          · exact .inl h1
          · rcases hb j h1 hj with h2 | h2
            · exact absurd h2 hfl
            · exact absurd h2 hg
        · exact h.core c o' ho' (by simpa using hcid) hk
      · intro q c o' hq ho' _
        by_cases hcid : c = id
        · subst hcid
          obtain rfl : o' = o := by rw [ho] at ho'; exact (Option.some.inj ho').symm
          obtain rfl : q = f.place := h.inj _ _ _ hq hc
          refine ⟨fun hu => .inl ?_, .inr hm.par⟩
          rcases hm.pend hu with h1 | h1
          · exact h1
          · rw [hw] at h1; cases h1
        · exact h.link q c o' hq ho' (by simpa using hcid)
    | yields hp hr hw hph hb =>
      have : answer s id r = { s with waking := some f.place, log := .yielded id :: s.log } := by
        simp [answer, hp, hst, hr, hw]
      rw [this]
      refine ⟨h.bound, h.inj, fun c i hm => h.logB c i (by simpa using hm),
        h.links.congr (fun _ _ => rfl) (fun _ _ _ o ho => ⟨o, ho, rfl⟩), h.nodup, ?_, ?_⟩
      · intro c o' ho' _ hk
        by_cases hcid : c = id
        · subst hcid
          obtain rfl : o' = o := by simp only at ho'; rw [ho] at ho'; exact (Option.some.inj ho').symm
          refine ⟨hm.ok, fun j hp => (by rw [hph] at hp; cases hp), fun j hj => (by rw [hm.fin j hj]; simp),
            fun j hj => hm.bnd j (by simpa using hj), ?_⟩
          intro j hj hfl hg hn
          rcases hm.need j hj hfl hg hn with h1 | h1
          · exact .inl h1
          · exact .inl (((hb j h1).resolve_left hfl).resolve_left hg)
        · exact (h.core c o' ho' (by simpa using hcid) hk).mono (fun _ _ h => h) (fun _ => by simp) (fun _ h => h)
      · intro q c o' hq ho' _
        by_cases hcid : c = id
        · subst hcid
          obtain rfl : o' = o := by simp only at ho'; rw [ho] at ho'; exact (Option.some.inj ho').symm
          obtain rfl : q = f.place := h.inj _ _ _ hq hc
          exact ⟨fun _ => .inr (.inl rfl), .inr hm.par⟩
        · have h0 := h.link q c o' hq ho' (by simpa using hcid)
          refine ⟨fun hu => ?_, .inr (h0.par.resolve_left (hnt q))⟩
          rcases h0.pend hu with h1 | h1 | h1
          · exact .inl h1
          · rw [hwk] at h1; cases h1
          · exact absurd h1 (hnt q)

theorem stepObj_some {s s' : Sys V S O} {id : Nat} {e : Ask V} {r : Reply}
    (h : stepObj s id e = some (s', r)) :
    ∃ o o', s.objs[id]? = some o ∧ o.step e = some (o', r) ∧ s' = { s with objs := s.objs.set id o' } := by
  simp only [stepObj] at h
  split at h
  · cases h
  · next o ho =>
    split at h
    · cases h
    · next o' r' hs =>
      simp only [Option.some.injEq, Prod.mk.injEq] at h
      obtain ⟨rfl, rfl⟩ := h
      exact ⟨o, o', ho, hs, rfl⟩

end Verif.Nested
