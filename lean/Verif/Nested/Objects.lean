import Verif.Nested.Facts
/-! Combinators and lists have the same interface: which of their blocks are to be polled, which one is being
polled, and whom they have to wake. -/
namespace Verif.Nested
open Verif.Comb
variable {V S O : Type}

/-- The block that is being polled. -/
def Obj.busy : Obj V S O → Option Nat
  | .comb o => match o.c.phase with | .polling i _ => some i | _ => none
  | .list l => l.running

def Obj.size : Obj V S O → Nat
  | .comb o => o.n
  | .list l => l.n

/-- The block has returned `Ready`. -/
def Obj.fin : Obj V S O → Nat → Prop
  | .comb o, i => o.c.filled[i]? = some true
  | .list l, i => i ∈ l.done

def Obj.gone : Obj V S O → Nat → Prop
  | .comb _, _ => False
  | .list l, i => i ∈ l.gone

/-- The item that is to be queued when it stops running. -/
def LObj.late (l : LObj) : List Nat :=
  match l.running with
  | some i => if l.again then [i] else []
  | none => []

/-- To be polled. -/
def Obj.awake : Obj V S O → List Nat
  | .comb o => o.awake
  | .list l => l.queue ++ l.late

/-- To be polled by the present poll. -/
def Obj.rest : Obj V S O → List Nat
  | .comb o => restOf o.c.phase
  | .list l => match l.running with | some _ => l.queue ++ l.late | none => []

/-- The owner has to be woken. -/
def Obj.Urgent : Obj V S O → Prop
  | .comb o => o.awake ≠ []
  | .list l => l.running = none ∧ l.waker = none

/-- `q` is whom the object wakes. -/
def Obj.Par : Obj V S O → Place → Prop
  | .comb o, q => o.n = 0 ∨ o.c.parent = some q
  | .list l, q => ∀ w, l.waker = some w → w = q

structure LQ (l : LObj) : Prop where
  bound : ∀ i ∈ l.queue, i < l.n
  dn : ∀ i ∈ l.done, i < l.n
  nd : l.queue.Nodup
  lim : l.left ≤ l.limit

structure LOk (l : LObj) : Prop extends LQ l where
  asleep : ∀ w, l.waker = some w → l.queue = [] ∧ l.running = none
  run : ∀ i, l.running = some i → i < l.n ∧ i ∉ l.queue

def Obj.Ok : Obj V S O → Prop
  | .comb o => COk o
  | .list l => LOk l

def Obj.isList : Obj V S O → Prop
  | .comb _ => False
  | .list _ => True

/-- What an object that has been asked does: `before` are the blocks that were to be polled, `w` polls it. -/
inductive Answer (o' : Obj V S O) (before : List Nat) (w : Place) (r : Reply) : Prop
  | polls (i : Nat) (hp : r.polls = some i) (hw : r.wakes = none) (hbusy : o'.busy = some i)
      (hb : ∀ j ∈ before, j < o'.size → ¬ o'.fin j → ¬ o'.gone j → j = i ∨ j ∈ o'.rest)
  | pending (hp : r.polls = none) (hr : r.ready = false) (hw : r.wakes = none) (hbusy : o'.busy = none)
      (hb : ∀ j ∈ before, j < o'.size → o'.fin j ∨ o'.gone j)
  | yields (hp : r.polls = none) (hr : r.ready = false) (hw : r.wakes = some w) (hbusy : o'.busy = none)
      (hb : ∀ j ∈ before, o'.fin j ∨ o'.gone j ∨ j ∈ o'.awake)

/-! ### lists -/

theorem next_yield {gone : List Nat} : ∀ {n : Nat} {q q' : List Nat}, next gone n q = .yield q' →
    (∀ j ∈ q, j ∈ gone ∨ j ∈ q') ∧ ∀ j ∈ q', j ∈ q
  | 0, q, q', h => by
    simp only [next, Next.yield.injEq] at h
    subst h
    exact ⟨fun _ h => .inr h, fun _ h => h⟩
  | n + 1, [], q', h => by simp [next] at h
  | n + 1, i :: q, q', h => by
    simp only [next] at h
    split at h
    · next hi =>
      obtain ⟨h1, h2⟩ := next_yield h
      refine ⟨fun j hj => ?_, fun j hj => .tail _ (h2 j hj)⟩
      rcases List.mem_cons.1 hj with rfl | hj
      · exact .inl hi
      · exact h1 j hj
    · cases h

theorem next_sleep {gone : List Nat} : ∀ {n n' : Nat} {q : List Nat}, next gone n q = .sleep n' →
    ∀ j ∈ q, j ∈ gone
  | 0, _, q, h => by simp [next] at h
  | n + 1, _, [], h => by simp
  | n + 1, n', i :: q, h => by
    simp only [next] at h
    split at h
    · next hi =>
      intro j hj
      rcases List.mem_cons.1 hj with rfl | hj
      · exact hi
      · exact next_sleep h j hj
    · cases h

theorem next_run {gone : List Nat} : ∀ {n n' i : Nat} {q q' : List Nat}, next gone n q = .run i n' q' →
    (∀ j ∈ q, j ∈ gone ∨ j = i ∨ j ∈ q') ∧ i ∈ q ∧ (∀ j ∈ q', j ∈ q)
  | 0, _, _, q, _, h => by simp [next] at h
  | n + 1, _, _, [], _, h => by simp [next] at h
  | n + 1, n', i, k :: q, q', h => by
    simp only [next] at h
    split at h
    · next hi =>
      obtain ⟨h1, h2, h3⟩ := next_run h
      refine ⟨fun j hj => ?_, .tail _ h2, fun j hj => .tail _ (h3 j hj)⟩
      rcases List.mem_cons.1 hj with rfl | hj
      · exact .inl hi
      · exact h1 j hj
    · simp only [Next.run.injEq] at h
      obtain ⟨rfl, rfl, rfl⟩ := h
      exact ⟨fun j hj => .inr (by simpa using hj), .head _, fun j hj => .tail _ hj⟩

/-- The queue is taken from the front; at most `limit` of it. -/
theorem next_suffix {gone : List Nat} : ∀ {n : Nat} {q : List Nat},
    (∀ q', next gone n q = .yield q' → q' <:+ q) ∧ (∀ n', next gone n q = .sleep n' → n' ≤ n) ∧
      (∀ i n' q', next gone n q = .run i n' q' → (i :: q') <:+ q ∧ n' ≤ n)
  | 0, q => by
    refine ⟨fun q' h => ?_, fun n' h => ?_, fun i n' q' h => ?_⟩ <;> simp only [next] at h
    · cases h; exact List.suffix_rfl
    · cases h
    · cases h
  | n + 1, [] => by
    refine ⟨fun q' h => ?_, fun n' h => ?_, fun i n' q' h => ?_⟩ <;> simp only [next] at h
    · cases h
    · cases h; exact Nat.le_refl _
    · cases h
  | n + 1, k :: q => by
    obtain ⟨h1, h2, h3⟩ := @next_suffix gone n q
    simp only [next]
    split
    · refine ⟨fun q' h => (h1 q' h).trans (List.suffix_cons _ _), fun n' h => Nat.le_succ_of_le (h2 n' h),
        fun i n' q' h => ⟨(h3 i n' q' h).1.trans (List.suffix_cons _ _), Nat.le_succ_of_le (h3 i n' q' h).2⟩⟩
    · refine ⟨fun q' h => (by cases h), fun n' h => (by cases h), fun i n' q' h => ?_⟩
      simp only [Next.run.injEq] at h
      obtain ⟨rfl, rfl, rfl⟩ := h
      exact ⟨List.suffix_rfl, Nat.le_succ _⟩

theorem go_facts {l : LObj} (hl : LQ l) {w : Place} {l' : LObj} {r : Reply} (h : l.go w = (l', r)) :
    LOk l' ∧ Answer (.list l' : Obj V S O) l.queue w r ∧ l'.n = l.n ∧ l'.done = l.done ∧ l'.gone = l.gone ∧
      (∀ v, l'.waker = some v → v = w) ∧ (l'.running = none → l'.waker = none → r.wakes = some w) ∧ r.ready = false := by
  simp only [LObj.go] at h
  split at h
  · next q hn =>
    obtain ⟨rfl, rfl⟩ := Prod.mk.inj h
    obtain ⟨h1, h2⟩ := next_yield hn
    have h3 := next_suffix.1 _ hn
    exact ⟨⟨⟨fun i hi => hl.bound i (h2 i hi), hl.dn, hl.nd.sublist h3.sublist, Nat.le_refl _⟩, by simp, by simp⟩,
      .yields rfl rfl rfl rfl (fun j hj => .inr ((h1 j hj).imp_right (List.mem_append_left _))), rfl, rfl, rfl, by simp,
      fun _ _ => rfl, rfl⟩
  · next left hn =>
    obtain ⟨rfl, rfl⟩ := Prod.mk.inj h
    have h3 := next_suffix.2.1 _ hn
    exact ⟨⟨⟨by simp, hl.dn, by simp, Nat.le_trans h3 hl.lim⟩, by simp, by simp⟩,
      .pending rfl rfl rfl rfl fun j hj _ => .inr (next_sleep hn j hj), rfl, rfl, rfl,
      fun v hv => (Option.some.inj hv).symm, fun _ h => by simp at h, rfl⟩
  · next i left q hn =>
    obtain ⟨rfl, rfl⟩ := Prod.mk.inj h
    obtain ⟨h1, h2, h3⟩ := next_run hn
    obtain ⟨h4, h5⟩ := next_suffix.2.2 _ _ _ hn
    have h6 := List.nodup_cons.1 (hl.nd.sublist h4.sublist)
    refine ⟨⟨⟨fun j hj => hl.bound j (h3 j hj), hl.dn, h6.2, Nat.le_trans h5 hl.lim⟩, by simp,
      fun j hj => by simp at hj; subst hj; exact ⟨hl.bound _ h2, h6.1⟩⟩, ?_, rfl, rfl, rfl,
      by simp, fun h => by simp at h, rfl⟩
    refine .polls i rfl rfl rfl ?_
    intro j hj _ _ hg
    exact ((h1 j hj).resolve_left hg).imp_right (List.mem_append_left _)

/-! ### both -/

theorem CObj.step_some {o o' : CObj V S O} {e : Comb.Event V Place} {out : List (Effect S O Place)}
    (h : o.step e = some (o', out)) :
    ∃ c', Comb.step o.g o.c e = some (c', out) ∧ .panicked ∉ out ∧ o' = ⟨o.g, o.n, c'⟩ := by
  simp only [CObj.step] at h
  split at h
  · cases h
  · next c' out' hs =>
    split at h
    · cases h
    · next hp =>
      simp only [Option.some.injEq, Prod.mk.injEq] at h
      obtain ⟨rfl, rfl⟩ := h
      exact ⟨c', hs, any_panic.1 (by simpa using hp), rfl⟩

theorem any_ready_true {out : List (Effect S O Place)} (hr : out.any Effect.isReady = true) :
    ∃ x ss, .retReady x ss ∈ out := by
  simp only [List.any_eq_true] at hr
  obtain ⟨x, hx, hx'⟩ := hr
  cases x <;> simp [Effect.isReady] at hx'
  exact ⟨_, _, hx⟩

theorem COk.unfilled {o : CObj V S O} (h : COk o) {j : Nat} (hj : j < o.n) (hf : ¬ o.c.filled[j]? = some true) :
    o.c.filled[j]? = some false := by
  have hlt : j < o.c.filled.length := by rw [h.good.flen, h.hn]; exact hj
  cases hx : o.c.filled[j]? with
  | none => simp at hx; omega
  | some b =>
    cases b with
    | false => rfl
    | true => exact absurd hx hf

theorem CAnswer.answer {o' : CObj V S O} (ho : COk o') {before : List Nat} {out : List (Effect S O Place)} (w : Place)
    (h : CAnswer o' before out) :
    Answer (.comb o') before w ⟨polledIn out, out.any Effect.isReady, wokenIn out⟩ := by
  cases h with
  | polls i rest hout hph hi hmem hb =>
    subst hout
    refine .polls i rfl rfl (by simp [Obj.busy, hph]) ?_
    intro j hj hlt hf _
    simpa [Obj.rest, hph, restOf] using hb j hj (ho.unfilled hlt hf)
  | pending hout hph hb =>
    subst hout
    exact .pending rfl rfl rfl (by simp [Obj.busy, hph]) fun j hj _ => .inl (hb j hj)

theorem Obj.step_comb {o : CObj V S O} {e : Ask V} {o' : Obj V S O} {r : Reply}
    (h : (Obj.comb o).step e = some (o', r)) :
    ∃ c' out, Comb.step o.g o.c e.event = some (c', out) ∧ .panicked ∉ out ∧ o' = .comb ⟨o.g, o.n, c'⟩ ∧
      r = ⟨polledIn out, out.any Effect.isReady, wokenIn out⟩ := by
  simp only [Obj.step] at h
  split at h
  · next o1 out h1 =>
    cases h
    obtain ⟨c', h2, h3, rfl⟩ := CObj.step_some h1
    exact ⟨c', out, h2, h3, rfl, rfl⟩
  · cases h

theorem Obj.step_list {l : LObj} {e : Ask V} {o' : Obj V S O} {r : Reply}
    (h : (Obj.list l).step e = some (o', r)) : ∃ l', l.step e = some (l', r) ∧ o' = .list l' := by
  simp only [Obj.step] at h
  split at h
  · next l1 r1 h1 => cases h; exact ⟨l1, h1, rfl⟩
  · cases h

theorem step_isList {o o' : Obj V S O} {e : Ask V} {r : Reply} (h : o.step e = some (o', r)) : o'.isList ↔ o.isList := by
  cases o with
  | comb o => obtain ⟨c', out, -, -, rfl, -⟩ := Obj.step_comb h; exact .rfl
  | list l => obtain ⟨l', -, rfl⟩ := Obj.step_list h; exact .rfl

theorem poll_facts {o o' : Obj V S O} (h : o.Ok) {w : Place} {r : Reply} (hs : o.step (.poll w : Ask V) = some (o', r))
    (hr : r.ready = false) :
    o.busy = none ∧ o'.Ok ∧ Answer o' o.awake w r ∧ o'.size = o.size ∧ (∀ j, o'.fin j ↔ o.fin j) ∧
      (∀ j, o'.gone j ↔ o.gone j) ∧ o'.Par w ∧ (o'.Urgent → r.wakes = some w) := by
  cases o with
  | comb o =>
    obtain ⟨c', out, h1, h2, rfl, rfl⟩ := Obj.step_comb hs
    obtain ⟨a0, a1, a2, a3, a4, a5⟩ := comb_poll_facts h h1 h2 (any_ready.1 hr)
    refine ⟨by simp [Obj.busy, a0], a1, a2.answer a1 w, rfl, fun j => by simp [Obj.fin, a3], fun _ => .rfl, a4, ?_⟩
    intro hu; exact absurd a5 hu
  | list l =>
    obtain ⟨l', h1, rfl⟩ := Obj.step_list hs
    simp only [LObj.step] at h1
    split at h1
    · next hrun =>
      obtain ⟨a1, a2, a3, a4, a5, a6, a7, a8⟩ := go_facts (V := V) (S := S) (O := O) h.toLQ (Option.some.inj h1)
      refine ⟨hrun, a1, by simpa [Obj.awake, LObj.late, hrun] using a2, a3, fun j => by simp [Obj.fin, a4], fun j => by simp [Obj.gone, a5], a6, ?_⟩
      intro hu; exact a7 hu.1 hu.2
    · cases h1

theorem back_list {l : LObj} (h : LOk l) {i : Nat} (hrun : l.running = some i) (b : Bool) :
    LQ (l.back i b) ∧ (l.back i b).n = l.n ∧
      (∀ j, j ∈ (l.back i b).done ↔ j ∈ l.done ∨ (j = i ∧ b = true)) ∧ (l.back i b).gone = l.gone ∧
      (∀ j ∈ l.queue ++ l.late, j ∈ (l.back i b).done ∨ j ∈ l.gone ∨ j ∈ (l.back i b).queue) := by
  obtain ⟨hi, hiq⟩ := h.run i hrun
  have hlate : ∀ j ∈ l.late, j = i ∧ l.again = true := by
    intro j hj
    simp only [LObj.late, hrun] at hj
    split at hj
    · next ha => exact ⟨by simpa using hj, ha⟩
    · cases hj
  simp only [LObj.back]
  split
  · next hb =>
    refine ⟨⟨h.bound, ?_, h.nd, h.lim⟩, rfl, fun j => by simp [hb, or_comm], rfl, ?_⟩
    · intro j hj
      rcases List.mem_cons.1 hj with rfl | hj
      · exact hi
      · exact h.dn j hj
    · intro j hj
      rcases List.mem_append.1 hj with hj | hj
      · exact .inr (.inr hj)
      · exact .inl (by simp [(hlate j hj).1])
  · next hb =>
    split
    · next hc =>
      refine ⟨⟨?_, h.dn, List.nodup_append.2 ⟨h.nd, by simp, ?_⟩, h.lim⟩, rfl, fun j => by simp [hb], rfl, ?_⟩
      · intro j hj
        rcases List.mem_append.1 hj with hj | hj
        · exact h.bound j hj
        · rw [List.mem_singleton.1 hj]; exact hi
      · intro a ha b hb he
        rw [List.mem_singleton.1 hb] at he
        exact hiq (he ▸ ha)
      · intro j hj
        rcases List.mem_append.1 hj with hj | hj
        · exact .inr (.inr (List.mem_append_left _ hj))
        · exact .inr (.inr (by simp [(hlate j hj).1]))
    · next hc =>
      refine ⟨⟨h.bound, h.dn, h.nd, h.lim⟩, rfl, fun j => by simp [hb], rfl, ?_⟩
      intro j hj
      rcases List.mem_append.1 hj with hj | hj
      · exact .inr (.inr hj)
      · obtain ⟨rfl, ha⟩ := hlate j hj
        exact .inr (.inl (Decidable.not_not.1 fun hg => hc ⟨ha, hg⟩))

theorem Answer.mono {o' : Obj V S O} {before before' : List Nat} {w : Place} {r : Reply} (h : Answer o' before w r)
    (hb : ∀ j ∈ before', o'.fin j ∨ o'.gone j ∨ j ∈ before) : Answer o' before' w r := by
  cases h with
  | polls i hp hw hbusy h1 =>
    refine .polls i hp hw hbusy ?_
    intro j hj hs hf hg
    rcases hb j hj with h | h | h
    · exact absurd h hf
    · exact absurd h hg
    · exact h1 j h hs hf hg
  | pending hp hr hw hbusy h1 =>
    refine .pending hp hr hw hbusy ?_
    intro j hj hs
    rcases hb j hj with h | h | h
    · exact .inl h
    · exact .inr h
    · exact h1 j h hs
  | yields hp hr hw hbusy h1 =>
    refine .yields hp hr hw hbusy ?_
    intro j hj
    rcases hb j hj with h | h | h
    · exact .inl h
    · exact .inr (.inl h)
    · exact h1 j h

theorem back_facts {o o' : Obj V S O} (h : o.Ok) {i : Nat} {x : Option V} {w : Place} {r : Reply}
    (hs : o.step (.back i x w) = some (o', r)) (hr : r.ready = false) :
    i < o.size ∧ o.busy = some i ∧ o'.Ok ∧ Answer o' o.rest w r ∧ o'.size = o.size ∧
      (∀ j, j < o.size → (o'.fin j ↔ o.fin j ∨ (j = i ∧ x.isSome = true))) ∧ (∀ j, o'.gone j ↔ o.gone j) ∧
      (o.Par w → o'.Par w) ∧ (o'.Urgent → o.Urgent ∨ r.wakes = some w) ∧
      (∀ j ∈ o.awake, j ∈ o'.awake ∨ j ∈ o.rest) := by
  cases o with
  | comb o =>
    obtain ⟨c', out, h1, h2, rfl, rfl⟩ := Obj.step_comb hs
    obtain ⟨a0, rest, a1, a2, a3, a4, a5, a6⟩ := comb_sub_facts h h1 h2 (any_ready.1 hr)
    have ha : (Obj.comb (⟨o.g, o.n, c'⟩ : CObj V S O)).awake = (Obj.comb o).awake := a6
    refine ⟨a0, by simp [Obj.busy, a1], a2, ?_, rfl, a4, fun _ => .rfl, ?_, ?_, ?_⟩
    · have : (Obj.comb o).rest = rest := by simp [Obj.rest, a1, restOf]
      rw [this]
      exact a3.answer a2 w
    · intro hp
      show o.n = 0 ∨ c'.parent = some w
      rw [a5]; exact hp
    · intro hu
      have hu : CObj.awake _ ≠ [] := hu
      rw [a6] at hu
      exact .inl hu
    · intro j hj; exact .inl (ha ▸ hj)
  | list l =>
    obtain ⟨l', h1, rfl⟩ := Obj.step_list hs
    simp only [LObj.step] at h1
    split at h1
    · next hrun =>
      obtain ⟨b1, b3, b4, b5, b6⟩ := back_list h hrun x.isSome
      obtain ⟨a1, a2, a3, a4, a5, a6, a7, a8⟩ := go_facts (V := V) (S := S) (O := O) b1 (Option.some.inj h1)
      have hrest : (Obj.list l : Obj V S O).rest = l.queue ++ l.late := by simp [Obj.rest, hrun]
      refine ⟨(h.run i hrun).1, hrun, a1, ?_, a3.trans b3, ?_, fun j => by simp [Obj.gone, a5, b5], fun _ => a6, ?_, ?_⟩
      · rw [hrest]
        refine a2.mono fun j hj => ?_
        simp only [Obj.fin, Obj.gone, a4, a5, b5]
        exact b6 j hj
      · intro j _
        simp only [Obj.fin, a4]
        exact b4 j
      · intro hu; exact .inr (a7 hu.1 hu.2)
      · intro j hj; rw [hrest]; exact .inr hj
    · cases h1

/-- A task of a list is queued. -/
theorem push_facts {l : LObj} (h : LOk l) {i : Nat} (hi : i < l.n) (hq : i ∉ l.queue) (hnr : l.running ≠ some i) :
    LOk (l.push i).1 ∧ ((l.push i).1.running = none → (l.push i).1.waker = none →
      ∀ q, (∀ w, l.waker = some w → w = q) → (l.running = none ∧ l.waker = none) ∨ (l.push i).2 = some q) := by
  refine ⟨⟨⟨?_, h.dn, List.nodup_append.2 ⟨h.nd, by simp, ?_⟩, h.lim⟩, by simp [LObj.push], ?_⟩, ?_⟩
  · intro j hj
    simp only [LObj.push, List.mem_append, List.mem_singleton] at hj
    rcases hj with hj | rfl
    · exact h.bound j hj
    · exact hi
  · intro a ha b hb he
    rw [List.mem_singleton.1 hb] at he
    exact hq (he ▸ ha)
  · intro j hj
    obtain ⟨h1, h2⟩ := h.run j hj
    refine ⟨h1, ?_⟩
    simp only [LObj.push, List.mem_append, List.mem_singleton]
    rintro (h3 | rfl)
    · exact h2 h3
    · exact hnr hj
  · intro hr _ q hq
    simp only [LObj.push] at hr ⊢
    cases hw : l.waker with
    | none => exact .inl ⟨hr, rfl⟩
    | some w => rw [hq w hw]; exact .inr rfl

theorem wake_facts {o o' : Obj V S O} (h : o.Ok) {i : Nat} {r : Reply} (hs : o.step (.wake i : Ask V) = some (o', r)) :
    o'.Ok ∧ o'.busy = o.busy ∧ o'.size = o.size ∧ (∀ j, o'.fin j ↔ o.fin j) ∧ (∀ j, o'.gone j ↔ o.gone j) ∧
      i < o.size ∧ (∀ j ∈ o.awake, j ∈ o'.awake) ∧ (∀ j ∈ o.rest, j ∈ o'.rest) ∧
      (¬ o.fin i → ¬ o.gone i → i ∈ o'.awake) ∧
      (∀ q, o.Par q → o'.Par q ∧ (o'.Urgent → o.Urgent ∨ r.wakes = some q)) := by
  cases o with
  | comb o =>
    obtain ⟨c', out, h1, h2, rfl, rfl⟩ := Obj.step_comb hs
    obtain ⟨a1, a2, a3, a4, a5, a6, a7, a8⟩ := comb_wake_facts h h1
    refine ⟨a1, by simp [Obj.busy, a2], rfl, fun j => by simp [Obj.fin, a3], fun _ => .rfl, a5,
      fun j hj => (a6 j).2 (.inr hj), fun j hj => by simpa [Obj.rest, a2] using hj, fun _ _ => (a6 i).2 (.inl rfl), ?_⟩
    intro q hq
    refine ⟨by simpa [Obj.Par, a4] using hq, fun _ => ?_⟩
    by_cases he : o.awake = []
    · right
      rcases hq with hq | hq
      · omega
      · simp only [a7 he, hq]
    · exact .inl he
  | list l =>
    obtain ⟨l', h1, rfl⟩ := Obj.step_list hs
    simp only [LObj.step] at h1
    split at h1
    · next hi =>
      split at h1
      · next hc =>
        cases h1
        refine ⟨h, rfl, rfl, fun _ => .rfl, fun _ => .rfl, hi, fun _ h => h, fun _ h => h, ?_, fun q hq => ⟨hq, .inl⟩⟩
        intro h1 h2
        rcases hc with hc | hc | hc
        · exact List.mem_append_left _ hc
        · exact absurd hc h1
        · exact absurd hc h2
      · next hc =>
        split at h1
        · next hrun =>
          cases h1
          have hl : ∀ j ∈ l.late, j ∈ LObj.late { l with again := true } := by
            intro j hj
            simp only [LObj.late, hrun] at hj ⊢
            split at hj
            · simpa using hj
            · cases hj
          refine ⟨⟨⟨h.bound, h.dn, h.nd, h.lim⟩, h.asleep, h.run⟩, rfl, rfl, fun _ => .rfl, fun _ => .rfl, hi, fun j hj => ?_,
            fun j hj => ?_, fun _ _ => ?_, fun q hq => ⟨hq, .inl⟩⟩
          · rcases List.mem_append.1 hj with hj | hj
            · exact List.mem_append_left _ hj
            · exact List.mem_append_right _ (hl j hj)
          · have e1 : (Obj.list l : Obj V S O).rest = l.queue ++ l.late := by simp [Obj.rest, hrun]
            have e2 : (Obj.list { l with again := true } : Obj V S O).rest =
                l.queue ++ LObj.late { l with again := true } := by simp [Obj.rest, hrun]
            rw [e1] at hj; rw [e2]
            rcases List.mem_append.1 hj with hj | hj
            · exact List.mem_append_left _ hj
            · exact List.mem_append_right _ (hl j hj)
          · simp [Obj.awake, LObj.late, hrun]
        · next hrun =>
          cases h1
          obtain ⟨b1, b2⟩ := push_facts h hi (fun h => hc (.inl h)) hrun
          have hm : ∀ j ∈ l.queue ++ l.late, j ∈ (l.push i).1.queue ++ (l.push i).1.late := by
            intro j hj
            rcases List.mem_append.1 hj with hj | hj
            · exact List.mem_append_left _ (List.mem_append_left _ hj)
            · exact List.mem_append_right _ hj
          refine ⟨b1, rfl, rfl, fun _ => .rfl, fun _ => .rfl, hi, hm, fun j hj => ?_, fun _ _ => ?_, ?_⟩
          · have hr : (l.push i).1.running = l.running := rfl
            simp only [Obj.rest, hr] at hj ⊢
            split at hj
            · exact hm j hj
            · cases hj
          · simp [Obj.awake, LObj.push]
          · intro q hq
            exact ⟨by simp [Obj.Par, LObj.push], fun hu => b2 hu.1 hu.2 q hq⟩
    · cases h1

/-- An object that returns `Ready` polls nobody at the same time; lists do not return `Ready`. -/
theorem ready_facts {o o' : Obj V S O} (h : o.Ok) {e : Ask V} {r : Reply} (hs : o.step e = some (o', r))
    (hw : ∀ i, e ≠ .wake i) (hr : r.ready = true) : r.polls = none ∧ ¬ o.isList := by
  cases o with
  | comb o =>
    obtain ⟨c', out, h1, h2, rfl, rfl⟩ := Obj.step_comb hs
    exact ⟨comb_ready_facts h h1 (any_ready_true hr), id⟩
  | list l =>
    obtain ⟨l', h1, rfl⟩ := Obj.step_list hs
    exfalso
    cases e with
    | poll w =>
      simp only [LObj.step] at h1
      split at h1
      · have := go_facts (V := V) (S := S) (O := O) h.toLQ (Option.some.inj h1)
        rw [this.2.2.2.2.2.2.2] at hr; cases hr
      · cases h1
    | back i x w =>
      simp only [LObj.step] at h1
      split at h1
      · next hrun =>
        have := go_facts (V := V) (S := S) (O := O) (back_list h hrun x.isSome).1 (Option.some.inj h1)
        rw [this.2.2.2.2.2.2.2] at hr; cases hr
      · cases h1
    | wake i => exact hw i rfl

theorem Obj.Ok.urgent {o : Obj V S O} (h : o.Ok) {i : Nat} (hi : i ∈ o.awake) : o.Urgent ∨ i ∈ o.rest := by
  cases o with
  | comb o => exact .inl (fun he => by simp only [Obj.awake] at hi; rw [he] at hi; cases hi)
  | list l =>
    cases hr : l.running with
    | some j => right; simpa [Obj.rest, Obj.awake, hr] using hi
    | none =>
      refine .inl ⟨hr, ?_⟩
      cases hw : l.waker with
      | none => rfl
      | some w =>
        have hi : i ∈ l.queue ++ l.late := hi
        rw [(h.asleep w hw).1] at hi
        simp [LObj.late, hr] at hi

theorem Obj.rest_nil {o : Obj V S O} (h : o.busy = none) : o.rest = [] := by
  cases o with
  | comb o =>
    simp only [Obj.busy] at h
    simp only [Obj.rest]
    cases hp : o.c.phase with
    | polling i rs => rw [hp] at h; cases h
    | idle => rfl
    | dropped => rfl
  | list l => have h : l.running = none := h; simp [Obj.rest, h]

theorem Obj.has_iff {o : Obj V S O} {i : Nat} : o.Has i ↔ i < o.size ∧ ¬ o.gone i := by
  cases o <;> simp [Obj.Has, Obj.size, Obj.gone]

theorem wake_busy {o o' : Obj V S O} {i : Nat} {r : Reply} (hs : o.step (.wake i : Ask V) = some (o', r)) :
    o'.busy = o.busy := by
  cases o with
  | comb o =>
    obtain ⟨c', out, hstep, hnp, rfl, rfl⟩ := Obj.step_comb hs
    have hph : c'.phase = o.c.phase := by
      simp only [Ask.event, Comb.step] at hstep
      split at hstep
      · split at hstep
        · simp only [Option.some.injEq, Prod.mk.injEq] at hstep
          obtain ⟨-, rfl⟩ := hstep; simp at hnp
        · simp only [Option.some.injEq, Prod.mk.injEq] at hstep
          obtain ⟨rfl, -⟩ := hstep; rfl
      · cases hstep
    simp [Obj.busy, hph]
  | list l =>
    obtain ⟨l', h1, rfl⟩ := Obj.step_list hs
    simp only [LObj.step] at h1
    split at h1
    · split at h1
      · cases h1; rfl
      · split at h1 <;> cases h1 <;> rfl
    · cases h1

theorem Obj.Ok.busy_lt {o : Obj V S O} (h : o.Ok) {i : Nat} (hi : o.busy = some i) : i < o.size := by
  cases o with
  | comb o =>
    simp only [Obj.busy] at hi
    split at hi
    · next j rs hp => cases hi; have := (h.good.phase.cur _ _ hp).1; rw [h.hn] at this; exact this
    · cases hi
  | list l => exact (h.run i hi).1

theorem step_size {o o' : Obj V S O} {e : Ask V} {r : Reply} (hs : o.step e = some (o', r)) : o'.size = o.size := by
  cases o with
  | comb o => obtain ⟨c', out, hstep, hnp, rfl, rfl⟩ := Obj.step_comb hs; rfl
  | list l =>
    obtain ⟨l', h1, rfl⟩ := Obj.step_list hs
    have hgo : ∀ (l : LObj) w, (l.go w).1.n = l.n := by
      intro l w; simp only [LObj.go]; split <;> rfl
    cases e with
    | poll w =>
      simp only [LObj.step] at h1
      split at h1
      · have := hgo l w; rw [Option.some.inj h1] at this; exact this
      · cases h1
    | back i x w =>
      simp only [LObj.step] at h1
      split at h1
      · have := hgo (l.back i x.isSome) w
        rw [Option.some.inj h1] at this
        refine this.trans ?_
        simp only [LObj.back]
        split
        · rfl
        · split <;> rfl
      · cases h1
    | wake i =>
      simp only [LObj.step] at h1
      split at h1
      · split at h1
        · cases h1; rfl
        · split at h1 <;> cases h1 <;> rfl
      · cases h1

theorem new_awake_obj (g : Cfg V S O) (n : Nat) :
    (Obj.comb (⟨g, n, Comb.new g.kind.impl S Place n⟩ : CObj V S O)).awake = List.range n := new_awake g n

end Verif.Nested
