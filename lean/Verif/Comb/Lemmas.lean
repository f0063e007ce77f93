import Verif.Comb.Spec
import Verif.Comb.ReadinessLemmas
/-! Invariants of the combinator machine, part 1: valid for every trace. -/
namespace Verif.Comb
variable {V S O W : Type}

def Kind.correct : (k : Kind) → k.impl.Correct
  | .array => arrayCorrect
  | .vec => vecCorrect
  | .tuple => arrayCorrect

/-- The woken indices. -/
def awake (g : Cfg V S O) (c : Comb g.kind.impl.σ S W) : List Nat := g.kind.impl.list c.ready

def restOf : Phase → List Nat
  | .polling _ rest => rest
  | _ => []

section
variable {σ : Type}

/-- Neither finished nor dropped. -/
structure Regular (c : Comb σ S W) : Prop where
  len : c.items.length = c.n
  iff : ∀ i : Nat, c.filled[i]? = some true ↔ ∃ s : S, c.items[i]? = some (some s)
  pend : c.pending = c.filled.count false

/-- The items have been handed out. -/
structure Spent (k : Kind) (c : Comb σ S W) : Prop where
  pend : c.pending = 0
  filled : ∀ b ∈ c.filled, b = false
  items : ∀ x ∈ c.items, x = none
  vec : k = .vec → c.items = []
  other : k ≠ .vec → c.items.length = c.n

structure Gone (c : Comb σ S W) : Prop where
  phase : c.phase = .dropped
  filled : ∀ b ∈ c.filled, b = false
  items : ∀ x ∈ c.items, x = none

structure PhaseOk (c : Comb σ S W) : Prop where
  cur : ∀ i rest, c.phase = .polling i rest →
    i < c.n ∧ c.filled[i]? = some false ∧ i ∉ rest ∧ rest.Nodup ∧ ∀ j ∈ rest, j < c.n

end

structure Good (g : Cfg V S O) (c : Comb g.kind.impl.σ S W) : Prop where
  flen : c.filled.length = c.n
  rel : g.kind.correct.Rel c.n c.ready (awake g c)
  mode : Gone c ∨ (c.phase ≠ .dropped ∧ (Regular c ∨ (Spent g.kind c ∧ (g.kind = .vec ∨ c.phase = .idle))))
  phase : PhaseOk c

theorem advance_cases (g : Cfg V S O) (c : Comb g.kind.impl.σ S W) (l : List Nat)
    (hl : ∀ i ∈ l, i < c.n) (hf : c.filled.length = c.n) :
    (∃ pre i rest, l = pre ++ i :: rest ∧ (∀ j ∈ pre, c.filled[j]? = some true) ∧
      c.filled[i]? = some false ∧
      advance g c l = ({ c with phase := .polling i rest }, [.subPoll i])) ∨
    ((∀ j ∈ l, c.filled[j]? = some true) ∧ advance g c l = finish g c) := by
  induction l with
  | nil => right; exact ⟨by simp, rfl⟩
  | cons i rest ih =>
    have hi : i < c.filled.length := by rw [hf]; exact hl i (by simp)
    have hi' : i < c.n := hl i (by simp)
    cases hb : c.filled[i]? with
    | none => rw [List.getElem?_eq_getElem hi] at hb; cases hb
    | some b =>
      cases b with
      | false =>
        left
        exact ⟨[], i, rest, rfl, by simp, hb, by simp [advance, hb, hi']⟩
      | true =>
        have hadv : advance g c (i :: rest) = advance g c rest := by simp [advance, hb]
        rw [hadv]
        rcases ih (fun j hj => hl j (by simp [hj])) with ⟨pre, k, r, h1, h2, h3, h4⟩ | ⟨h1, h2⟩
        · left
          refine ⟨i :: pre, k, r, by simp [h1], ?_, h3, h4⟩
          intro j hj
          rcases List.mem_cons.1 hj with rfl | hj
          · exact hb
          · exact h2 j hj
        · right
          refine ⟨?_, h2⟩
          intro j hj
          rcases List.mem_cons.1 hj with rfl | hj
          · exact hb
          · exact h1 j hj

theorem takeAll_map (ss : List S) : takeAll (ss.map some) = some ss := by
  induction ss with
  | nil => rfl
  | cons s ss ih => simp [takeAll, ih]

theorem takeAll_eq {xs : List (Option S)} (h : ∀ x ∈ xs, ∃ s, x = some s) :
    ∃ ss, xs = ss.map some ∧ takeAll xs = some ss := by
  induction xs with
  | nil => exact ⟨[], rfl, rfl⟩
  | cons x xs ih =>
    obtain ⟨s, rfl⟩ := h x (by simp)
    obtain ⟨ss, rfl, h2⟩ := ih (fun x hx => h x (by simp [hx]))
    exact ⟨s :: ss, rfl, by simp [takeAll, h2]⟩

theorem Regular.allFilled {σ : Type} {c : Comb σ S W} (h : Regular c) (h0 : c.pending = 0) :
    c.filled.all id = true := by
  have := h.pend
  rw [h0] at this
  have h1 := List.count_eq_zero.1 this.symm
  rw [List.all_eq_true]
  intro b hb
  cases b with
  | true => rfl
  | false => exact absurd hb h1

theorem Regular.allSome {σ : Type} {c : Comb σ S W} (h : Regular c) (hf : c.filled.length = c.n)
    (h0 : c.pending = 0) :
    ∃ ss, c.items = ss.map some ∧ takeAll c.items = some ss := by
  apply takeAll_eq
  intro x hx
  obtain ⟨i, hi, rfl⟩ := List.mem_iff_getElem.1 hx
  have hall := h.allFilled h0
  have hi2 : i < c.filled.length := by rw [hf, ← h.len]; exact hi
  have : c.filled[i]? = some true := by
    rw [List.getElem?_eq_getElem hi2]
    have := List.all_eq_true.1 hall _ (List.getElem_mem hi2)
    simpa using this
  obtain ⟨s, hs⟩ := (h.iff i).1 this
  rw [List.getElem?_eq_getElem hi] at hs
  exact ⟨s, by simpa using hs⟩

theorem taken_spent (g : Cfg V S O) (c : Comb g.kind.impl.σ S W) (h0 : c.pending = 0)
    (hl : g.kind ≠ .vec → c.items.length = c.n) : Spent g.kind (taken g c) := by
  refine ⟨h0, ?_, ?_, ?_, ?_⟩
  · intro b hb; exact (List.mem_replicate.1 hb).2
  · intro x hx
    simp only [taken] at hx
    split at hx
    · cases hx
    · exact (List.mem_replicate.1 hx).2
  · intro hk; simp [taken, hk]
  · intro hk; simp [taken, hk, hl hk]

/-- What `finish` does in the two possible situations. -/
theorem finish_regular (g : Cfg V S O) (c : Comb g.kind.impl.σ S W) (h : Regular c)
    (hf : c.filled.length = c.n) :
    (0 < c.pending ∧ finish g c = ({ c with phase := .idle }, [.retPending])) ∨
    (c.pending = 0 ∧ ∃ ss, c.items = ss.map some ∧
      ((∃ o, g.beh.whenCompleted ss = some o ∧ finish g c = (taken g c, [.retReady o ss])) ∨
       (g.beh.whenCompleted ss = none ∧
        finish g c = (taken g c, .panicked :: ss.map .droppedItem)))) := by
  by_cases h0 : c.pending = 0
  · right
    obtain ⟨ss, h1, h2⟩ := h.allSome hf h0
    refine ⟨h0, ss, h1, ?_⟩
    cases hw : g.beh.whenCompleted ss with
    | some o => exact .inl ⟨o, rfl, by simp [finish, h0, h.allFilled h0, h2, hw]⟩
    | none => exact .inr ⟨rfl, by simp [finish, h0, h.allFilled h0, h2, hw]⟩
  · left
    exact ⟨by omega, by simp [finish, h0]⟩

theorem finish_spent (g : Cfg V S O) (c : Comb g.kind.impl.σ S W) (h : Spent g.kind c)
    (hk : g.kind = .vec) :
    finish g c = ({ c with phase := .idle }, [.panicked]) ∨ finish g c = (taken g c, [.panicked]) ∨
    ∃ o, g.beh.whenCompleted [] = some o ∧ finish g c = (taken g c, [.retReady o []]) := by
  have hi := h.vec hk
  simp only [finish, h.pend, if_true, hi, takeAll]
  split
  · exact .inl rfl
  · cases hw : g.beh.whenCompleted [] with
    | some o => exact .inr (.inr ⟨o, rfl, rfl⟩)
    | none => exact .inr (.inl rfl)

/-! ### Good states are preserved -/

section
variable {σ : Type}

theorem Regular.congr {c c' : Comb σ S W} (h : Regular c) (h1 : c'.items = c.items)
    (h2 : c'.filled = c.filled) (h3 : c'.n = c.n) (h4 : c'.pending = c.pending) : Regular c' := by
  constructor
  · rw [h1, h3]; exact h.len
  · rw [h1, h2]; exact h.iff
  · rw [h2, h4]; exact h.pend

theorem Spent.congr {k : Kind} {c c' : Comb σ S W} (h : Spent k c) (h1 : c'.items = c.items)
    (h2 : c'.filled = c.filled) (h3 : c'.n = c.n) (h4 : c'.pending = c.pending) : Spent k c' := by
  constructor
  · rw [h4]; exact h.pend
  · rw [h2]; exact h.filled
  · rw [h1]; exact h.items
  · rw [h1]; exact h.vec
  · rw [h1, h3]; exact h.other

theorem PhaseOk.idle {c : Comb σ S W} (h : c.phase = .idle) : PhaseOk c :=
  ⟨fun i rest hp => by rw [h] at hp; cases hp⟩

/-- The initialised slots. -/
def live (c : Comb σ S W) : List S := c.items.filterMap id

end

/-- What the caller of `advance` knows. -/
structure Pre (g : Cfg V S O) (c : Comb g.kind.impl.σ S W) (l : List Nat) : Prop where
  flen : c.filled.length = c.n
  rel : g.kind.correct.Rel c.n c.ready (awake g c)
  mode : Regular c ∨ (Spent g.kind c ∧ g.kind = .vec)
  bound : ∀ i ∈ l, i < c.n
  nodup : l.Nodup

def releasedBy (out : List (Effect S O W)) : List S :=
  out.flatMap fun
    | .retReady _ ss => ss
    | .droppedItem s => [s]
    | _ => []

/-- No memory error shows in these effects. -/
def Sound (out : List (Effect S O W)) : Prop := .ub ∉ out ∧ ∀ s, .leaked s ∉ out

theorem releasedBy_dropped (ss : List S) :
    releasedBy (O := O) (W := W) (ss.map .droppedItem) = ss := by
  induction ss with
  | nil => rfl
  | cons s ss ih => simpa [releasedBy] using ih

theorem filterMap_id_none {xs : List (Option S)} (h : ∀ x ∈ xs, x = none) : xs.filterMap id = [] := by
  rw [List.filterMap_eq_nil_iff]
  intro a ha; exact h a ha

theorem Spent.live {σ : Type} {k : Kind} {c : Comb σ S W} (h : Spent k c) : live c = [] :=
  filterMap_id_none h.items

theorem good_taken (g : Cfg V S O) (c : Comb g.kind.impl.σ S W) {l : List Nat} (h : Pre g c l)
    (h0 : c.pending = 0) : Good g (taken g c) := by
  have hs : Spent g.kind (taken g c) := by
    apply taken_spent g c h0
    intro hk
    rcases h.mode with hm | ⟨-, hm⟩
    · exact hm.len
    · exact absurd hm hk
  exact ⟨by simp [taken, h.flen], h.rel, .inr ⟨by simp [taken], .inr ⟨hs, .inr rfl⟩⟩, PhaseOk.idle rfl⟩

theorem good_idle (g : Cfg V S O) (c : Comb g.kind.impl.σ S W) {l : List Nat} (h : Pre g c l) :
    Good g { c with phase := .idle } := by
  refine ⟨h.flen, h.rel, .inr ⟨by simp, ?_⟩, PhaseOk.idle rfl⟩
  rcases h.mode with hm | ⟨hm, hk⟩
  · exact .inl (hm.congr rfl rfl rfl rfl)
  · exact .inr ⟨hm.congr rfl rfl rfl rfl, .inl hk⟩

theorem advance_good (g : Cfg V S O) (c : Comb g.kind.impl.σ S W) (l : List Nat) (h : Pre g c l) :
    Good g (advance g c l).1 ∧ (live (advance g c l).1 ++ releasedBy (advance g c l).2).Perm (live c) ∧
      Sound (advance g c l).2 := by
  rcases advance_cases g c l h.bound h.flen with ⟨pre, i, rest, h1, h2, h3, h4⟩ | ⟨h1, h2⟩
  · rw [h4]
    refine ⟨⟨h.flen, h.rel, .inr ⟨by simp, ?_⟩, ⟨?_⟩⟩, by simp [live, releasedBy], by simp [Sound]⟩
    · rcases h.mode with hm | ⟨hm, hk⟩
      · exact .inl (hm.congr rfl rfl rfl rfl)
      · exact .inr ⟨hm.congr rfl rfl rfl rfl, .inl hk⟩
    · intro j r hp
      simp only [Phase.polling.injEq] at hp
      obtain ⟨rfl, rfl⟩ := hp
      have hb := h.bound
      have hn := h.nodup
      rw [h1, List.nodup_append, List.nodup_cons] at hn
      rw [h1] at hb
      exact ⟨hb i (by simp), h3, hn.2.1.1, hn.2.1.2, fun j hj => hb j (by simp [hj])⟩
  · rw [h2]
    rcases h.mode with hm | ⟨hm, hk⟩
    · rcases finish_regular g c hm h.flen with ⟨-, e⟩ | ⟨h0, ss, e1, ⟨o, -, e⟩ | ⟨-, e⟩⟩
      · rw [e]; exact ⟨good_idle g c h, by simp [live, releasedBy], by simp [Sound]⟩
      · rw [e]
        have hg := good_taken g c h h0
        refine ⟨hg, ?_, by simp [Sound]⟩
        rw [(taken_spent g c h0 (fun _ => hm.len)).live]
        simp [live, e1, releasedBy]
      · rw [e]
        have hg := good_taken g c h h0
        refine ⟨hg, ?_, by simp [Sound]⟩
        rw [(taken_spent g c h0 (fun _ => hm.len)).live]
        have := releasedBy_dropped (O := O) (W := W) ss
        simp only [releasedBy, List.flatMap_cons, List.nil_append] at this ⊢
        rw [this]
        simp [live, e1]
    · have hts := taken_spent g c hm.pend hm.other
      rcases finish_spent g c hm hk with e | e | ⟨o, -, e⟩
      · rw [e]; exact ⟨good_idle g c h, by simp [live, releasedBy], by simp [Sound]⟩
      · rw [e]
        exact ⟨good_taken g c h hm.pend, by rw [hts.live, hm.live]; simp [releasedBy], by simp [Sound]⟩
      · rw [e]
        exact ⟨good_taken g c h hm.pend, by rw [hts.live, hm.live]; simp [releasedBy], by simp [Sound]⟩

/-- The item that an event hands to the combinator. -/
def keptBy (b : Behavior V S O) : Event V W → List S
  | .sub _ (.ready v) => (b.maybeReturn v).getLeft?.toList
  | _ => []

theorem filterMap_set (xs : List (Option S)) (i : Nat) (s : S) (h : xs[i]? = some none) :
    ((xs.set i (some s)).filterMap id).Perm (s :: xs.filterMap id) := by
  induction xs generalizing i with
  | nil => simp at h
  | cons x xs ih =>
    cases i with
    | zero => simp at h; subst h; simp
    | succ i =>
      simp only [List.getElem?_cons_succ] at h
      have := ih i h
      cases x with
      | none => simpa using this
      | some y =>
        simp only [List.set_cons_succ, List.filterMap_cons, id_eq]
        exact (List.Perm.cons y this).trans (List.Perm.swap s y _)

theorem count_set_true (fs : List Bool) (i : Nat) (h : fs[i]? = some false) :
    (fs.set i true).count false + 1 = fs.count false := by
  induction fs generalizing i with
  | nil => simp at h
  | cons f fs ih =>
    cases i with
    | zero => simp at h; subst h; simp
    | succ i =>
      simp only [List.getElem?_cons_succ] at h
      have := ih i h
      simp only [List.set_cons_succ, List.count_cons]
      omega

theorem dropItems_spec (fs : List Bool) (xs : List (Option S))
    (hl : xs.length = fs.length ∨ xs = [])
    (h : ∀ i : Nat, i < xs.length → (fs[i]? = some true ↔ ∃ s, xs[i]? = some (some s))) :
    dropItems (O := O) (W := W) fs xs = (xs.filterMap id).map .droppedItem := by
  induction fs generalizing xs with
  | nil =>
    rcases hl with hl | rfl
    · have : xs = [] := List.length_eq_zero_iff.1 hl
      subst this; rfl
    · rfl
  | cons f fs ih =>
    cases xs with
    | nil => cases f <;> rfl
    | cons x xs =>
      have h0 := h 0 (by simp)
      have ih' := ih xs (.inl (by simpa using hl)) (by
        intro i hi
        have := h (i + 1) (by simpa using hi)
        simpa using this)
      simp at h0
      cases f with
      | true =>
        obtain ⟨s, rfl⟩ := h0.1 rfl
        simp [dropItems, ih']
      | false =>
        cases x with
        | none => simp [dropItems, ih']
        | some s => exact absurd (h0.2 ⟨s, rfl⟩) (by simp)

theorem wake_good (g : Cfg V S O) (c : Comb g.kind.impl.σ S W)
    (h : g.kind.correct.Rel c.n c.ready (awake g c)) (i : Nat) (hi : i < c.n) :
    ∃ r woke, g.kind.impl.wake c.ready i = some (r, woke) ∧
      g.kind.correct.Rel c.n r (g.kind.impl.list r) ∧
      ((i ∈ awake g c ∧ woke = false ∧ g.kind.impl.list r = awake g c) ∨
       (i ∉ awake g c ∧ woke = (awake g c).isEmpty ∧ g.kind.impl.list r = awake g c ++ [i])) := by
  by_cases hm : i ∈ awake g c
  · obtain ⟨r, h1, h2⟩ := g.kind.correct.wake_mem h hm
    have h3 := g.kind.correct.list h2
    exact ⟨r, _, h1, by rw [h3]; exact h2, .inl ⟨hm, rfl, h3⟩⟩
  · obtain ⟨r, h1, h2⟩ := g.kind.correct.wake_new h hi hm
    have h3 := g.kind.correct.list h2
    exact ⟨r, _, h1, by rw [h3]; exact h2, .inr ⟨hm, rfl, h3⟩⟩

theorem beginPoll_cases (g : Cfg V S O) (c : Comb g.kind.impl.σ S W) (h : Good g c) (w : W) :
    (gate g.kind g.beh.pendIfEmpty c.n c.pending c.items.isEmpty = .pend ∧
      beginPoll g c w = (c, [.retPending])) ∨
    (gate g.kind g.beh.pendIfEmpty c.n c.pending c.items.isEmpty = .panic ∧
      beginPoll g c w = (c, [.panicked])) ∨
    (gate g.kind g.beh.pendIfEmpty c.n c.pending c.items.isEmpty = .enter ∧
      ∃ r, g.kind.correct.Rel c.n r [] ∧ g.kind.impl.list r = [] ∧
      beginPoll g c w = advance g { c with parent := some w, ready := r } (awake g c)) := by
  unfold beginPoll
  cases hg : gate g.kind g.beh.pendIfEmpty c.n c.pending c.items.isEmpty with
  | pend => exact .inl ⟨rfl, rfl⟩
  | panic => exact .inr (.inl ⟨rfl, rfl⟩)
  | enter =>
    obtain ⟨r, h1, h2⟩ := g.kind.correct.clear h.rel
    exact .inr (.inr ⟨rfl, r, h2, g.kind.correct.list h2, by simp [h1, awake]⟩)

theorem gate_spent (k : Kind) (p : Bool) (n : Nat) (b : Bool) (hk : k ≠ .vec)
    (h : gate k p n 0 b = .enter) : n = 0 := by
  cases k with
  | vec => exact absurd rfl hk
  | array =>
    simp only [gate] at h
    split at h
    · cases h
    · split at h
      · omega
      · cases h
  | tuple => simp [gate] at h

theorem begin_pre (g : Cfg V S O) (c : Comb g.kind.impl.σ S W) (h : Good g c) (w : W)
    (hp : c.phase = .idle) {r : g.kind.impl.σ} (hr : g.kind.correct.Rel c.n r [])
    (hg : gate g.kind g.beh.pendIfEmpty c.n c.pending c.items.isEmpty = .enter) :
    Pre g { c with parent := some w, ready := r } (awake g c) := by
  refine ⟨h.flen, ?_, ?_, g.kind.correct.bound h.rel, g.kind.correct.nodup h.rel⟩
  · show g.kind.correct.Rel c.n r (g.kind.impl.list r)
    rw [g.kind.correct.list hr]; exact hr
  · rcases h.mode with hm | ⟨-, hm | ⟨hm, hk⟩⟩
    · have := hm.phase; rw [hp] at this; cases this
    · exact .inl (hm.congr rfl rfl rfl rfl)
    · by_cases hv : g.kind = .vec
      · exact .inr ⟨hm.congr rfl rfl rfl rfl, hv⟩
      · -- a spent array is let through only if it is empty
        left
        have hn : c.n = 0 := by
          rw [hm.pend] at hg
          exact gate_spent _ _ _ _ hv hg
        have hl := hm.other hv
        have hf := h.flen
        rw [hn] at hl hf
        have e1 := List.length_eq_zero_iff.1 hl
        have e2 := List.length_eq_zero_iff.1 hf
        exact ⟨by simp [e1, hn], by simp [e1, e2], by simp [e2, hm.pend]⟩

theorem step_good (g : Cfg V S O) (c c' : Comb g.kind.impl.σ S W) (e : Event V W)
    (out : List (Effect S O W)) (h : Good g c) (hs : step g c e = some (c', out)) :
    Good g c' ∧ (live c' ++ releasedBy out).Perm (keptBy g.beh e ++ live c) ∧ Sound out := by
  cases e with
  | poll w =>
    simp only [step] at hs
    split at hs
    · next hp =>
      simp only [Option.some.injEq] at hs
      rcases beginPoll_cases g c h w with ⟨-, e⟩ | ⟨-, e⟩ | ⟨hg, r, h1, h2, e⟩
      · rw [e] at hs; cases hs
        exact ⟨h, by simp [releasedBy, keptBy], by simp [Sound]⟩
      · rw [e] at hs; cases hs
        exact ⟨h, by simp [releasedBy, keptBy], by simp [Sound]⟩
      · rw [e] at hs
        have := advance_good g _ _ (begin_pre g c h w hp h1 hg)
        rw [hs] at this
        exact ⟨this.1, by simpa [keptBy, live] using this.2.1, this.2.2⟩
    · cases hs
  | wake i =>
    simp only [step] at hs
    split at hs
    · next hi =>
      obtain ⟨r, woke, h1, h2, -⟩ := wake_good g c h.rel i hi
      rw [h1] at hs
      simp only [Option.some.injEq, Prod.mk.injEq] at hs
      obtain ⟨rfl, rfl⟩ := hs
      refine ⟨⟨h.flen, h2, ?_, ⟨h.phase.cur⟩⟩, ?_, ?_⟩
      · rcases h.mode with hm | ⟨hp, hm | ⟨hm, hk⟩⟩
        · exact .inl ⟨hm.phase, hm.filled, hm.items⟩
        · exact .inr ⟨hp, .inl (hm.congr rfl rfl rfl rfl)⟩
        · exact .inr ⟨hp, .inr ⟨hm.congr rfl rfl rfl rfl, hk⟩⟩
      · split <;> simp [releasedBy, keptBy, live]
      · split <;> simp [Sound]
    · cases hs
  | drop =>
    simp only [step] at hs
    split at hs
    · next hp =>
      simp only [Option.some.injEq, Prod.mk.injEq] at hs
      obtain ⟨rfl, rfl⟩ := hs
      have hd : dropItems (O := O) (W := W) c.filled c.items = (live c).map .droppedItem := by
        rcases h.mode with hm | ⟨-, hm | ⟨hm, hk⟩⟩
        · have := hm.phase; rw [hp] at this; cases this
        · exact dropItems_spec _ _ (.inl (by rw [hm.len, h.flen])) (fun i _ => hm.iff i)
        · apply dropItems_spec
          · by_cases hv : g.kind = .vec
            · exact .inr (hm.vec hv)
            · exact .inl (by rw [hm.other hv, h.flen])
          · intro i hi
            constructor
            · intro he
              have := hm.filled _ (List.mem_of_getElem? he)
              simp at this
            · rintro ⟨s, he⟩
              have := hm.items _ (List.mem_of_getElem? he)
              simp at this
      refine ⟨⟨by simp [h.flen], h.rel, .inl ⟨rfl, by simp, by simp⟩, ⟨?_⟩⟩, ?_, ?_⟩
      · intro i rest hp'; cases hp'
      · rw [hd, releasedBy_dropped]
        have : live ({ c with phase := .dropped, items := c.items.map fun _ => none,
                              filled := c.filled.map fun _ => false } : Comb g.kind.impl.σ S W) = [] :=
          filterMap_id_none (by simp)
        rw [this]
        simp [keptBy]
      · rw [hd]; simp [Sound]
    · cases hs
  | sub i r =>
    simp only [step] at hs
    split at hs
    · next j rest hp =>
      split at hs
      · next hij =>
        subst hij
        simp only [Option.some.injEq] at hs
        obtain ⟨hi, hfi, hir, hrn, hrb⟩ := h.phase.cur i rest hp
        have hmode : Regular c ∨ (Spent g.kind c ∧ g.kind = .vec) := by
          rcases h.mode with hm | ⟨-, hm | ⟨hm, hk | hk⟩⟩
          · have := hm.phase; rw [hp] at this; cases this
          · exact .inl hm
          · exact .inr ⟨hm, hk⟩
          · rw [hp] at hk; cases hk
        have hpre : Pre g c rest := ⟨h.flen, h.rel, hmode, hrb, hrn⟩
        cases r with
        | pending =>
          simp only [subReturns] at hs
          have := advance_good g c rest hpre
          rw [hs] at this
          exact ⟨this.1, by simpa [keptBy] using this.2.1, this.2.2⟩
        | panics =>
          simp only [subReturns] at hs
          cases hs
          exact ⟨good_idle g c hpre, by simp [keptBy, releasedBy, live], by simp [Sound]⟩
        | ready v =>
          simp only [subReturns] at hs
          cases hb : g.beh.maybeReturn v with
          | inr o =>
            rw [hb] at hs
            cases hs
            exact ⟨good_idle g c hpre, by simp [keptBy, hb, releasedBy, live], by simp [Sound]⟩
          | inl s =>
            rw [hb] at hs
            rcases hmode with hm | ⟨hm, hk⟩
            · have hnone : c.items[i]? = some none := by
                have hlt : i < c.items.length := by rw [hm.len]; exact hi
                rw [List.getElem?_eq_getElem hlt]
                cases hx : c.items[i] with
                | none => rfl
                | some s =>
                  have := (hm.iff i).2 ⟨s, by rw [List.getElem?_eq_getElem hlt, hx]⟩
                  rw [hfi] at this; cases this
              have hc := count_set_true c.filled i hfi
              have hpn : c.pending ≠ 0 := by rw [hm.pend]; omega
              simp only [hnone, hpn, if_false, Option.toList_none, List.map_nil, List.nil_append] at hs
              have hlt : i < c.items.length := by rw [hm.len]; exact hi
              have hlt2 : i < c.filled.length := by rw [h.flen]; exact hi
              have hpre' : Pre g { c with
                  items := c.items.set i (some s)
                  filled := c.filled.set i true
                  pending := c.pending - 1 } rest := by
                refine ⟨by simp [h.flen], h.rel, .inl ⟨by simp [hm.len], ?_, ?_⟩, hrb, hrn⟩
                · intro j
                  simp only [List.getElem?_set]
                  by_cases hij : i = j
                  · subst hij; simp [hlt, hlt2]
                  · simp only [hij, if_false]; exact hm.iff j
                · simp only; rw [hm.pend]; omega
              have := advance_good g _ rest hpre'
              cases hs
              refine ⟨this.1, ?_, this.2.2⟩
              refine this.2.1.trans ?_
              simp only [live, keptBy, hb, Sum.getLeft?_inl, Option.toList_some, List.singleton_append]
              exact filterMap_set c.items i s hnone
            · have : c.items[i]? = none := by rw [hm.vec hk]; rfl
              rw [this] at hs
              cases hs
              refine ⟨good_idle g c hpre, ?_, by simp [Sound]⟩
              simp only [releasedBy, keptBy, hb, live, hm.vec hk]
              simp
      · cases hs
    · cases hs

theorem new_good (g : Cfg V S O) (n : Nat) : Good g (Comb.new g.kind.impl S W n) := by
  refine ⟨by simp [Comb.new], ?_, .inr ⟨by simp [Comb.new], .inl ⟨by simp [Comb.new], ?_, ?_⟩⟩,
    PhaseOk.idle rfl⟩
  · have := g.kind.correct.new n
    simp only [awake, Comb.new]
    rw [g.kind.correct.list this]
    exact this
  · intro i
    simp only [Comb.new, List.getElem?_replicate]
    constructor
    · intro h; split at h <;> simp at h
    · rintro ⟨s, h⟩; split at h <;> simp at h
  · simp [Comb.new]

theorem step_n (g : Cfg V S O) (c c' : Comb g.kind.impl.σ S W) (e : Event V W)
    (out : List (Effect S O W)) (hs : step g c e = some (c', out)) : c'.n = c.n := by
  have hfin : ∀ c : Comb g.kind.impl.σ S W, (finish g c).1.n = c.n := by
    intro c
    simp only [finish]
    split
    · split
      · rfl
      · split
        · rfl
        · split <;> rfl
    · rfl
  have hadv : ∀ (c : Comb g.kind.impl.σ S W) l, (advance g c l).1.n = c.n := by
    intro c l
    induction l with
    | nil => exact hfin c
    | cons i l ih =>
      simp only [advance]
      split
      · rfl
      · exact ih
      · split <;> rfl
  cases e with
  | poll w =>
    simp only [step] at hs
    split at hs
    · simp only [Option.some.injEq, beginPoll] at hs
      split at hs
      · cases hs; rfl
      · cases hs; rfl
      · split at hs
        · cases hs; rfl
        · have := hadv { c with parent := some w, ready := ‹_› } (g.kind.impl.list c.ready)
          rw [hs] at this; exact this
    · cases hs
  | wake i => simp only [step] at hs; grind
  | drop => simp only [step] at hs; grind
  | sub i r =>
    simp only [step] at hs
    split at hs
    · next j rest hp =>
      split at hs
      · simp only [Option.some.injEq] at hs
        cases r with
        | pending =>
          have := hadv c rest
          simp only [subReturns] at hs
          rw [hs] at this; exact this
        | panics => simp only [subReturns] at hs; cases hs; rfl
        | ready v =>
          simp only [subReturns] at hs
          split at hs
          · cases hs; rfl
          · split at hs
            · cases hs; rfl
            · split at hs
              · cases hs; rfl
              · have := hadv { c with
                  items := c.items.set i (some ‹_›)
                  filled := c.filled.set i true
                  pending := c.pending - 1 } rest
                cases hs
                exact this
      · cases hs
    · cases hs

theorem run_good (g : Cfg V S O) (n : Nat) (tr : List (Entry V S O W)) (c : Comb g.kind.impl.σ S W)
    (h : Run g n tr c) : Good g c ∧ c.n = n := by
  induction h with
  | nil => exact ⟨new_good g n, rfl⟩
  | cons _ hs ih => exact ⟨(step_good g _ _ _ _ ih.1 hs).1, by rw [step_n g _ _ _ _ hs, ih.2]⟩

end Verif.Comb
