import Verif.Wakers.Inv
/-!
# Property theorems for C19

For every history of creating combinators, cloning, waking and dropping wakers, polling combinators
with any waker (which stores a clone of it) and dropping combinators, in any order.
-/
namespace Verif.Wakers

/-- No operation a program can do reads freed memory, leaves a slice, compares pointers of different
allocations or panics. -/
theorem no_memory_error {ops s} (h : Run ops s) (op : Op) (e : Err) : step s op ≠ some (.error e) := by
  intro hs
  obtain ⟨sizes, i⟩ := run_inv h
  obtain ⟨s', _, e', _⟩ := i.step op _ hs
  cases e'

/-- The memory of a combinator is allocated exactly as long as the combinator exists, or a clone of
one of its wakers exists in the hands of the program, or one is kept in the memory of another
combinator (as the waker that one was polled with). -/
theorem allocated_iff_owned {ops s} (h : Run ops s) (c : Nat) :
    Allocated s c ↔
      (∃ n, (ledger ops).sets[c]? = some (some n)) ∨
      (∃ k i : Nat, (ledger ops).handles[k]? = some (some (c, i))) ∨
      (∃ d i : Nat, Allocated s d ∧ (ledger ops).stored[d]? = some (some (c, i))) := by
  obtain ⟨sizes, inv⟩ := run_inv h
  unfold Allocated
  rw [inv.heap.alive_iff c, rootsOf, List.mem_append, or_comm (a := c ∈ s.handles.flatMap hOf), or_assoc]
  refine or_congr ?_ (or_congr ?_ ?_)
  · rw [List.mem_flatMap]
    constructor
    · rintro ⟨o, ho, hc⟩
      cases o with
      | none => cases hc
      | some x =>
        obtain ⟨d, hd⟩ := List.getElem?_of_mem ho
        obtain ⟨n, hn, rfl⟩ := inv.sets d x hd
        have : c = d := by
          simp only [sOf, List.mem_cons, List.mem_map] at hc
          rcases hc with rfl | ⟨p, ⟨j, -, rfl⟩, rfl⟩ <;> rfl
        subst this
        exact ⟨_, by rw [inv.lsets, List.getElem?_map, hd]; rfl⟩
    · rintro ⟨n, hn⟩
      rw [inv.lsets, List.getElem?_map] at hn
      cases hs : s.sets[c]? with
      | none => rw [hs] at hn; cases hn
      | some o =>
        cases o with
        | none => rw [hs] at hn; cases hn
        | some x =>
          obtain ⟨m, hm, rfl⟩ := inv.sets c x hs
          exact ⟨_, List.mem_of_getElem? hs, by simp [sOf]⟩
  · rw [List.mem_flatMap]
    constructor
    · rintro ⟨o, ho, hc⟩
      cases o with
      | none => cases hc
      | some p =>
        obtain ⟨k, hk⟩ := List.getElem?_of_mem ho
        have : c = p.blk := by simpa [hOf] using hc
        subst this
        exact ⟨k, p.idx, by rw [inv.lhandles, List.getElem?_map, hk]; rfl⟩
    · rintro ⟨k, i, hk⟩
      rw [inv.lhandles, List.getElem?_map] at hk
      cases hs : s.handles[k]? with
      | none => rw [hs] at hk; cases hk
      | some o =>
        cases o with
        | none => rw [hs] at hk; cases hk
        | some p =>
          rw [hs] at hk
          simp only [Option.map_some, Option.some.injEq, tgt, Prod.mk.injEq] at hk
          exact ⟨_, List.mem_of_getElem? hs, by simp [hOf, hk.1]⟩
  · rw [parents, List.mem_flatMap]
    constructor
    · rintro ⟨o, ho, hc⟩
      cases o with
      | none => cases hc
      | some b =>
        obtain ⟨d, hd⟩ := List.getElem?_of_mem ho
        have hst := inv.lstored d b hd
        cases hb : b.parent with
        | none => simp only [pOf, hb] at hc; cases hc
        | some q =>
          rw [hb] at hst
          have : c = q.blk := by simpa [pOf, hb] using hc
          subst this
          exact ⟨d, q.idx, ⟨b, hd⟩, hst⟩
    · rintro ⟨d, i, ⟨b, hb⟩, hd⟩
      rw [inv.lstored d b hb] at hd
      cases hp : b.parent with
      | none => rw [hp] at hd; cases hd
      | some q =>
        rw [hp] at hd
        simp only [Option.map_some, Option.some.injEq, tgt, Prod.mk.injEq] at hd
        exact ⟨_, List.mem_of_getElem? hb, by simp [pOf, hp, hd.1]⟩

/-- Once all combinators and all clones are gone nothing stays allocated, unless combinators were
polled with wakers of each other in a circle (`rank` witnesses that they were not). -/
theorem all_freed {ops s} (h : Run ops s) (rank : Nat → Nat)
    (hr : ∀ d c i : Nat, (ledger ops).stored[d]? = some (some (c, i)) → rank d < rank c)
    (h1 : ∀ c : Nat, ∀ n, (ledger ops).sets[c]? ≠ some (some n))
    (h2 : ∀ k : Nat, ∀ t, (ledger ops).handles[k]? ≠ some (some t)) (c : Nat) : ¬ Allocated s c := by
  suffices ∀ r c, rank c = r → ¬ Allocated s c from this _ c rfl
  intro r
  induction r using Nat.strongRecOn with
  | ind r ih =>
    rintro c rfl ha
    rcases (allocated_iff_owned h c).1 ha with ⟨n, hn⟩ | ⟨k, i, hk⟩ | ⟨d, i, hd, hst⟩
    · exact h1 c n hn
    · exact h2 k _ hk
    · exact ih _ (hr d c i hst) d rfl hd

/-- Waking a waker that exists works and marks exactly the subfuture it was handed to. -/
theorem wake_marks_target {ops s} (h : Run ops s) (src : Src) (c i : Nat)
    (ht : (ledger ops).target src = some (c, i))
    (hs : ∀ d, src = .stored d → Allocated s d) :
    ∃ s', step s (.wakeByRef src) = some (.ok s') ∧ mark s' c i = some true ∧
      ∀ c' i', (c', i') ≠ (c, i) → mark s' c' i' = mark s c' i' := by
  obtain ⟨sizes, inv⟩ := run_inv h
  have hp : ∃ p, src.ptr s = some p := by
    cases src with
    | handle k =>
      simp only [Ledger.target, inv.lhandles, List.getElem?_map] at ht
      cases hk : s.handles[k]? with
      | none => rw [hk] at ht; cases ht
      | some o =>
        cases o with
        | none => rw [hk] at ht; cases ht
        | some p => exact ⟨p, by simp [Src.ptr, hk]⟩
    | own d j =>
      simp only [Ledger.target, inv.lsets, List.getElem?_map] at ht
      cases hk : s.sets[d]? with
      | none => rw [hk] at ht; cases ht
      | some o =>
        cases o with
        | none => rw [hk] at ht; cases ht
        | some x =>
          rw [hk] at ht
          simp only [Option.map_some, Option.join_some, Option.bind_some] at ht
          split at ht
          · next hj => exact ⟨x.wakers[j], by simp [Src.ptr, hk, List.getElem?_eq_getElem hj]⟩
          · cases ht
    | stored d =>
      obtain ⟨b, hb⟩ := hs d rfl
      simp only [Ledger.target, inv.lstored d b hb] at ht
      cases hq : b.parent with
      | none => rw [hq] at ht; cases ht
      | some q => exact ⟨q, by simp [Src.ptr, hb, hq]⟩
  obtain ⟨p, hp⟩ := hp
  obtain ⟨⟨hpok, b, hb⟩, ht'⟩ := inv.src src p hp
  rw [ht] at ht'
  simp only [tgt, Option.some.injEq, Prod.mk.injEq] at ht'
  obtain ⟨rfl, rfl⟩ := ht'
  obtain ⟨b', e, -, e1, -⟩ := wakeByRef_inv p inv.heap hpok b hb
  have hc := lt_of_get hb
  have hi : p.idx < b.awake.length := by
    obtain ⟨n, hn, hi⟩ := hpok
    have := (inv.heap.shape _ _ hb).size
    rw [hn] at this
    rw [← Option.some.inj this]; exact hi
  refine ⟨_, by simp only [step, hp, e]; rfl, ?_, fun c' i' hne => ?_⟩
  · simp only [mark, List.getElem?_set_self hc, Option.join_some, Option.bind_some, e1]
    rw [List.getElem?_set_self hi]
  · simp only [mark]
    by_cases hcc : c' = p.blk
    · subst hcc
      have hii : i' ≠ p.idx := fun e => hne (by rw [e])
      simp only [List.getElem?_set_self hc, hb, Option.join_some, Option.bind_some, e1]
      rw [List.getElem?_set_ne (Ne.symm hii)]
    · rw [List.getElem?_set_ne (Ne.symm hcc)]

/-! A history that meets the hypotheses: a combinator of two inside subfuture 1 of a combinator of
three. The inner one is polled with the waker of the outer, a clone of one of its wakers is kept, and
both combinators are dropped: the memory of both stays, until the clone is used up. -/

def runOps (s : State) : List Op → Option State
  | [] => some s
  | op :: ops => match step s op with
    | some (.ok s') => runOps s' ops
    | _ => none

theorem run_of_runOps {ops0 s0} (h0 : Run ops0 s0) (ops : List Op) (s : State)
    (h : runOps s0 ops = some s) : Run (ops.reverse ++ ops0) s := by
  induction ops generalizing s0 ops0 with
  | nil => cases h; exact h0
  | cons op ops ih =>
    simp only [runOps] at h
    split at h
    · next s' hs =>
      have := ih (.cons h0 hs) h
      simpa using this
    · cases h

def exampleOps : List Op :=
  [.new 3, .new 2, .poll 0 none, .poll 1 (some (.own 0 1)), .clone (.own 1 0), .clone (.handle 0), .drop 1,
    .dropSet 1, .dropSet 0]

theorem example_run : ∃ ops s, Run ops s ∧ Allocated s 0 ∧ Allocated s 1 ∧
    (ledger ops).target (.handle 0) = some (1, 0) ∧ mark s 1 0 = some false ∧
    ∃ s', step s (.wake 0) = some (.ok s') ∧ ¬ Allocated s' 0 ∧ ¬ Allocated s' 1 := by
  have h : ∃ s, runOps init exampleOps = some s ∧ Allocated s 0 ∧ Allocated s 1 ∧ mark s 1 0 = some false ∧
      ∃ s', step s (.wake 0) = some (.ok s') ∧ s'.heap = [none, none] :=
    ⟨_, rfl, ⟨_, rfl⟩, ⟨_, rfl⟩, rfl, _, rfl, rfl⟩
  obtain ⟨s, hs, h0, h1, hm, s', hs', hh⟩ := h
  refine ⟨_, s, run_of_runOps .nil exampleOps s hs, h0, h1, rfl, hm, s', hs', ?_, ?_⟩
  · rintro ⟨b, hb⟩; rw [hh] at hb; simp at hb
  · rintro ⟨b, hb⟩; rw [hh] at hb; simp at hb

/-- After the same history and a last `wake`, `all_freed` applies. -/
example : ∃ ops s, Run ops s ∧ (∃ rank : Nat → Nat,
    ∀ d c i : Nat, (ledger ops).stored[d]? = some (some (c, i)) → rank d < rank c) ∧
    (∀ c : Nat, ∀ n, (ledger ops).sets[c]? ≠ some (some n)) ∧
    (∀ k : Nat, ∀ t, (ledger ops).handles[k]? ≠ some (some t)) ∧ s.heap.length = 2 := by
  have h : ∃ s, runOps init (exampleOps ++ [.wake 0]) = some s ∧ s.heap.length = 2 := ⟨_, rfl, rfl⟩
  obtain ⟨s, hs, hl⟩ := h
  refine ⟨_, s, run_of_runOps .nil _ s hs, ⟨fun c => 1 - c, ?_⟩, ?_, ?_, hl⟩
  · intro d c i hd
    have : (ledger ((exampleOps ++ [Op.wake 0]).reverse ++ [])).stored = [none, some (0, 1)] := rfl
    rw [this] at hd
    match d with
    | 0 => cases hd
    | 1 => cases hd; simp
    | d + 2 => simp at hd
  · intro c n
    have : (ledger ((exampleOps ++ [Op.wake 0]).reverse ++ [])).sets = [none, none] := rfl
    rw [this]
    match c with
    | 0 => simp
    | 1 => simp
    | c + 2 => simp
  · intro c n
    have : (ledger ((exampleOps ++ [Op.wake 0]).reverse ++ [])).handles = [none, none] := rfl
    rw [this]
    match c with
    | 0 => simp
    | 1 => simp
    | c + 2 => simp

end Verif.Wakers
