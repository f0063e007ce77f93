import Verif.Wakers.Lemmas
/-! # Helper lemmas for C19: the invariant of the whole state -/
namespace Verif.Wakers

def tgt (p : Ptr) : Target := (p.blk, p.idx)
def hOf (o : Option Ptr) : List Nat := match o with | none => [] | some p => [p.blk]
def sOf (o : Option Set) : List Nat := match o with | none => [] | some x => x.inner :: x.wakers.map (·.blk)
def rootsOf (s : State) : List Nat := s.handles.flatMap hOf ++ s.sets.flatMap sOf

theorem flatMap_set {α : Type} (g : α → List Nat) (L : List α) (c : Nat) (o o' : α) (h : L[c]? = some o) (x : Nat) :
    (g o).count x + ((L.set c o').flatMap g).count x = (g o').count x + (L.flatMap g).count x := by
  induction L generalizing c with
  | nil => simp at h
  | cons a H ih =>
    cases c with
    | zero =>
      simp only [List.getElem?_cons_zero, Option.some.injEq] at h
      subst h
      simp only [List.set_cons_zero, List.flatMap_cons, List.count_append]; omega
    | succ c =>
      simp only [List.getElem?_cons_succ] at h
      have := ih c h
      simp only [List.set_cons_succ, List.flatMap_cons, List.count_append] at this ⊢
      omega

structure SInv (s : State) (l : Ledger) (sizes : List Nat) : Prop where
  heap : HInv sizes s.heap (rootsOf s)
  setsLen : s.sets.length = sizes.length
  sets : ∀ (c : Nat) (x : Set), s.sets[c]? = some (some x) →
    ∃ n, sizes[c]? = some n ∧ x = ⟨(List.range n).map (fun i => ⟨c, i⟩), c⟩
  lsets : l.sets = s.sets.map (Option.map (·.wakers.length))
  hOk : ∀ (h : Nat) (p : Ptr), s.handles[h]? = some (some p) → POk sizes p
  lhandles : l.handles = s.handles.map (Option.map tgt)
  storedLen : l.stored.length = sizes.length
  lstored : ∀ (c : Nat) (b : Block), s.heap[c]? = some (some b) → l.stored[c]? = some (b.parent.map tgt)

theorem join_eq {α : Type} {o : Option (Option α)} {x : α} (h : o.join = some x) : o = some (some x) := by
  cases o with
  | none => cases h
  | some o => cases o with
    | none => cases h
    | some y => cases h; rfl

theorem SInv.handle {s l sizes} (i : SInv s l sizes) (h : Nat) (p : Ptr) (hp : s.handles[h]? = some (some p)) :
    POk sizes p ∧ ∃ b : Block, s.heap[p.blk]? = some (some b) := by
  refine ⟨i.hOk h p hp, (i.heap.alive_iff _).2 (.inl ?_)⟩
  refine List.mem_append.2 (.inl (List.mem_flatMap.2 ⟨some p, List.mem_of_getElem? hp, ?_⟩))
  simp [hOf]

theorem SInv.inner {s l sizes} (_ : SInv s l sizes) (c : Nat) (x : Set) (hx : s.sets[c]? = some (some x)) :
    x.inner ∈ rootsOf s := by
  refine List.mem_append.2 (.inr (List.mem_flatMap.2 ⟨some x, List.mem_of_getElem? hx, ?_⟩))
  simp [sOf]

theorem SInv.src {s l sizes} (i : SInv s l sizes) (src : Src) (p : Ptr) (hp : src.ptr s = some p) :
    (POk sizes p ∧ ∃ b : Block, s.heap[p.blk]? = some (some b)) ∧ l.target src = some (tgt p) := by
  cases src with
  | handle h =>
    have hp := join_eq hp
    refine ⟨i.handle h p hp, ?_⟩
    simp only [Ledger.target, i.lhandles, List.getElem?_map, hp]
    rfl
  | own c j =>
    simp only [Src.ptr] at hp
    cases hx : (s.sets[c]?).join with
    | none => rw [hx] at hp; cases hp
    | some x =>
      rw [hx] at hp
      have hx := join_eq hx
      obtain ⟨n, hn, rfl⟩ := i.sets c x hx
      simp only [Option.bind_some, List.getElem?_map] at hp
      have hj : j < n := by
        rcases Nat.lt_or_ge j n with h | h
        · exact h
        · rw [List.getElem?_eq_none (by simpa using h)] at hp; cases hp
      rw [List.getElem?_eq_getElem (by simpa using hj)] at hp
      simp only [List.getElem_range, Option.map_some, Option.some.injEq] at hp
      subst hp
      refine ⟨⟨⟨n, hn, hj⟩, ?_⟩, ?_⟩
      · exact (i.heap.alive_iff _).2 (.inl (i.inner c _ hx))
      · simp only [Ledger.target, i.lsets, List.getElem?_map, hx]
        simp [hj, tgt]
  | stored c =>
    simp only [Src.ptr] at hp
    cases hb : (s.heap[c]?).join with
    | none => rw [hb] at hp; cases hp
    | some b =>
      rw [hb] at hp
      have hb := join_eq hb
      simp only [Option.bind_some] at hp
      refine ⟨⟨(i.heap.shape _ _ hb).parent p hp, ?_⟩, ?_⟩
      · refine (i.heap.alive_iff _).2 (.inr (List.mem_flatMap.2 ⟨some b, List.mem_of_getElem? hb, ?_⟩))
        simp [pOf, hp]
      · simp only [Ledger.target, i.lstored c b hb, hp]
        rfl

theorem POk.mono {sizes : List Nat} {p : Ptr} (n : Nat) (h : POk sizes p) : POk (sizes ++ [n]) p := by
  obtain ⟨m, hm, hi⟩ := h
  refine ⟨m, ?_, hi⟩
  have : p.blk < sizes.length := by
    rcases Nat.lt_or_ge p.blk sizes.length with h' | h'
    · exact h'
    · rw [List.getElem?_eq_none h'] at hm; cases hm
  rw [List.getElem?_append_left this]; exact hm

theorem snoc_get {α : Type} {L : List α} {a x : α} {c : Nat} (h : (L ++ [a])[c]? = some x) :
    (c < L.length ∧ L[c]? = some x) ∨ (c = L.length ∧ a = x) := by
  rcases Nat.lt_or_ge c L.length with h' | h'
  · exact .inl ⟨h', by rwa [List.getElem?_append_left h'] at h⟩
  · have : c = L.length := by
      rcases Nat.lt_or_ge c (L.length + 1) with h'' | h''
      · omega
      · rw [List.getElem?_eq_none (by simpa using h'')] at h; cases h
    subst this
    rw [List.getElem?_concat_length] at h
    exact .inr ⟨rfl, Option.some.inj h⟩

theorem set_get {α : Type} {L : List α} {a x : α} {c d : Nat} (h : (L.set d a)[c]? = some x) :
    (c ≠ d ∧ L[c]? = some x) ∨ (c = d ∧ a = x) := by
  by_cases hcd : c = d
  · subst hcd
    rcases Nat.lt_or_ge c L.length with h' | h'
    · rw [List.getElem?_set_self h'] at h; exact .inr ⟨rfl, Option.some.inj h⟩
    · rw [List.getElem?_eq_none (by simpa using h')] at h; cases h
  · rw [List.getElem?_set_ne (Ne.symm hcd)] at h; exact .inl ⟨hcd, h⟩

theorem SInv.step {s l sizes} (i : SInv s l sizes) (op : Op) (r : Except Err State)
    (h : step s op = some r) : ∃ s' sizes', r = .ok s' ∧ SInv s' (l.record op) sizes' := by
  have hlen : s.heap.length = sizes.length := i.heap.len
  -- a drop of owned waker `h` in a heap that only differs in marks
  have dropCase : ∀ (h : Nat) (p : Ptr) (H1 : Heap), s.handles[h]? = some (some p) →
      HInv sizes H1 (rootsOf s) → H1.length = s.heap.length →
      (∀ (c : Nat) (b1 : Block), H1[c]? = some (some b1) → ∃ b : Block, s.heap[c]? = some (some b) ∧ b1.parent = b.parent) →
      ∃ H2, dropWaker H1 p = .ok H2 ∧
        SInv { s with heap := H2, handles := s.handles.set h none }
          { l with handles := l.handles.set h none } sizes := by
    intro h p H1 hp i1 hl1 hfr
    have i1' : HInv sizes H1 (p.blk :: rootsOf { s with handles := s.handles.set h none }) := by
      refine i1.congr (fun c => ?_)
      have := flatMap_set hOf s.handles h (some p) none hp c
      simp only [rootsOf, List.count_append, List.count_cons, hOf, List.count_nil] at this ⊢
      omega
    obtain ⟨H2, e2, i2, f2⟩ := dropWaker_inv p i1' (i.hOk h p hp)
    refine ⟨H2, e2, i2, i.setsLen, i.sets, i.lsets, ?_, ?_, i.storedLen, ?_⟩
    · intro h' p' hp'
      rcases set_get hp' with ⟨-, e⟩ | ⟨-, e⟩
      · exact i.hOk h' p' e
      · cases e
    · simp only [i.lhandles, List.map_set]; rfl
    · intro c b hb
      obtain ⟨b1, hb1, -, e1, -⟩ := f2.sub c b hb
      obtain ⟨b0, hb0, e0⟩ := hfr c b1 hb1
      rw [e1, e0]; exact i.lstored c b0 hb0
  -- a mark
  have wakeCase : ∀ p : Ptr, (POk sizes p ∧ ∃ b : Block, s.heap[p.blk]? = some (some b)) →
      ∃ H1, wakeByRef s.heap p = .ok H1 ∧ HInv sizes H1 (rootsOf s) ∧ H1.length = s.heap.length ∧
      (∀ (c : Nat) (b1 : Block), H1[c]? = some (some b1) → ∃ b : Block, s.heap[c]? = some (some b) ∧ b1.parent = b.parent) := by
    rintro p ⟨hpok, b, hb⟩
    obtain ⟨b', e, i1, -, e2⟩ := wakeByRef_inv p i.heap hpok b hb
    refine ⟨_, e, i1, by simp, fun c b1 hb1 => ?_⟩
    rcases get_set (lt_of_get hb) hb1 with ⟨rfl, e⟩ | ⟨-, e⟩
    · cases e; exact ⟨b, hb, e2⟩
    · exact ⟨b1, e, rfl⟩
  -- a poll
  have pollCase : ∀ (c : Nat) (x : Set) (w : Option Src) (p : Option Ptr),
      s.sets[c]? = some (some x) → w.bind (Src.ptr s) = p → (w ≠ none → p ≠ none) →
      ∃ H1, pollSet s.heap x p = .ok H1 ∧ SInv { s with heap := H1 } (l.record (.poll c w)) sizes := by
    intro c x w p hx hp hwp
    have hw : ∀ q, p = some q → POk sizes q ∧ ∃ b : Block, s.heap[q.blk]? = some (some b) := by
      intro q hq
      cases w with
      | none => subst hp; cases hq
      | some src =>
        simp only [Option.bind_some] at hp
        exact (i.src src q (by rw [hp, hq])).1
    obtain ⟨n, hn, hxe⟩ := i.sets c x hx
    obtain ⟨H1, e, i1, hl1, hfr⟩ := pollSet_inv i.heap x p (i.inner c x hx) hw
    refine ⟨H1, e, i1, i.setsLen, i.sets, i.lsets, i.hOk, i.lhandles, by simp [Ledger.record, i.storedLen], ?_⟩
    intro d b hb
    have hd : d < l.stored.length := by
      have := lt_of_get hb
      simp only at this
      rw [i.storedLen]; omega
    obtain ⟨b0, hb0, e0⟩ := hfr d b hb
    have hinner : x.inner = c := by rw [hxe]
    rw [hinner] at e0
    simp only [Ledger.record]
    by_cases hdc : d = c
    · subst hdc
      rw [List.getElem?_set_self hd, e0, if_pos rfl]
      cases w with
      | none => subst hp; rfl
      | some src =>
        cases hp' : p with
        | none => exact absurd hp' (hwp (by simp))
        | some q =>
          simp only [Option.bind_some] at hp
          simp only [Option.bind_some, (i.src src q (by rw [hp, hp'])).2, Option.map_some]
    · rw [List.getElem?_set_ne (Ne.symm hdc), e0, if_neg hdc]
      exact i.lstored d b0 hb0
  cases op with
  | new n =>
    obtain ⟨H', e, i', f⟩ := newSet_inv n i.heap
    simp only [Verif.Wakers.step, e, Option.some.injEq] at h
    subst h
    refine ⟨_, sizes ++ [n], rfl, ⟨i'.congr ?_, ?_, ?_, ?_, ?_, i.lhandles, ?_, ?_⟩⟩
    · intro c
      have : (List.map (fun i => (⟨s.heap.length, i⟩ : Ptr).blk) (List.range n)) = List.replicate n s.heap.length := by
        simp [List.map_const']
      simp only [rootsOf, List.count_append, List.flatMap_append, List.flatMap_cons, List.flatMap_nil, sOf,
        List.map_map, List.append_nil, List.replicate_succ, List.count_cons, Function.comp_def, this]
      omega
    · simp [i.setsLen]
    · intro c x hx
      rcases snoc_get hx with ⟨hc, e⟩ | ⟨rfl, e⟩
      · obtain ⟨m, hm, rfl⟩ := i.sets c x e
        exact ⟨m, by rw [List.getElem?_append_left (by rw [← i.setsLen]; exact hc)]; exact hm, rfl⟩
      · cases e
        refine ⟨n, by rw [i.setsLen, List.getElem?_concat_length], ?_⟩
        rw [i.setsLen, hlen]
    · simp only [Ledger.record, i.lsets, List.map_append]
      simp
    · intro h p hp; exact (i.hOk h p hp).mono n
    · simp [Ledger.record, i.storedLen]
    · intro c b hb
      obtain ⟨b0, hb0, -, e0, -⟩ := f.sub c b hb
      simp only [Ledger.record]
      rcases snoc_get hb0 with ⟨hc, e⟩ | ⟨rfl, e⟩
      · rw [List.getElem?_append_left (by rw [i.storedLen]; omega), e0]
        exact i.lstored c b0 e
      · cases e
        rw [hlen, ← i.storedLen, List.getElem?_concat_length, e0]; rfl
  | clone src =>
    simp only [Verif.Wakers.step] at h
    cases hp : src.ptr s with
    | none => rw [hp] at h; cases h
    | some p =>
      obtain ⟨⟨hpok, b, hb⟩, ht⟩ := i.src src p hp
      obtain ⟨H', e, i', f, -⟩ := cloneWaker_inv p i.heap hpok b hb
      simp only [hp, e, Option.some.injEq] at h
      subst h
      refine ⟨_, sizes, rfl, ⟨i'.congr ?_, i.setsLen, i.sets, i.lsets, ?_, ?_, i.storedLen, ?_⟩⟩
      · intro c
        simp only [rootsOf, List.count_append, List.flatMap_append, List.flatMap_cons, List.flatMap_nil, hOf,
          List.count_cons, List.append_nil, List.count_nil]
        omega
      · intro h q hq
        rcases snoc_get hq with ⟨-, e⟩ | ⟨-, e⟩
        · exact i.hOk h q e
        · cases e; exact hpok
      · simp only [Ledger.record, i.lhandles, List.map_append, ht]
        simp
      · intro c b' hb'
        obtain ⟨b0, hb0, -, e0, -⟩ := f.sub c b' hb'
        rw [e0]; exact i.lstored c b0 hb0
  | wakeByRef src =>
    simp only [Verif.Wakers.step] at h
    cases hp : src.ptr s with
    | none => rw [hp] at h; cases h
    | some p =>
      obtain ⟨H1, e, i1, -, hfr⟩ := wakeCase p (i.src src p hp).1
      simp only [hp, e, Option.some.injEq] at h
      subst h
      refine ⟨_, sizes, rfl, ⟨i1, i.setsLen, i.sets, i.lsets, i.hOk, i.lhandles, i.storedLen, ?_⟩⟩
      intro c b hb
      obtain ⟨b0, hb0, e0⟩ := hfr c b hb
      rw [e0]; exact i.lstored c b0 hb0
  | wake hd =>
    simp only [Verif.Wakers.step] at h
    cases hp : (s.handles[hd]?).join with
    | none => rw [hp] at h; cases h
    | some p =>
      have hp' := join_eq hp
      obtain ⟨H1, e, i1, hl1, hfr⟩ := wakeCase p (i.handle hd p hp')
      obtain ⟨H2, e2, i2⟩ := dropCase hd p H1 hp' i1 hl1 hfr
      simp only [hp, wake, e, e2, Option.some.injEq] at h
      subst h
      exact ⟨_, sizes, rfl, i2⟩
  | drop hd =>
    simp only [Verif.Wakers.step] at h
    cases hp : (s.handles[hd]?).join with
    | none => rw [hp] at h; cases h
    | some p =>
      have hp' := join_eq hp
      obtain ⟨H2, e2, i2⟩ := dropCase hd p s.heap hp' i.heap rfl (fun c b hb => ⟨b, hb, rfl⟩)
      simp only [hp, e2, Option.some.injEq] at h
      subst h
      exact ⟨_, sizes, rfl, i2⟩
  | poll c w =>
    simp only [Verif.Wakers.step] at h
    cases hx : (s.sets[c]?).join with
    | none => rw [hx] at h; cases h
    | some x =>
      have hx' := join_eq hx
      cases w with
      | none =>
        obtain ⟨H1, e, i1⟩ := pollCase c x none none hx' rfl (fun h => absurd rfl h)
        simp only [hx, e, Option.some.injEq] at h
        subst h
        exact ⟨_, sizes, rfl, i1⟩
      | some src =>
        cases hp : src.ptr s with
        | none => simp only [hx, hp] at h; cases h
        | some p =>
          obtain ⟨H1, e, i1⟩ := pollCase c x (some src) (some p) hx' hp (fun _ h => by cases h)
          simp only [hx, hp, e, Option.some.injEq] at h
          subst h
          exact ⟨_, sizes, rfl, i1⟩
  | dropSet c =>
    simp only [Verif.Wakers.step] at h
    cases hx : (s.sets[c]?).join with
    | none => rw [hx] at h; cases h
    | some x =>
      have hx' := join_eq hx
      obtain ⟨n, hn, hxe⟩ := i.sets c x hx'
      have i1 : HInv sizes s.heap (x.wakers.map (·.blk) ++ (x.inner :: rootsOf { s with sets := s.sets.set c none })) := by
        refine i.heap.congr (fun z => ?_)
        have := flatMap_set sOf s.sets c (some x) none hx' z
        simp only [rootsOf, List.count_append, List.count_cons, sOf, List.count_nil] at this ⊢
        omega
      have hok : ∀ p ∈ x.wakers, POk sizes p := by
        intro p hp
        rw [hxe] at hp
        simp only [List.mem_map, List.mem_range] at hp
        obtain ⟨j, hj, rfl⟩ := hp
        exact ⟨n, hn, hj⟩
      obtain ⟨H1, e1, i2, f1⟩ := dropWakers_inv x.wakers i1 hok
      obtain ⟨H2, e2, i3, f2⟩ := arcDrop_full _ _ _ i2
      simp only [hx, dropSet, e1, e2, Option.some.injEq] at h
      subst h
      refine ⟨_, sizes, rfl, ⟨i3, by simp [i.setsLen], ?_, ?_, i.hOk, i.lhandles, i.storedLen, ?_⟩⟩
      · intro d y hy
        rcases set_get hy with ⟨-, e⟩ | ⟨-, e⟩
        · exact i.sets d y e
        · cases e
      · simp only [Ledger.record, i.lsets, List.map_set]; rfl
      · intro d b hb
        obtain ⟨b0, hb0, -, e0, -⟩ := (f1.trans f2).sub d b hb
        rw [e0]; exact i.lstored d b0 hb0

theorem init_inv : SInv init (ledger []) [] := by
  refine ⟨⟨rfl, fun c => ?_, fun c b hb => ?_⟩, rfl, ?_, rfl, ?_, rfl, rfl, ?_⟩
  · simp [init, strongOf, rootsOf, parents]
  · simp [init] at hb
  · intro c x hx; simp [init] at hx
  · intro c x hx; simp [init] at hx
  · intro c x hx; simp [init] at hx

theorem run_inv {ops s} (h : Run ops s) : ∃ sizes, SInv s (ledger ops) sizes := by
  induction h with
  | nil => exact ⟨[], init_inv⟩
  | @cons ops s op s' hr hs ih =>
    obtain ⟨sizes, i⟩ := ih
    obtain ⟨s2, sizes', e, i'⟩ := i.step op _ hs
    cases e
    exact ⟨sizes', i'⟩

end Verif.Wakers
