import Verif.Wakers.Spec
/-! # Helper lemmas for C19: the counting invariant of the heap -/
namespace Verif.Wakers

def strongOf (H : Heap) (c : Nat) : Nat := match H[c]? with | some (some b) => b.strong | _ => 0

def pOf (o : Option Block) : List Nat :=
  match o with | none => [] | some b => match b.parent with | none => [] | some q => [q.blk]

def parents (H : Heap) : List Nat := H.flatMap pOf

/-- The pointer is inside of the slice it belongs to. -/
def POk (sizes : List Nat) (p : Ptr) : Prop := ∃ n, sizes[p.blk]? = some n ∧ p.idx < n

structure Shape (sizes : List Nat) (c : Nat) (b : Block) : Prop where
  size : sizes[c]? = some b.awake.length
  pos : 0 < b.strong
  redirect : b.redirect = List.replicate b.awake.length c
  parent : ∀ q, b.parent = some q → POk sizes q

/-- Every strong count is the number of owners: `roots` outside of the heap, and wakers stored
inside of it. -/
structure HInv (sizes : List Nat) (H : Heap) (roots : List Nat) : Prop where
  len : H.length = sizes.length
  cnt : ∀ c, strongOf H c = roots.count c + (parents H).count c
  shape : ∀ (c : Nat) (b : Block), H[c]? = some (some b) → Shape sizes c b

theorem HInv.congr {sizes H r r'} (h : HInv sizes H r) (e : ∀ c, r.count c = r'.count c) : HInv sizes H r' :=
  ⟨h.len, fun c => by rw [h.cnt, e], h.shape⟩

theorem parents_set (H : Heap) (c : Nat) (o o' : Option Block) (h : H[c]? = some o) (x : Nat) :
    (pOf o).count x + (parents (H.set c o')).count x = (pOf o').count x + (parents H).count x := by
  induction H generalizing c with
  | nil => simp at h
  | cons a H ih =>
    cases c with
    | zero =>
      simp only [List.getElem?_cons_zero, Option.some.injEq] at h
      subst h
      simp only [parents, List.set_cons_zero, List.flatMap_cons, List.count_append]; omega
    | succ c =>
      simp only [List.getElem?_cons_succ] at h
      have := ih c h
      simp only [parents, List.set_cons_succ, List.flatMap_cons, List.count_append] at this ⊢
      omega

theorem lt_of_get {H : Heap} {c : Nat} {o} (h : H[c]? = some o) : c < H.length := by
  rcases Nat.lt_or_ge c H.length with h' | h'
  · exact h'
  · rw [List.getElem?_eq_none h'] at h; cases h

theorem strongOf_set (H : Heap) (c : Nat) (o : Option Block) (hc : c < H.length) (x : Nat) :
    strongOf (H.set c o) x = if x = c then (match o with | some b => b.strong | none => 0) else strongOf H x := by
  unfold strongOf
  by_cases hx : x = c
  · subst hx
    simp only [List.getElem?_set_self hc, if_true]
    cases o <;> rfl
  · simp only [List.getElem?_set_ne (Ne.symm hx), hx, if_false]

theorem get_set {H : Heap} {c x : Nat} {o : Option Block} {b : Block} (hc : c < H.length)
    (h : (H.set c o)[x]? = some (some b)) : (x = c ∧ o = some b) ∨ (x ≠ c ∧ H[x]? = some (some b)) := by
  by_cases hx : x = c
  · subst hx
    rw [List.getElem?_set_self hc] at h
    exact .inl ⟨rfl, Option.some.inj h⟩
  · rw [List.getElem?_set_ne (Ne.symm hx)] at h
    exact .inr ⟨hx, h⟩

theorem HInv.alive {sizes H roots} (h : HInv sizes H roots) (c : Nat)
    (hc : 0 < roots.count c + (parents H).count c) : ∃ b, H[c]? = some (some b) := by
  have := h.cnt c
  unfold strongOf at this
  split at this
  · exact ⟨_, by assumption⟩
  · omega

theorem HInv.alive_iff {sizes H roots} (h : HInv sizes H roots) (c : Nat) :
    (∃ b, H[c]? = some (some b)) ↔ c ∈ roots ∨ c ∈ parents H := by
  rw [← List.count_pos_iff, ← List.count_pos_iff]
  constructor
  · rintro ⟨b, hb⟩
    have h1 := (h.shape c b hb).pos
    have h2 := h.cnt c
    simp only [strongOf, hb] at h2
    omega
  · intro hc
    exact h.alive c (by omega)

theorem blockAt_ok {H : Heap} {c : Nat} {b : Block} (h : H[c]? = some (some b)) : blockAt H c = .ok b := by
  simp only [blockAt, h]

theorem HInv.slot {sizes H roots} (h : HInv sizes H roots) (p : Ptr) (hp : POk sizes p) (b : Block)
    (hb : H[p.blk]? = some (some b)) : slot H p = .ok p.blk := by
  obtain ⟨n, hn, hi⟩ := hp
  have hs := h.shape _ _ hb
  have hl : b.awake.length = n := by
    have := hs.size; rw [hn] at this; exact (Option.some.inj this).symm
  simp only [Verif.Wakers.slot, blockAt_ok hb, hs.redirect]
  rw [List.getElem?_replicate_of_lt (by omega)]

/-- Only counts differ, and allocations may be gone. -/
structure Frame (H H' : Heap) : Prop where
  len : H'.length = H.length
  sub : ∀ (c : Nat) (b' : Block), H'[c]? = some (some b') → ∃ b : Block, H[c]? = some (some b) ∧
    b'.awake = b.awake ∧ b'.parent = b.parent ∧ b'.awakeLen = b.awakeLen

theorem Frame.refl (H : Heap) : Frame H H := ⟨rfl, fun _ b h => ⟨b, h, rfl, rfl, rfl⟩⟩

theorem Frame.trans {H1 H2 H3} (a : Frame H1 H2) (b : Frame H2 H3) : Frame H1 H3 := by
  refine ⟨b.len.trans a.len, fun c x hx => ?_⟩
  obtain ⟨y, hy, e1, e2, e3⟩ := b.sub c x hx
  obtain ⟨z, hz, f1, f2, f3⟩ := a.sub c y hy
  exact ⟨z, hz, e1.trans f1, e2.trans f2, e3.trans f3⟩

theorem arcClone_inv {sizes H roots} (h : HInv sizes H roots) (c : Nat) (b : Block)
    (hb : H[c]? = some (some b)) :
    ∃ H', arcClone H c = .ok H' ∧ HInv sizes H' (c :: roots) ∧ Frame H H' ∧
      ∀ (x : Nat) (b : Block), H[x]? = some (some b) → ∃ b' : Block, H'[x]? = some (some b') := by
  have hc := lt_of_get hb
  refine ⟨H.set c (some { b with strong := b.strong + 1 }), by simp only [arcClone, blockAt_ok hb], ⟨?_, ?_, ?_⟩, ⟨by simp, ?_⟩, ?_⟩
  · rw [List.length_set, h.len]
  · intro x
    have hp := parents_set H c _ (some { b with strong := b.strong + 1 }) hb x
    have e : pOf (some { b with strong := b.strong + 1 }) = pOf (some b) := rfl
    rw [e] at hp
    rw [strongOf_set _ _ _ hc]
    have hcnt := h.cnt x
    split
    · next e => subst e; simp only [strongOf, hb] at hcnt; rw [List.count_cons_self]; simp only; omega
    · next e => rw [List.count_cons_of_ne (Ne.symm e)]; omega
  · intro x y hy
    rcases get_set hc hy with ⟨rfl, e⟩ | ⟨-, e⟩
    · cases e
      have := h.shape _ _ hb
      exact ⟨this.size, Nat.succ_pos _, this.redirect, this.parent⟩
    · exact h.shape _ _ e
  · intro x y hy
    rcases get_set hc hy with ⟨rfl, e⟩ | ⟨-, e⟩
    · cases e; exact ⟨b, hb, rfl, rfl, rfl⟩
    · exact ⟨y, e, rfl, rfl, rfl⟩
  · intro x y hy
    by_cases hx : x = c
    · subst hx; exact ⟨_, List.getElem?_set_self hc⟩
    · exact ⟨y, by rw [List.getElem?_set_ne (Ne.symm hx)]; exact hy⟩

/-- Number of allocations alive. -/
def aliveCount (H : Heap) : Nat := H.countP Option.isSome

theorem aliveCount_set_none (H : Heap) (c : Nat) (b : Block) (h : H[c]? = some (some b)) :
    aliveCount (H.set c none) + 1 = aliveCount H := by
  induction H generalizing c with
  | nil => simp at h
  | cons a H ih =>
    cases c with
    | zero =>
      simp only [List.getElem?_cons_zero, Option.some.injEq] at h
      subst h
      simp [aliveCount]
    | succ c =>
      simp only [List.getElem?_cons_succ] at h
      have := ih c h
      simp only [aliveCount, List.set_cons_succ, List.countP_cons] at this ⊢
      omega

theorem arcDrop_inv {sizes} (f : Nat) (H : Heap) (roots : List Nat) (c : Nat)
    (h : HInv sizes H (c :: roots)) (hf : aliveCount H < f) :
    ∃ H', arcDrop f H c = .ok H' ∧ HInv sizes H' roots ∧ Frame H H' := by
  induction f generalizing H c with
  | zero => omega
  | succ f ih =>
    obtain ⟨b, hb⟩ := h.alive c (by rw [List.count_cons_self]; omega)
    have hc := lt_of_get hb
    have hsh := h.shape _ _ hb
    simp only [arcDrop, blockAt_ok hb]
    by_cases h1 : b.strong = 1
    · simp only [h1, if_true]
      have hlt : aliveCount (H.set c none) < f := by have := aliveCount_set_none H c b hb; omega
      have hfr : Frame H (H.set c none) := by
        refine ⟨by simp, fun x y hy => ?_⟩
        rcases get_set hc hy with ⟨_, e⟩ | ⟨-, e⟩
        · cases e
        · exact ⟨y, e, rfl, rfl, rfl⟩
      have key : HInv sizes (H.set c none) (pOf (some b) ++ roots) := by
        refine ⟨by rw [List.length_set, h.len], fun x => ?_, fun x y hy => ?_⟩
        · have hp := parents_set H c _ none hb x
          have hp0 : (pOf none).count x = 0 := rfl
          rw [strongOf_set _ _ _ hc, List.count_append]
          have hcnt := h.cnt x
          split
          · next e => subst e; simp only [strongOf, hb, h1, List.count_cons_self] at hcnt; simp only; omega
          · next e => rw [List.count_cons_of_ne (Ne.symm e)] at hcnt; omega
        · rcases get_set hc hy with ⟨_, e⟩ | ⟨-, e⟩
          · cases e
          · exact h.shape _ _ e
      cases hq : b.parent with
      | none =>
        refine ⟨_, rfl, ?_, hfr⟩
        simpa only [pOf, hq, List.nil_append] using key
      | some q =>
        simp only [pOf, hq, List.cons_append, List.nil_append] at key
        obtain ⟨b2, hb2⟩ := key.alive q.blk (by rw [List.count_cons_self]; omega)
        simp only [key.slot q (hsh.parent q hq) b2 hb2]
        obtain ⟨H', e1, e2, e3⟩ := ih _ _ key hlt
        exact ⟨H', e1, e2, hfr.trans e3⟩
    · simp only [h1, if_false]
      refine ⟨_, rfl, ⟨?_, ?_, ?_⟩, ⟨by simp, ?_⟩⟩
      · rw [List.length_set, h.len]
      · intro x
        have hp := parents_set H c _ (some { b with strong := b.strong - 1 }) hb x
        have e : pOf (some { b with strong := b.strong - 1 }) = pOf (some b) := rfl
        rw [e] at hp
        rw [strongOf_set _ _ _ hc]
        have hcnt := h.cnt x
        split
        · next e => subst e; simp only [strongOf, hb, List.count_cons_self] at hcnt; simp only; omega
        · next e => rw [List.count_cons_of_ne (Ne.symm e)] at hcnt; omega
      · intro x y hy
        rcases get_set hc hy with ⟨rfl, e⟩ | ⟨-, e⟩
        · cases e
          exact ⟨hsh.size, by have := hsh.pos; simp only; omega, hsh.redirect, hsh.parent⟩
        · exact h.shape _ _ e
      · intro x y hy
        rcases get_set hc hy with ⟨rfl, e⟩ | ⟨-, e⟩
        · cases e; exact ⟨b, hb, rfl, rfl, rfl⟩
        · exact ⟨y, e, rfl, rfl, rfl⟩

theorem arcDrop_full {sizes} (H : Heap) (roots : List Nat) (c : Nat) (h : HInv sizes H (c :: roots)) :
    ∃ H', arcDrop (H.length + 1) H c = .ok H' ∧ HInv sizes H' roots ∧ Frame H H' :=
  arcDrop_inv _ _ _ _ h (Nat.lt_succ_of_le List.countP_le_length)

theorem dropWaker_inv {sizes H roots} (p : Ptr) (h : HInv sizes H (p.blk :: roots)) (hp : POk sizes p) :
    ∃ H', dropWaker H p = .ok H' ∧ HInv sizes H' roots ∧ Frame H H' := by
  obtain ⟨b, hb⟩ := h.alive p.blk (by rw [List.count_cons_self]; omega)
  simp only [dropWaker, h.slot p hp b hb]
  exact arcDrop_full _ _ _ h

theorem dropWakers_inv {sizes H roots} (ps : List Ptr) (h : HInv sizes H (ps.map (·.blk) ++ roots))
    (hp : ∀ p ∈ ps, POk sizes p) :
    ∃ H', dropWakers H ps = .ok H' ∧ HInv sizes H' roots ∧ Frame H H' := by
  induction ps generalizing H with
  | nil => exact ⟨H, rfl, h, Frame.refl H⟩
  | cons p ps ih =>
    obtain ⟨H1, e1, i1, f1⟩ := dropWaker_inv p h (hp p (by simp))
    obtain ⟨H2, e2, i2, f2⟩ := ih i1 (fun q hq => hp q (by simp [hq]))
    exact ⟨H2, by simp only [dropWakers, e1, e2], i2, f1.trans f2⟩

theorem cloneWaker_inv {sizes H roots} (p : Ptr) (h : HInv sizes H roots) (hp : POk sizes p)
    (b : Block) (hb : H[p.blk]? = some (some b)) :
    ∃ H', cloneWaker H p = .ok (H', p) ∧ HInv sizes H' (p.blk :: roots) ∧ Frame H H' ∧
      ∀ (x : Nat) (b : Block), H[x]? = some (some b) → ∃ b' : Block, H'[x]? = some (some b') := by
  obtain ⟨H', e, i, f, k⟩ := arcClone_inv h p.blk b hb
  exact ⟨H', by simp only [cloneWaker, h.slot p hp b hb, e], i, f, k⟩

theorem wakersFrom_inv {sizes H roots} (c : Nat) (is : List Nat) (b : Block)
    (h : HInv sizes H roots) (hb : H[c]? = some (some b)) :
    ∃ H', wakersFrom c H is = .ok (H', is.map (fun i => ⟨c, i⟩)) ∧
      HInv sizes H' (List.replicate is.length c ++ roots) ∧ Frame H H' := by
  induction is generalizing H roots b with
  | nil => exact ⟨H, rfl, h, Frame.refl H⟩
  | cons i is ih =>
    obtain ⟨H1, e1, i1, f1, k1⟩ := arcClone_inv h c b hb
    obtain ⟨b1, hb1⟩ := k1 c b hb
    obtain ⟨H2, e2, i2, f2⟩ := ih b1 i1 hb1
    refine ⟨H2, ?_, i2.congr ?_, f1.trans f2⟩
    · simp only [wakersFrom, wakerFromRedirect, e1, e2, Nat.zero_add, List.map_cons]
    · intro x
      simp only [List.length_cons, List.replicate_succ, List.cons_append, List.count_append, List.count_cons]
      omega

/-- Only the mark of one subfuture changes. -/
theorem wakeByRef_inv {sizes H roots} (p : Ptr) (h : HInv sizes H roots) (hp : POk sizes p)
    (b : Block) (hb : H[p.blk]? = some (some b)) :
    ∃ b', wakeByRef H p = .ok (H.set p.blk (some b')) ∧ HInv sizes (H.set p.blk (some b')) roots ∧
      b'.awake = b.awake.set p.idx true ∧ b'.parent = b.parent := by
  have hsh := h.shape _ _ hb
  have hc := lt_of_get hb
  obtain ⟨n, hn, hi⟩ := hp
  have hl : b.awake.length = n := by
    have := hsh.size; rw [hn] at this; exact (Option.some.inj this).symm
  have hi' : p.idx < b.awake.length := by omega
  have hw : ∃ b', wakeIndex b p.idx = .ok b' ∧ b'.awake = b.awake.set p.idx true ∧ b'.parent = b.parent ∧
      b'.strong = b.strong ∧ b'.redirect = b.redirect := by
    simp only [wakeIndex, List.getElem?_eq_getElem hi']
    cases ha : b.awake[p.idx] with
    | true =>
      refine ⟨b, rfl, ?_, rfl, rfl, rfl⟩
      rw [← ha, List.set_getElem_self]
    | false => exact ⟨_, rfl, rfl, rfl, rfl, rfl⟩
  obtain ⟨b', hw, e1, e2, e3, e4⟩ := hw
  refine ⟨b', ?_, ⟨?_, ?_, ?_⟩, e1, e2⟩
  · simp only [wakeByRef, h.slot p ⟨n, hn, hi⟩ b hb, blockAt_ok hb, Nat.sub_zero, hw, ne_eq, not_true, if_false]
  · rw [List.length_set, h.len]
  · intro x
    have hpp := parents_set H p.blk _ (some b') hb x
    have e : pOf (some b') = pOf (some b) := by simp only [pOf, e2]
    rw [e] at hpp
    rw [strongOf_set _ _ _ hc]
    have hcnt := h.cnt x
    split
    · next e => subst e; simp only [strongOf, hb] at hcnt; simp only; omega
    · omega
  · intro x y hy
    rcases get_set hc hy with ⟨rfl, e⟩ | ⟨-, e⟩
    · cases e
      have hlen : b'.awake.length = b.awake.length := by rw [e1, List.length_set]
      exact ⟨by rw [hlen]; exact hsh.size, by rw [e3]; exact hsh.pos, by rw [e4, hlen]; exact hsh.redirect,
        fun q hq => hsh.parent q (by rw [← e2]; exact hq)⟩
    · exact h.shape _ _ e

theorem newSet_inv {sizes H roots} (n : Nat) (h : HInv sizes H roots) :
    ∃ H', newSet H n = .ok (H', ⟨(List.range n).map (fun i => ⟨H.length, i⟩), H.length⟩) ∧
      HInv (sizes ++ [n]) H' (List.replicate (n + 1) H.length ++ roots) ∧
      Frame (H ++ [some ⟨1, List.replicate n H.length, List.replicate n true, n, none⟩]) H' := by
  let b : Block := ⟨1, List.replicate n H.length, List.replicate n true, n, none⟩
  have hsz : ∀ {c m : Nat}, sizes[c]? = some m → (sizes ++ [n])[c]? = some m := by
    intro c m hc
    have : c < sizes.length := by
      rcases Nat.lt_or_ge c sizes.length with h' | h'
      · exact h'
      · rw [List.getElem?_eq_none h'] at hc; cases hc
    rw [List.getElem?_append_left this]; exact hc
  have key : HInv (sizes ++ [n]) (H ++ [some b]) (H.length :: roots) := by
    refine ⟨by simp [h.len], fun x => ?_, fun x y hy => ?_⟩
    · have hpar : parents (H ++ [some b]) = parents H := by
        simp [parents, List.flatMap_append, pOf, b]
      have hcnt := h.cnt x
      rw [hpar]
      by_cases hx : x = H.length
      · subst hx
        have h0 : strongOf H H.length = 0 := by simp [strongOf]
        have h1 : strongOf (H ++ [some b]) H.length = 1 := by simp [strongOf, b]
        rw [List.count_cons_self]; omega
      · rw [List.count_cons_of_ne (Ne.symm hx)]
        have : strongOf (H ++ [some b]) x = strongOf H x := by
          unfold strongOf
          rcases Nat.lt_or_ge x H.length with h' | h'
          · rw [List.getElem?_append_left h']
          · rw [List.getElem?_eq_none h', List.getElem?_eq_none (by simp; omega)]
        omega
    · rcases Nat.lt_or_ge x H.length with h' | h'
      · rw [List.getElem?_append_left h'] at hy
        have hs := h.shape _ _ hy
        refine ⟨hsz hs.size, hs.pos, hs.redirect, fun q hq => ?_⟩
        obtain ⟨m, hm, hi⟩ := hs.parent q hq
        exact ⟨m, hsz hm, hi⟩
      · have hx : x = H.length := by
          have := lt_of_get hy
          simp at this; omega
        subst hx
        rw [List.getElem?_concat_length] at hy
        cases hy
        refine ⟨?_, by simp [b], by simp [b], by simp [b]⟩
        rw [h.len, List.getElem?_concat_length]; simp [b]
  have hb : (H ++ [some b])[H.length]? = some (some b) := by rw [List.getElem?_concat_length]
  obtain ⟨H', e, i, f⟩ := wakersFrom_inv H.length (List.range n) b key hb
  refine ⟨H', ?_, i.congr ?_, f⟩
  · show (match wakersFrom H.length (H ++ [some b]) (List.range n) with
      | .error e => Except.error e
      | .ok (H2, ws) => .ok (H2, (⟨ws, H.length⟩ : Set))) = _
    rw [e]
  · intro x
    simp only [List.length_range, List.replicate_succ, List.cons_append, List.count_append, List.count_cons]
    omega

theorem set_inv {sizes H roots roots'} (h : HInv sizes H roots) (c : Nat) (b b' : Block)
    (hb : H[c]? = some (some b)) (e1 : b'.strong = b.strong) (e2 : b'.redirect = b.redirect)
    (e3 : b'.awake.length = b.awake.length) (e4 : ∀ q, b'.parent = some q → POk sizes q)
    (e5 : ∀ x, roots'.count x + (pOf (some b')).count x = roots.count x + (pOf (some b)).count x) :
    HInv sizes (H.set c (some b')) roots' := by
  have hc := lt_of_get hb
  have hsh := h.shape _ _ hb
  refine ⟨by rw [List.length_set, h.len], fun x => ?_, fun x y hy => ?_⟩
  · have hp := parents_set H c _ (some b') hb x
    rw [strongOf_set _ _ _ hc]
    have hcnt := h.cnt x
    have := e5 x
    split
    · next e => subst e; simp only [strongOf, hb] at hcnt; simp only; omega
    · omega
  · rcases get_set hc hy with ⟨rfl, e⟩ | ⟨-, e⟩
    · cases e
      exact ⟨by rw [e3]; exact hsh.size, by rw [e1]; exact hsh.pos, by rw [e2, e3]; exact hsh.redirect, e4⟩
    · exact h.shape _ _ e

theorem pollSet_inv {sizes H roots} (h : HInv sizes H roots) (x : Set) (w : Option Ptr)
    (hx : x.inner ∈ roots)
    (hw : ∀ p, w = some p → POk sizes p ∧ ∃ b : Block, H[p.blk]? = some (some b)) :
    ∃ H', pollSet H x w = .ok H' ∧ HInv sizes H' roots ∧ H'.length = H.length ∧
      ∀ (c : Nat) (b' : Block), H'[c]? = some (some b') → ∃ b : Block, H[c]? = some (some b) ∧
        b'.parent = if c = x.inner then w else b.parent := by
  obtain ⟨b, hb⟩ := (h.alive_iff x.inner).2 (.inl hx)
  have hc := lt_of_get hb
  have hsh := h.shape _ _ hb
  simp only [pollSet, blockAt_ok hb]
  by_cases hsame : b.parent = w ∧ w ≠ none
  · rw [if_pos hsame]
    refine ⟨_, rfl, set_inv h _ b _ hb rfl rfl (by simp) hsh.parent (fun _ => rfl), by simp, ?_⟩
    intro c b' hc'
    rcases get_set hc hc' with ⟨rfl, e⟩ | ⟨hne, e⟩
    · cases e; exact ⟨b, hb, by rw [if_pos rfl]; exact hsame.1⟩
    · exact ⟨b', e, by rw [if_neg hne]⟩
  · rw [if_neg hsame]
    have key : ∀ (H1 : Heap) (b1 : Block) (wr : List Nat), H1[x.inner]? = some (some b1) →
        HInv sizes H1 (wr ++ roots) → Frame H H1 →
        (∀ z, wr.count z = (pOf (some { b1 with awake := List.replicate b1.awake.length false, awakeLen := 0, parent := w })).count z) →
        ∃ H', (match b.parent with
          | none => Except.ok (H1.set x.inner (some { b1 with awake := List.replicate b1.awake.length false, awakeLen := 0, parent := w }))
          | some q => dropWaker (H1.set x.inner (some { b1 with awake := List.replicate b1.awake.length false, awakeLen := 0, parent := w })) q) = .ok H' ∧
          HInv sizes H' roots ∧ H'.length = H.length ∧
          ∀ (c : Nat) (b' : Block), H'[c]? = some (some b') → ∃ b : Block, H[c]? = some (some b) ∧
            b'.parent = if c = x.inner then w else b.parent := by
      intro H1 b1 wr hb1 i1 f1 hwr
      have hc1 := lt_of_get hb1
      obtain ⟨b0, hb0, -, hp0, -⟩ := f1.sub _ _ hb1
      rw [hb] at hb0; cases hb0
      have i2 : HInv sizes (H1.set x.inner (some { b1 with awake := List.replicate b1.awake.length false, awakeLen := 0, parent := w }))
          (pOf (some b1) ++ roots) := by
        refine set_inv i1 _ b1 _ hb1 rfl rfl (by simp) (fun q hq => (hw q hq).1) (fun z => ?_)
        have := hwr z
        simp only [List.count_append]
        omega
      have fr : ∀ (c : Nat) (b' : Block), (H1.set x.inner (some { b1 with awake := List.replicate b1.awake.length false, awakeLen := 0, parent := w }))[c]? = some (some b') →
          ∃ b : Block, H[c]? = some (some b) ∧ b'.parent = if c = x.inner then w else b.parent := by
        intro c b' hcb
        rcases get_set hc1 hcb with ⟨rfl, e⟩ | ⟨hne, e⟩
        · cases e; exact ⟨b, hb, by rw [if_pos rfl]⟩
        · obtain ⟨b2, hb2, -, hp2, -⟩ := f1.sub _ _ e
          exact ⟨b2, hb2, by rw [if_neg hne]; exact hp2⟩
      cases hq : b.parent with
      | none =>
        refine ⟨_, rfl, ?_, by rw [List.length_set, f1.len], fr⟩
        have : pOf (some b1) = [] := by simp only [pOf, hp0, hq]
        rw [this] at i2; exact i2
      | some q =>
        have : pOf (some b1) = [q.blk] := by simp only [pOf, hp0, hq]
        rw [this] at i2
        obtain ⟨H', e, i3, f3⟩ := dropWaker_inv q i2 (hsh.parent q hq)
        refine ⟨H', e, i3, by rw [f3.len, List.length_set, f1.len], fun c b' hcb => ?_⟩
        obtain ⟨b2, hb2, -, hp2, -⟩ := f3.sub _ _ hcb
        obtain ⟨b3, hb3, hp3⟩ := fr c b2 hb2
        exact ⟨b3, hb3, by rw [hp2, hp3]⟩
    cases w with
    | none =>
      simp only [blockAt_ok hb]
      exact key H b [] hb h (Frame.refl H) (fun _ => rfl)
    | some p =>
      obtain ⟨hpok, bp, hbp⟩ := hw p rfl
      obtain ⟨H1, e1, i1, f1, k1⟩ := cloneWaker_inv p h hpok bp hbp
      obtain ⟨b1, hb1⟩ := k1 _ _ hb
      simp only [e1, blockAt_ok hb1]
      exact key H1 b1 [p.blk] hb1 i1 f1 (fun _ => rfl)

end Verif.Wakers
