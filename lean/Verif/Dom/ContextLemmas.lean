import Verif.Dom.HistorySpec
import Verif.Dom.PositionLemmas
/-! Helper lemmas about groups, child lists and contexts. -/
namespace Verif.Dom

/-! ### order facts in usable form -/

theorem cmp_self (p : Pos) : Pos.cmp p p = .eq := by
  rw [cmp_eq_lex, lexCmp_eq_iff]

theorem cmp_eq' {p q : Pos} (h : Pos.cmp p q = .eq) : p = q := by
  rw [cmp_eq_lex, lexCmp_eq_iff, List.reverse_inj] at h; exact h

theorem cmp_gt_iff {p q : Pos} : Pos.cmp p q = .gt ↔ Pos.cmp q p = .lt := by
  rw [cmp_eq_lex, cmp_eq_lex, ← lexCmp_swap p.reverse]
  cases lexCmp p.reverse q.reverse <;> simp

theorem cmp_lt_trans {p q r : Pos} (h1 : Pos.cmp p q = .lt) (h2 : Pos.cmp q r = .lt) :
    Pos.cmp p r = .lt := by
  rw [cmp_eq_lex] at *; exact lexCmp_trans h1 h2

/-- strictly sorted by key -/
def Group.Sorted (m : Group) : Prop := m.Pairwise fun x y => Pos.cmp x.1 y.1 = .lt

theorem Group.split (m : Group) (hs : m.Sorted) (p : Pos) (n : NodeId) (hp : ∀ e ∈ m, e.1 ≠ p) :
    ∃ A B, m = A ++ B ∧ m.firstFrom p = B.head?.map (·.2) ∧
      m.insert p n = (A ++ (p, n) :: B, none) ∧
      (∀ e ∈ A, Pos.cmp e.1 p = .lt) ∧ (∀ e ∈ B, Pos.cmp p e.1 = .lt) := by
  induction m with
  | nil => exact ⟨[], [], rfl, rfl, rfl, by simp, by simp⟩
  | cons e m ih =>
    obtain ⟨q, k⟩ := e
    have hs' := List.pairwise_cons.1 hs
    cases h : Pos.cmp p q with
    | lt =>
      refine ⟨[], (q, k) :: m, rfl, ?_, ?_, by simp, ?_⟩
      · have : Pos.cmp q p = .gt := cmp_gt_iff.2 h
        simp [Group.firstFrom, this]
      · simp [Group.insert, h]
      · intro e he
        rcases List.mem_cons.1 he with rfl | he
        · exact h
        · exact cmp_lt_trans h (hs'.1 e he)
    | eq => exact absurd (cmp_eq' h).symm (hp (q, k) (by simp))
    | gt =>
      obtain ⟨A, B, hm, hf, hi, hA, hB⟩ := ih hs'.2 (fun e he => hp e (by simp [he]))
      have hlt := cmp_gt_iff.1 h
      refine ⟨(q, k) :: A, B, by rw [hm]; rfl, ?_, ?_, ?_, hB⟩
      · rw [← hf]; simp [Group.firstFrom, hlt]
      · simp [Group.insert, h, hi]
      · intro e he
        rcases List.mem_cons.1 he with rfl | he
        · exact hlt
        · exact hA e he

theorem Group.sorted_insert {A B : Group} {p : Pos} {n : NodeId} (hs : Group.Sorted (A ++ B))
    (hA : ∀ e ∈ A, Pos.cmp e.1 p = .lt) (hB : ∀ e ∈ B, Pos.cmp p e.1 = .lt) :
    Group.Sorted (A ++ (p, n) :: B) := by
  unfold Group.Sorted at *
  rw [List.pairwise_append] at *
  refine ⟨hs.1, List.pairwise_cons.2 ⟨hB, hs.2.1⟩, ?_⟩
  intro a ha b hb
  rcases List.mem_cons.1 hb with rfl | hb
  · exact hA a ha
  · exact hs.2.2 a ha b hb

/-! ### child lists -/

theorem insertBeforeIn_split {r : NodeId} (n : NodeId) {K1 K2 : List NodeId} (h : r ∉ K1) :
    insertBeforeIn n r (K1 ++ r :: K2) = K1 ++ n :: r :: K2 := by
  induction K1 with
  | nil => simp [insertBeforeIn]
  | cons x xs ih =>
    simp at h
    simp [insertBeforeIn, Ne.symm h.1, ih h.2]

theorem filter_ne_self {n : NodeId} {K : List NodeId} (h : n ∉ K) :
    K.filter (· != n) = K := by
  rw [List.filter_eq_self]
  intro a ha
  simp
  rintro rfl
  exact h ha

theorem Dom.detach_of_not_mem (d : Dom) (n : NodeId) (h : ∀ c, n ∉ d.kids c) :
    d.detach n = d := by
  cases d with
  | mk k =>
    simp only [Dom.detach, Dom.mk.injEq]
    funext c
    exact filter_ne_self (h c)

theorem Dom.insert_end (d : Dom) (c n : NodeId) (h : ∀ c, n ∉ d.kids c) :
    d.insertBefore c n none = some ⟨fun x => if x = c then d.kids x ++ [n] else d.kids x⟩ := by
  simp only [Dom.insertBefore]
  rw [Dom.detach_of_not_mem d n h]

/-- inserting a fresh node before a child, in split form -/
theorem Dom.insert_before_split (d : Dom) (c n r : NodeId) {K1 K2 : List NodeId}
    (h : ∀ c, n ∉ d.kids c) (hk : d.kids c = K1 ++ r :: K2) (hr : r ∉ K1) :
    d.insertBefore c n (some r) =
      some ⟨fun x => if x = c then K1 ++ n :: r :: K2 else d.kids x⟩ := by
  have hmem : r ∈ d.kids c := by rw [hk]; simp
  have hne : r ≠ n := by rintro rfl; exact h c hmem
  simp only [Dom.insertBefore, if_pos hmem, if_neg hne]
  rw [Dom.detach_of_not_mem d n h]
  congr 2
  funext x
  split
  · next hx => subst hx; rw [hk, insertBeforeIn_split n hr]
  · rfl

/-- splitting a nodup list along a sublist -/
theorem sublist_split {α : Type} {A B K : List α} {x : α} (h : List.Sublist (A ++ x :: B) K)
    (hn : K.Nodup) :
    ∃ K1 K2, K = K1 ++ x :: K2 ∧ x ∉ K1 ∧ List.Sublist A K1 ∧ List.Sublist B K2 := by
  obtain ⟨K1, K2', rfl, hA, hB⟩ := List.append_sublist_iff.1 h
  obtain ⟨M1, M2, rfl, hx, hB'⟩ := List.cons_sublist_iff.1 hB
  obtain ⟨N1, N2, rfl⟩ := List.append_of_mem hx
  refine ⟨K1 ++ N1, N2 ++ M2, by simp, ?_, ?_, ?_⟩
  · intro hm
    rw [List.nodup_append, List.nodup_append] at hn
    rcases List.mem_append.1 hm with hm | hm
    · exact hn.2.2 x hm x (by simp) rfl
    · have := hn.2.1
      rw [List.nodup_append] at this
      exact this.1.2.2 x hm x (by simp) rfl
  · exact List.Sublist.trans hA (List.sublist_append_left ..)
  · exact List.Sublist.trans hB' (List.sublist_append_right ..)

/-! ### contexts -/

theorem Ctx.containingNode_eq (ctx : Ctx) : ctx.containingNode = ctx.home := by
  induction ctx with
  | container g c => rfl
  | sibling parent g r ih => simpa [Ctx.containingNode, Ctx.home] using ih
  | child parent i ih => simpa [Ctx.containingNode, Ctx.home] using ih

theorem Ctx.addChild_eq (b : Build) (s : State) (ctx : Ctx) (p : Pos) (n : NodeId) :
    ctx.addChild b s p n =
      addHere b s ctx.group ctx.home ctx.marker (p ++ ctx.path.reverse) n := by
  induction ctx generalizing p with
  | container g c => simp [Ctx.addChild, Ctx.group, Ctx.home, Ctx.marker, Ctx.path]
  | sibling parent g r _ =>
    simp [Ctx.addChild, Ctx.group, Ctx.containingNode_eq, Ctx.home, Ctx.marker, Ctx.path]
  | child parent i ih =>
    simp only [Ctx.addChild, Ctx.group, Ctx.home, Ctx.marker, Ctx.path, ih, Pos.wrap]
    simp

theorem Ctx.removeChild_eq (b : Build) (s : State) (ctx : Ctx) (p : Pos) :
    ctx.removeChild b s p =
      removeHere b s ctx.group ctx.home (p ++ ctx.path.reverse) := by
  induction ctx generalizing p with
  | container g c => simp [Ctx.removeChild, Ctx.group, Ctx.home, Ctx.path]
  | sibling parent g r _ =>
    simp [Ctx.removeChild, Ctx.group, Ctx.containingNode_eq, Ctx.home, Ctx.path]
  | child parent i ih =>
    simp only [Ctx.removeChild, Ctx.group, Ctx.home, Ctx.path, ih, Pos.wrap]
    simp

/-! ### removal -/

theorem removeAll_eq (d : Dom) (c : NodeId) (ns : List NodeId) (hn : ns.Nodup)
    (hm : ∀ n ∈ ns, n ∈ d.kids c) :
    removeAll d c ns =
      some ⟨fun x => if x = c then (d.kids x).filter (fun y => !ns.contains y) else d.kids x⟩ := by
  induction ns generalizing d with
  | nil =>
    simp only [removeAll]
    congr 1
    cases d
    simp only [List.contains_nil, Bool.not_false, Dom.mk.injEq]
    funext x
    split
    · exact (List.filter_eq_self.2 (by simp)).symm
    · rfl
  | cons n ns ih =>
    have hn' := List.nodup_cons.1 hn
    simp only [removeAll, Dom.removeChild, if_pos (hm n (by simp)), Option.bind_eq_bind,
      Option.bind_some]
    rw [ih]
    · congr 2
      funext x
      by_cases hx : x = c
      · simp only [hx, if_true, List.filter_filter]
        apply List.filter_congr
        intro y _
        simp only [List.contains_cons, Bool.not_or]
        rw [Bool.and_comm]
        rfl
      · simp [hx]
    · exact hn'.2
    · intro m hmem
      simp only [if_true, List.mem_filter]
      refine ⟨hm m (by simp [hmem]), ?_⟩
      simp
      rintro rfl
      exact hn'.1 hmem

def inRange (p next : Pos) (e : Pos × NodeId) : Bool :=
  Pos.cmp p e.1 != .gt && Pos.cmp e.1 next == .lt

theorem removeLoop_eq (c : NodeId) (p next : Pos) (fuel : Nat) (m : Group) (d : Dom)
    (hf : (m.filter (inRange p next)).length < fuel)
    (hs : m.Sorted) (hn : (m.map (·.2)).Nodup)
    (hm : ∀ e ∈ m, inRange p next e = true → e.2 ∈ d.kids c) :
    removeLoop c p next fuel m d =
      some (m.filter (fun e => !inRange p next e),
        ⟨fun x => if x = c then
          (d.kids x).filter (fun y => !((m.filter (inRange p next)).map (·.2)).contains y)
          else d.kids x⟩) := by
  induction fuel generalizing m d with
  | zero => omega
  | succ fuel ih =>
    simp only [removeLoop, Group.lastIn]
    change (match (m.filter (inRange p next)).getLast? with
      | none => some (m, d)
      | some (key, child) => _) = _
    rcases List.eq_nil_or_concat (m.filter (inRange p next)) with h | ⟨R, e, h⟩
    · simp only [h, List.getLast?_nil, List.map_nil]
      congr 1
      have : m.filter (fun e => !inRange p next e) = m := by
        rw [List.filter_eq_self]
        intro a ha
        have := List.filter_eq_nil_iff.1 h a ha
        simpa using this
      rw [this]
      cases d
      simp only [List.contains_nil, Bool.not_false, Dom.mk.injEq, Prod.mk.injEq, true_and]
      funext x
      split
      · exact (List.filter_eq_self.2 (by simp)).symm
      · rfl
    · obtain ⟨k, ch⟩ := e
      simp only [List.concat_eq_append] at h
      rw [h]
      simp only [List.getLast?_append, List.getLast?_singleton, Option.some_or]
      have hmem : (k, ch) ∈ m.filter (inRange p next) := by rw [h]; simp
      have hmem' := List.mem_filter.1 hmem
      simp only [Dom.removeChild, if_pos (hm _ hmem'.1 hmem'.2), Option.bind_eq_bind,
        Option.bind_some]
      -- keys are unique
      have huniq : ∀ e ∈ m, e.1 = k → e = (k, ch) := by
        intro e he hk
        have hs2 : m.Pairwise (fun x y => x.1 = y.1 → x = y) := by
          apply hs.imp
          intro x y hxy heq
          rw [heq, cmp_self] at hxy
          simp at hxy
        rcases List.append_of_mem he with ⟨l1, l2, rfl⟩
        rcases List.mem_append.1 hmem'.1 with hx | hx
        · have := (List.pairwise_append.1 hs).2.2 _ hx e (by simp)
          simp only [hk, cmp_self] at this
          simp at this
        · rcases List.mem_cons.1 hx with hx | hx
          · exact hx.symm
          · have := (List.pairwise_cons.1 (List.pairwise_append.1 hs).2.1).1 _ hx
            simp only [hk, cmp_self] at this
            simp at this
      have hRk : ∀ e ∈ R, e.1 ≠ k := by
        intro e he hk
        have hsub : (R ++ [(k, ch)]).Sublist m := by rw [← h]; exact List.filter_sublist
        have := List.Pairwise.sublist hsub hs
        have := (List.pairwise_append.1 this).2.2 e he (k, ch) (by simp)
        simp only [hk, cmp_self] at this
        simp at this
      have hfil : (m.filter (fun e => e.1 != k)).filter (inRange p next) = R := by
        rw [List.filter_filter]
        have : (fun a : Pos × NodeId => inRange p next a && a.1 != k) =
            fun a => (a.1 != k) && inRange p next a := by
          funext a; exact Bool.and_comm ..
        rw [this, ← List.filter_filter, h, List.filter_append]
        simp only [bne_self_eq_false, Bool.false_eq_true, not_false_eq_true,
          List.filter_cons_of_neg, List.filter_nil, List.append_nil]
        rw [List.filter_eq_self]
        intro a ha
        simpa using hRk a ha
      have hch : ∀ e ∈ m, e.1 ≠ k → e.2 ≠ ch := by
        intro e he hne heq
        rcases List.append_of_mem he with ⟨l1, l2, rfl⟩
        simp only [List.map_append, List.map_cons, List.nodup_append, List.nodup_cons] at hn
        rcases List.mem_append.1 hmem'.1 with hx | hx
        · exact hn.2.2 ch (List.mem_map.2 ⟨_, hx, rfl⟩) e.2 (by simp) heq.symm
        · rcases List.mem_cons.1 hx with hx | hx
          · rw [← hx] at hne; exact hne rfl
          · exact hn.2.1.1 (by rw [heq]; exact List.mem_map.2 ⟨_, hx, rfl⟩)
      rw [ih]
      · congr 1
        rw [hfil, List.filter_filter]
        apply Prod.ext
        · apply List.filter_congr
          intro a ha
          by_cases hak : a.1 = k
          · rw [huniq a ha hak]; simp [hmem'.2]
          · simp [hak]
        · simp only [Dom.mk.injEq]
          funext x
          by_cases hx : x = c
          · simp only [hx, if_true, List.filter_filter]
            apply List.filter_congr
            intro y _
            rw [Bool.eq_iff_iff]
            simp only [List.map_append, List.map_cons, List.map_nil, Bool.and_eq_true,
              Bool.not_eq_true', List.contains_eq_mem, decide_eq_false_iff_not, bne_iff_ne,
              List.mem_append, List.mem_singleton, not_or, ne_eq]
          · simp [hx]
      · rw [hfil]
        rw [h] at hf
        simp at hf
        omega
      · exact List.Pairwise.filter _ hs
      · exact List.Pairwise.sublist (List.filter_sublist.map _) hn
      · intro e he hr
        have he' := List.mem_filter.1 he
        simp only [if_true, List.mem_filter]
        refine ⟨hm e he'.1 hr, ?_⟩
        have := hch e he'.1 (by simpa using he'.2)
        simpa using this

/-- Removing below `p` in a sorted group whose nodes are all children of the container. -/
theorem removeChildrenHere_eq (b : Build) (m : Group) (path : List Nat) (c : NodeId) (d : Dom)
    (hs : m.Sorted) (hn : (m.map (·.2)).Nodup) (hm : ∀ e ∈ m, e.2 ∈ d.kids c)
    (hi : ∀ i ∈ path, i + 1 < 2 ^ 32) :
    removeChildrenHere b m path.reverse c d =
      some (m.filter (fun e => !path.isPrefixOf e.1.reverse),
        ⟨fun x => if x = c then
          (d.kids x).filter (fun y =>
            !((m.filter (fun e => path.isPrefixOf e.1.reverse)).map (·.2)).contains y)
          else d.kids x⟩) := by
  rcases List.eq_nil_or_concat path with rfl | ⟨init, x, rfl⟩
  · simp only [removeChildrenHere, Pos.isRoot, List.reverse_nil, List.isEmpty_nil, if_true]
    rw [removeAll_eq d c _ hn (by
      intro n hn'
      obtain ⟨e, he, rfl⟩ := List.mem_map.1 hn'
      exact hm e he)]
    have : m.filter (fun e => List.isPrefixOf [] e.1.reverse) = m :=
      List.filter_eq_self.2 (by simp)
    rw [this]
    simp
  · simp only [List.concat_eq_append] at *
    have hx : x + 1 < 2 ^ 32 := hi x (by simp)
    simp only [removeChildrenHere, List.reverse_append, List.reverse_cons, List.reverse_nil,
      List.nil_append, List.singleton_append, Pos.isRoot, List.isEmpty_cons, Bool.false_eq_true,
      if_false, nextSibling_reverse hx, Option.bind_eq_bind, Option.bind_some]
    have hng : ¬ Pos.cmp (x :: init.reverse) ((x + 1) :: init.reverse) = .gt := by
      rw [cmp_eq_lex]
      simp only [List.reverse_cons]
      rw [lexCmp_common]
      have : compare x (x + 1) = .lt := Nat.compare_eq_lt.2 (by omega)
      simp [lexCmp, this]
    rw [if_neg hng]
    have hr : ∀ e : Pos × NodeId, inRange (x :: init.reverse) ((x + 1) :: init.reverse) e =
        (init ++ [x]).isPrefixOf e.1.reverse := by
      intro e
      rw [Bool.eq_iff_iff]
      simp only [inRange, Bool.and_eq_true, bne_iff_ne, beq_iff_eq, List.isPrefixOf_iff_prefix]
      rw [cmp_eq_lex, cmp_eq_lex]
      simp only [List.reverse_cons, List.reverse_reverse]
      rw [lex_interval]
      constructor
      · rintro ⟨s, h⟩; exact ⟨s, by rw [h]; simp⟩
      · rintro ⟨s, h⟩; exact ⟨s, by rw [← h]; simp⟩
    rw [removeLoop_eq]
    · rw [funext hr]
    · exact Nat.lt_succ_of_le (List.length_filter_le ..)
    · exact hs
    · exact hn
    · intro e he _; exact hm e he

end Verif.Dom
