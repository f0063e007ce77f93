import Verif.XBow.Data
/-!
# C30: paths are lenses

Reading is `getOpt`, writing is `setOpt`; `none` means that the data is not there.
-/
namespace Verif.XBow.Data

/-- Some `Rc` on the way of the path has other handles. -/
def sharedOnWay : List Layer → Data → Bool
  | [], _ => false
  | .rcContent :: p, .rc shared d => shared || sharedOnWay p d
  | l :: p, d =>
    match borrow1 l d with
    | some d1 => sharedOnWay p d1
    | none => false

/-- Neither path leads through the other. -/
def Disjoint (p q : List Layer) : Prop := ¬ p <+: q ∧ ¬ q <+: p

/-! ## lemmas about one layer -/

theorem lookup_replace (k : Nat) (v : Data) : ∀ es d, lookupKey k es = some d →
    lookupKey k (replaceKey k v es) = some v
  | (k', d') :: es, d, h => by
    simp only [lookupKey, replaceKey] at h ⊢
    split
    · rename_i e; simp [lookupKey, e]
    · rename_i e
      simp only [lookupKey, if_neg e]
      rw [if_neg e] at h
      exact lookup_replace k v es d h

theorem lookup_replace_ne {k k' : Nat} (hne : k ≠ k') (v : Data) : ∀ es,
    lookupKey k' (replaceKey k v es) = lookupKey k' es
  | [] => rfl
  | (j, d) :: es => by
    simp only [replaceKey]
    split
    · rename_i e; subst e; simp only [lookupKey, if_neg hne]
    · simp only [lookupKey]; rw [lookup_replace_ne hne v es]

theorem replace_self (k : Nat) : ∀ es d, lookupKey k es = some d → replaceKey k d es = es
  | [], d, h => rfl
  | (j, e) :: es, d, h => by
    simp only [lookupKey] at h
    simp only [replaceKey]
    split
    · rename_i hj; rw [if_pos hj] at h; cases h; rfl
    · rename_i hj; rw [if_neg hj] at h; rw [replace_self k es d h]

theorem replace_replace (k : Nat) (v w : Data) : ∀ es, replaceKey k w (replaceKey k v es) = replaceKey k w es
  | [] => rfl
  | (j, e) :: es => by
    simp only [replaceKey]
    split
    · rename_i hj; simp only [replaceKey, if_pos hj]
    · rename_i hj; simp only [replaceKey, if_neg hj]; rw [replace_replace k v w es]

theorem get_lt {xs : List Data} {i : Nat} {d : Data} (h : xs[i]? = some d) : i < xs.length :=
  (List.getElem?_eq_some_iff.1 h).1

/-- All about a successful mutable borrow of one layer. -/
theorem borrowMut1_some {l : Layer} {d x : Data} {put : Data → Data}
    (h : borrowMut1 l d = some (x, put)) :
    borrow1 l d = some x ∧ put x = d ∧ (∀ v, borrow1 l (put v) = some v) ∧
      (∀ v, ∃ put', borrowMut1 l (put v) = some (v, put') ∧ ∀ w, put' w = put w) ∧
      (∀ l', l' ≠ l → ∀ v, borrow1 l' (put v) = borrow1 l' d) := by
  cases l with
  | field i =>
    cases d <;> simp only [borrowMut1] at h <;> try (cases h; done)
    rename_i fs
    simp only [Option.map_eq_some_iff, Prod.mk.injEq] at h
    obtain ⟨y, hy, rfl, rfl⟩ := h
    have hlt := get_lt hy
    refine ⟨hy, ?_, ?_, ?_, ?_⟩
    · simp only [Data.struct.injEq]
      apply List.ext_getElem?
      intro j
      rw [List.getElem?_set]
      split
      · rename_i e; subst e; rw [hy]
      · rfl
    · intro v; simp [borrow1, hlt]
    · intro v
      refine ⟨fun w => .struct ((fs.set i v).set i w), by simp [borrowMut1, hlt], ?_⟩
      intro w; simp
    · intro l' hl' v
      cases l' <;> simp only [borrow1]
      rename_i j
      rw [List.getElem?_set_ne]; intro e; exact hl' (by rw [e])
  | variant tag i =>
    cases d <;> simp only [borrowMut1] at h <;> try (cases h; done)
    rename_i t fs
    split at h <;> try (cases h; done)
    rename_i ht
    simp only [Option.map_eq_some_iff, Prod.mk.injEq] at h
    obtain ⟨y, hy, rfl, rfl⟩ := h
    have hlt := get_lt hy
    refine ⟨by simp [borrow1, ht, hy], ?_, ?_, ?_, ?_⟩
    · simp only [Data.enum.injEq, true_and]
      apply List.ext_getElem?
      intro j
      rw [List.getElem?_set]
      split
      · rename_i e; subst e; rw [hy]
      · rfl
    · intro v; simp [borrow1, hlt, ht]
    · intro v
      refine ⟨fun w => .enum t ((fs.set i v).set i w), by simp [borrowMut1, hlt, ht], ?_⟩
      intro w; simp
    · intro l' hl' v
      cases l' <;> simp only [borrow1]
      rename_i tag' j
      split
      · rename_i ht'
        rw [List.getElem?_set_ne]; intro e; exact hl' (by rw [e, ← ht, ht'])
      · rfl
  | index i =>
    cases d <;> simp only [borrowMut1] at h <;> try (cases h; done)
    rename_i fs
    simp only [Option.map_eq_some_iff, Prod.mk.injEq] at h
    obtain ⟨y, hy, rfl, rfl⟩ := h
    have hlt := get_lt hy
    refine ⟨hy, ?_, ?_, ?_, ?_⟩
    · simp only [Data.vec.injEq]
      apply List.ext_getElem?
      intro j
      rw [List.getElem?_set]
      split
      · rename_i e; subst e; rw [hy]
      · rfl
    · intro v; simp [borrow1, hlt]
    · intro v
      refine ⟨fun w => .vec ((fs.set i v).set i w), by simp [borrowMut1, hlt], ?_⟩
      intro w; simp
    · intro l' hl' v
      cases l' <;> simp only [borrow1]
      rename_i j
      rw [List.getElem?_set_ne]; intro e; exact hl' (by rw [e])
  | key k =>
    cases d <;> simp only [borrowMut1] at h <;> try (cases h; done)
    rename_i es
    simp only [Option.map_eq_some_iff, Prod.mk.injEq] at h
    obtain ⟨y, hy, rfl, rfl⟩ := h
    refine ⟨hy, ?_, ?_, ?_, ?_⟩
    · simp only [replace_self k es y hy]
    · intro v; exact lookup_replace k v es y hy
    · intro v
      refine ⟨fun w => .map (replaceKey k w (replaceKey k v es)),
        by simp only [borrowMut1, lookup_replace k v es y hy, Option.map_some], ?_⟩
      intro w; simp only [replace_replace]
    · intro l' hl' v
      cases l' <;> simp only [borrow1]
      exact lookup_replace_ne (fun e => hl' (by rw [e])) v es
  | deref =>
    cases d <;> simp only [borrowMut1] at h <;> try (cases h; done)
    cases h
    refine ⟨rfl, rfl, fun _ => rfl, fun v => ⟨_, rfl, fun _ => rfl⟩, ?_⟩
    intro l' hl' v
    cases l' <;> simp only [borrow1] <;> exact (hl' rfl).elim
  | rcContent =>
    cases d <;> simp only [borrowMut1] at h <;> try (cases h; done)
    rename_i s y
    cases s
    · cases h
      refine ⟨rfl, rfl, fun _ => rfl, fun v => ⟨_, rfl, fun _ => rfl⟩, ?_⟩
      intro l' hl' v
      cases l' <;> simp only [borrow1] <;> exact (hl' rfl).elim
    · cases h

theorem borrowMut1_isSome (l : Layer) (d : Data) :
    (borrowMut1 l d).isSome = true ↔ (borrow1 l d).isSome = true ∧ sharedOnWay [l] d = false := by
  cases l <;> cases d <;> simp [borrowMut1, borrow1, sharedOnWay]
  all_goals (repeat' split) <;> simp_all

theorem sharedOnWay_cons {l : Layer} {p : List Layer} {d x : Data} (h : borrow1 l d = some x) :
    sharedOnWay (l :: p) d = (sharedOnWay [l] d || sharedOnWay p x) := by
  cases l <;> cases d <;> simp only [borrow1] at h <;> try (cases h; done)
  all_goals first
    | (cases h; simp [sharedOnWay, borrow1]; done)
    | (simp [sharedOnWay, borrow1, h])

theorem pathBorrowMut_some : ∀ (p : List Layer) {d x : Data} {put : Data → Data},
    pathBorrowMut p d = some (x, put) → pathBorrow p d = some x ∧ put x = d ∧
      ∀ v, ∃ put', pathBorrowMut p (put v) = some (v, put') ∧ ∀ w, put' w = put w
  | [], d, x, put, h => by
    cases h; exact ⟨rfl, rfl, fun v => ⟨id, rfl, fun _ => rfl⟩⟩
  | l :: p, d, x, put, h => by
    simp only [pathBorrowMut] at h
    cases h1 : borrowMut1 l d with
    | none => rw [h1] at h; cases h
    | some r1 =>
      obtain ⟨d1, put1⟩ := r1
      rw [h1] at h
      simp only at h
      cases h2 : pathBorrowMut p d1 with
      | none => rw [h2] at h; cases h
      | some r2 =>
        obtain ⟨x', put2⟩ := r2
        rw [h2] at h
        cases h
        obtain ⟨g1, g2, g3, g4, _⟩ := borrowMut1_some h1
        obtain ⟨k1, k2, k3⟩ := pathBorrowMut_some p h2
        refine ⟨by simp only [pathBorrow, g1]; exact k1, by simp only [k2, g2], ?_⟩
        intro v
        obtain ⟨put1', e1, q1⟩ := g4 (put2 v)
        obtain ⟨put2', e2, q2⟩ := k3 v
        refine ⟨fun w => put1' (put2' w), by simp only [pathBorrowMut, e1, e2], ?_⟩
        intro w
        simp only [q2, q1]

/-! ## the laws -/

/-- **Writing succeeds exactly when reading does**, unless an `Rc` on the way has other handles. -/
theorem set_iff_get (p : List Layer) (v d : Data) :
    (setOpt p v d).isSome = true ↔ (getOpt p d).isSome = true ∧ sharedOnWay p d = false := by
  have : (setOpt p v d).isSome = (pathBorrowMut p d).isSome := by
    simp only [setOpt]
    cases pathBorrowMut p d <;> rfl
  rw [this]
  simp only [getOpt]
  clear this
  induction p generalizing d with
  | nil => simp [pathBorrowMut, pathBorrow, sharedOnWay]
  | cons l p ih =>
    cases h1 : borrow1 l d with
    | none =>
      have h2 : borrowMut1 l d = none := by
        cases hb : borrowMut1 l d with
        | none => rfl
        | some r =>
          have := (borrowMut1_isSome l d).1 (by rw [hb]; rfl)
          rw [h1] at this; simp at this
      simp [pathBorrowMut, pathBorrow, h1, h2]
    | some x =>
      rw [sharedOnWay_cons h1]
      simp only [pathBorrow, h1, Option.bind]
      cases h2 : borrowMut1 l d with
      | none =>
        have hs : sharedOnWay [l] d = true := by
          cases hs : sharedOnWay [l] d with
          | true => rfl
          | false =>
            have := (borrowMut1_isSome l d).2 ⟨by rw [h1]; rfl, hs⟩
            rw [h2] at this; simp at this
        simp [pathBorrowMut, h2, hs]
      | some r =>
        obtain ⟨x', put⟩ := r
        have hs := ((borrowMut1_isSome l d).1 (by rw [h2]; rfl)).2
        have : x' = x := by
          have := (borrowMut1_some h2).1
          rw [h1] at this; cases this; rfl
        subst this
        rw [hs, Bool.false_or]
        refine Iff.trans ?_ (ih x')
        simp only [pathBorrowMut, h2]
        cases pathBorrowMut p x' <;> simp

/-- **Reading back gives the written value.** -/
theorem get_set {p : List Layer} {v d d' : Data} (h : setOpt p v d = some d') : getOpt p d' = some v := by
  simp only [setOpt] at h
  cases h1 : pathBorrowMut p d with
  | none => rw [h1] at h; cases h
  | some r =>
    obtain ⟨x, put⟩ := r
    rw [h1] at h; cases h
    obtain ⟨put', e, _⟩ := (pathBorrowMut_some p h1).2.2 v
    exact (pathBorrowMut_some p e).1

/-- Writing what is there changes nothing. -/
theorem set_get {p : List Layer} {v d d' : Data} (h : setOpt p v d = some d') (hv : getOpt p d = some v) :
    d' = d := by
  simp only [setOpt] at h
  cases h1 : pathBorrowMut p d with
  | none => rw [h1] at h; cases h
  | some r =>
    obtain ⟨x, put⟩ := r
    rw [h1] at h; cases h
    obtain ⟨g1, g2, _⟩ := pathBorrowMut_some p h1
    simp only [getOpt] at hv
    rw [hv] at g1; cases g1
    exact g2

/-- The second of two writes counts. -/
theorem set_set {p : List Layer} {v w d d' : Data} (h : setOpt p v d = some d') :
    setOpt p w d' = setOpt p w d := by
  simp only [setOpt] at h ⊢
  cases h1 : pathBorrowMut p d with
  | none => rw [h1] at h; cases h
  | some r =>
    obtain ⟨x, put⟩ := r
    rw [h1] at h; cases h
    obtain ⟨put', e, hq⟩ := (pathBorrowMut_some p h1).2.2 v
    simp only [e, hq]

/-- **Data at disjoint paths is unchanged.** -/
theorem get_set_disjoint {p q : List Layer} {v d d' : Data} (hd : Disjoint p q)
    (h : setOpt p v d = some d') : getOpt q d' = getOpt q d := by
  simp only [setOpt] at h
  cases h1 : pathBorrowMut p d with
  | none => rw [h1] at h; cases h
  | some r =>
    obtain ⟨x, put⟩ := r
    rw [h1] at h; cases h
    simp only [getOpt]
    induction p generalizing q d x put with
    | nil => exact (hd.1 List.nil_prefix).elim
    | cons l p ih =>
      cases q with
      | nil => exact (hd.2 List.nil_prefix).elim
      | cons m q =>
        simp only [pathBorrowMut] at h1
        cases g1 : borrowMut1 l d with
        | none => rw [g1] at h1; cases h1
        | some r1 =>
          obtain ⟨d1, put1⟩ := r1
          rw [g1] at h1
          simp only at h1
          cases g2 : pathBorrowMut p d1 with
          | none => rw [g2] at h1; cases h1
          | some r2 =>
            obtain ⟨x', put2⟩ := r2
            rw [g2] at h1
            cases h1
            obtain ⟨k1, k2, k3, _, k5⟩ := borrowMut1_some g1
            by_cases hm : m = l
            · subst hm
              simp only [pathBorrow]
              rw [k3, k1]
              refine ih ⟨fun hp => hd.1 ?_, fun hp => hd.2 ?_⟩ _ _ g2
              · exact (List.prefix_cons_inj m).2 hp
              · exact (List.prefix_cons_inj m).2 hp
            · simp only [pathBorrow]
              rw [k5 m hm]

theorem pathBorrow_append (p q : List Layer) (d : Data) :
    pathBorrow (p ++ q) d = (pathBorrow p d).bind (pathBorrow q) := by
  induction p generalizing d with
  | nil => rfl
  | cons l p ih =>
    simp only [List.cons_append, pathBorrow]
    cases borrow1 l d with
    | none => rfl
    | some x => exact ih x

/-- Below the written path one reads from the written value. -/
theorem get_set_below {p q : List Layer} {v d d' : Data} (h : setOpt p v d = some d') :
    getOpt (p ++ q) d' = getOpt q v := by
  simp only [getOpt, pathBorrow_append]
  rw [show pathBorrow p d' = some v from get_set h]; rfl

/-- An enclosing part is changed just there. -/
theorem get_set_enclosing {p q : List Layer} {v d d' : Data} (h : setOpt (q ++ p) v d = some d') :
    ∃ e e', getOpt q d = some e ∧ getOpt q d' = some e' ∧ setOpt p v e = some e' := by
  induction q generalizing d d' with
  | nil => exact ⟨d, d', rfl, rfl, h⟩
  | cons l q ih =>
    simp only [List.cons_append, setOpt, pathBorrowMut] at h
    cases g1 : borrowMut1 l d with
    | none => rw [g1] at h; cases h
    | some r1 =>
      obtain ⟨d1, put1⟩ := r1
      rw [g1] at h
      simp only at h
      cases g2 : pathBorrowMut (q ++ p) d1 with
      | none => rw [g2] at h; cases h
      | some r2 =>
        obtain ⟨x', put2⟩ := r2
        rw [g2] at h
        cases h
        obtain ⟨e, e', h1, h2, h3⟩ := ih (d := d1) (d' := put2 v) (by simp only [setOpt, g2])
        obtain ⟨k1, _, k3, _⟩ := borrowMut1_some g1
        exact ⟨e, e', by simpa only [getOpt, pathBorrow, k1, Option.bind_some] using h1,
          by simpa only [getOpt, pathBorrow, k3, Option.bind_some] using h2, h3⟩

/-! ## guaranteed paths -/

theorem replaceKey_mem {k : Nat} {v : Data} : ∀ {es e}, e ∈ replaceKey k v es → e ∈ es ∨ e.2 = v
  | (j, d) :: es, e, h => by
    simp only [replaceKey] at h
    split at h
    · rcases List.mem_cons.1 h with rfl | h
      · exact .inr rfl
      · exact .inl (List.mem_cons_of_mem _ h)
    · rcases List.mem_cons.1 h with rfl | h
      · exact .inl List.mem_cons_self
      · rcases replaceKey_mem h with h | h
        · exact .inl (List.mem_cons_of_mem _ h)
        · exact .inr h

theorem lookupKey_mem {k : Nat} : ∀ {es d}, lookupKey k es = some d → ∃ e ∈ es, e.2 = d
  | (j, x) :: es, d, h => by
    simp only [lookupKey] at h
    split at h
    · cases h; exact ⟨_, List.mem_cons_self, rfl⟩
    · obtain ⟨e, he, hd⟩ := lookupKey_mem h
      exact ⟨e, List.mem_cons_of_mem _ he, hd⟩

theorem borrow1_ty {l : Layer} {d x : Data} {t u : Ty} (ht : HasTy d t) (ho : out1 l t = some u)
    (h : borrow1 l d = some x) : HasTy x u := by
  cases ht <;> cases l <;> simp only [out1, borrow1] at ho h <;> try (cases h; done)
  · rename_i fs ts hl hf i; exact hf i x u h ho
  · rename_i tag fs vs ts hv hl hf tag' i
    split at h <;> try (cases h; done)
    rename_i e; subst e
    rw [hv] at ho
    exact hf i x u h ho
  · rename_i xs t hx i; cases ho; exact hx x (List.mem_of_getElem? h)
  · rename_i es t he k; cases ho
    obtain ⟨e, hm, rfl⟩ := lookupKey_mem h
    exact he e hm
  · cases ho; cases h; assumption
  · cases ho; cases h; assumption

theorem set_ty {fs : List Data} {ts : List Ty} {i : Nat} {v : Data} {u : Ty}
    (hf : ∀ (i : Nat) (d : Data) (t : Ty), fs[i]? = some d → ts[i]? = some t → HasTy d t)
    (hu : ts[i]? = some u) (hv : HasTy v u) :
    ∀ (j : Nat) (d : Data) (t : Ty), (fs.set i v)[j]? = some d → ts[j]? = some t → HasTy d t := by
  intro j d t hd ht
  rw [List.getElem?_set] at hd
  split at hd
  · rename_i e; subst e
    split at hd
    · cases hd; rw [hu] at ht; cases ht; exact hv
    · cases hd
  · exact hf j d t hd ht

theorem put1_ty {l : Layer} {d x : Data} {put : Data → Data} {t u : Ty} (ht : HasTy d t)
    (ho : out1 l t = some u) (h : borrowMut1 l d = some (x, put)) {v : Data} (hv : HasTy v u) :
    HasTy (put v) t := by
  cases ht <;> cases l <;> simp only [out1, borrowMut1] at ho h <;> try (cases h; done)
  · rename_i fs ts hl hf i
    simp only [Option.map_eq_some_iff, Prod.mk.injEq] at h
    obtain ⟨y, hy, rfl, rfl⟩ := h
    exact .struct (by simpa using hl) (set_ty hf ho hv)
  · rename_i tag fs vs ts hvs hl hf tag' i
    split at h <;> try (cases h; done)
    rename_i e; subst e
    simp only [Option.map_eq_some_iff, Prod.mk.injEq] at h
    obtain ⟨y, hy, rfl, rfl⟩ := h
    rw [hvs] at ho
    exact .enum hvs (by simpa using hl) (set_ty hf ho hv)
  · rename_i xs t hx i; cases ho
    simp only [Option.map_eq_some_iff, Prod.mk.injEq] at h
    obtain ⟨y, hy, rfl, rfl⟩ := h
    refine .vec ?_
    intro d hd
    rcases List.mem_or_eq_of_mem_set hd with hd | rfl
    · exact hx d hd
    · exact hv
  · rename_i es t he k; cases ho
    simp only [Option.map_eq_some_iff, Prod.mk.injEq] at h
    obtain ⟨y, hy, rfl, rfl⟩ := h
    refine .map ?_
    intro e hm
    rcases replaceKey_mem hm with hm | rfl
    · exact he e hm
    · exact hv
  · cases ho; cases h; exact .box hv
  · cases ho
    split at h
    · cases h
    · cases h; exact .rc hv

/-- What a path yields has the type of the path. -/
theorem get_typed {p : List Layer} {d x : Data} {t u : Ty} (ht : HasTy d t) (ho : outTy p t = some u)
    (h : getOpt p d = some x) : HasTy x u := by
  simp only [getOpt] at h
  induction p generalizing d t with
  | nil => cases ho; cases h; exact ht
  | cons l p ih =>
    simp only [outTy, Option.bind_eq_some_iff] at ho
    obtain ⟨t1, h1, h2⟩ := ho
    simp only [pathBorrow, Option.bind_eq_some_iff] at h
    obtain ⟨d1, h3, h4⟩ := h
    exact ih (borrow1_ty ht h1 h3) h2 h4

/-- Writing keeps the data of the store well typed. -/
theorem set_typed {p : List Layer} {v d d' : Data} {t u : Ty} (ht : HasTy d t) (ho : outTy p t = some u)
    (hv : HasTy v u) (h : setOpt p v d = some d') : HasTy d' t := by
  induction p generalizing d d' t with
  | nil => cases ho; cases h; exact hv
  | cons l p ih =>
    simp only [outTy, Option.bind_eq_some_iff] at ho
    obtain ⟨t1, h1, h2⟩ := ho
    simp only [setOpt, pathBorrowMut] at h
    cases g1 : borrowMut1 l d with
    | none => rw [g1] at h; cases h
    | some r1 =>
      obtain ⟨d1, put1⟩ := r1
      rw [g1] at h
      simp only at h
      cases g2 : pathBorrowMut p d1 with
      | none => rw [g2] at h; cases h
      | some r2 =>
        obtain ⟨x', put2⟩ := r2
        rw [g2] at h
        cases h
        have hd1 := borrow1_ty ht h1 (borrowMut1_some g1).1
        exact put1_ty ht h1 g1 (ih (d' := put2 v) hd1 h2 (by simp only [setOpt, g2]))

/-- **Guaranteed paths never fail**: on data of the right type reading and writing succeed. -/
theorem guaranteed_ok {p : List Layer} {d : Data} {t u : Ty} (hg : guaranteed p = true) (ht : HasTy d t)
    (ho : outTy p t = some u) (v : Data) :
    (getOpt p d).isSome = true ∧ (setOpt p v d).isSome = true := by
  rw [set_iff_get]
  have : (getOpt p d).isSome = true ∧ sharedOnWay p d = false := by
    simp only [getOpt]
    induction p generalizing d t with
    | nil => exact ⟨rfl, rfl⟩
    | cons l p ih =>
      simp only [outTy, Option.bind_eq_some_iff] at ho
      obtain ⟨t1, h1, h2⟩ := ho
      have hb : ∃ x, borrow1 l d = some x ∧ sharedOnWay [l] d = false ∧ guaranteed p = true := by
        cases l <;> simp only [guaranteed] at hg <;> try (cases hg; done)
        · rename_i i
          cases ht <;> simp only [out1] at h1 <;> try (cases h1; done)
          rename_i fs ts hl hf
          have hlt : i < ts.length := (List.getElem?_eq_some_iff.1 h1).1
          refine ⟨fs[i], by simp only [borrow1]; exact List.getElem?_eq_getElem (by omega), ?_, hg⟩
          simp only [sharedOnWay]
          split <;> rfl
        · cases ht <;> simp only [out1] at h1 <;> try (cases h1; done)
          exact ⟨_, rfl, by simp [sharedOnWay, borrow1], hg⟩
      obtain ⟨x, hx, hs, hg'⟩ := hb
      obtain ⟨k1, k2⟩ := ih hg' (borrow1_ty ht h1 hx) h2
      refine ⟨by simp only [pathBorrow, hx]; exact k1, ?_⟩
      rw [sharedOnWay_cons hx, hs, k2]; rfl
  exact ⟨this.1, this⟩

/-! ## examples -/

/-- A struct with a vector of options, a map and an `Rc`. -/
def sample (shared : Bool) : Data :=
  .struct [.vec [.enum 0 [.leaf 5], .enum 1 []], .map [(7, .leaf 1), (8, .leaf 2)], .rc shared (.box (.leaf 3))]

example : setOpt [.field 0, .index 0, .variant 0 0] (.leaf 6) (sample false) =
    some (.struct [.vec [.enum 0 [.leaf 6], .enum 1 []], .map [(7, .leaf 1), (8, .leaf 2)], .rc false (.box (.leaf 3))]) := rfl
example : getOpt [.field 0, .index 1, .variant 0 0] (sample false) = none ∧
    setOpt [.field 0, .index 1, .variant 0 0] (.leaf 6) (sample false) = none := ⟨rfl, rfl⟩
example : (setOpt [.field 2, .rcContent, .deref] (.leaf 6) (sample false)).isSome = true ∧
    setOpt [.field 2, .rcContent, .deref] (.leaf 6) (sample true) = none ∧
    getOpt [.field 2, .rcContent, .deref] (sample true) = some (.leaf 3) := ⟨rfl, rfl, rfl⟩
example : Disjoint [.field 1, .key 7] [.field 1, .key 8] := by
  constructor <;> (rw [List.cons_prefix_cons]; rintro ⟨_, h⟩; rw [List.cons_prefix_cons] at h; simp at h)
example : getOpt [.field 1, .key 8] (.struct [.leaf 0, .map [(7, .leaf 9), (8, .leaf 2)]]) = some (.leaf 2) := rfl

example : guaranteed [.field 1, .deref, .field 0] = true ∧
    outTy [.field 1, .deref, .field 0] (.struct [.leaf, .box (.struct [.leaf, .vec .leaf])]) = some .leaf ∧
    HasTy (.struct [.leaf 1, .box (.struct [.leaf 2, .vec []])]) (.struct [.leaf, .box (.struct [.leaf, .vec .leaf])]) := by
  refine ⟨rfl, rfl, .struct rfl ?_⟩
  intro i d t hd ht
  match i with
  | 0 => cases hd; cases ht; exact .leaf 1
  | 1 =>
    cases hd; cases ht
    refine .box (.struct rfl ?_)
    intro i d t hd ht
    match i with
    | 0 => cases hd; cases ht; exact .leaf 2
    | 1 => cases hd; cases ht; exact .vec (by simp)
    | i + 2 => cases hd
  | i + 2 => cases hd

end Verif.XBow.Data
