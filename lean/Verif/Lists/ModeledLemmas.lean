import Verif.Lists.ModeledSpec
/-! # Lemmas about ListModel -/
namespace Verif.Lists
open Verif.Dom

/-- What is asked of a change for the two assertions to hold and the calls not to panic. -/
def ChangeOk (ks : List Key) : Change → Prop
  | .insert k b => k ∉ ks ∧ ∀ x, b = some x → x ∈ ks
  | .remove k => k ∈ ks
  | .swap a b => a ∈ ks ∧ b ∈ ks
  | .move k b => k ∈ ks ∧ ∀ x, b = some x → x ∈ ks ∧ x ≠ k

/-- A swap of neighbours. -/
def BadSwap (ks : List Key) : Change → Prop
  | .swap a b => [a, b] <:+: ks
  | _ => False

/-- What an edit does to the log. -/
inductive Logs (m : Model) (e : Edit) (m' : Model) : Prop
  | cleared (h1 : m'.changes = []) (h2 : m'.version = m.version + 1) (h3 : ∃ v, e = .modifyVec v)
  | nothing (h1 : m' = m) (h2 : e = .pop) (h3 : m.vec = [])
  | logged (c : Change) (n : Nat)
      (h1 : m'.changes = if (m.changes ++ [c]).length > n / 2 then (m.changes ++ [c]).tail else m.changes ++ [c])
      (h2 : m'.version = m.version + 1) (h3 : n = m.vec.length ∨ n = m'.vec.length)
      (h4 : ChangeOk m.vec c) (h5 : applyChange m.vec c = m'.vec)
      (h6 : BadSwap m.vec c → ∃ a, e = .swap a (a + 1))
      (h7 : ∀ k, c = .remove k → k ∈ removed m.vec e)
      (h8 : ∀ v, e ≠ .modifyVec v)

theorem split_at {v : List Key} {i : Nat} (h : i < v.length) : ∃ A x B, v = A ++ x :: B ∧ A.length = i := by
  refine ⟨v.take i, v[i], v.drop (i + 1), ?_, by simp; omega⟩
  rw [← List.drop_eq_getElem_cons h, List.take_append_drop]

theorem split_at' {v : List Key} {i : Nat} (h : i ≤ v.length) : ∃ A B, v = A ++ B ∧ A.length = i :=
  ⟨v.take i, v.drop i, by rw [List.take_append_drop], by simp; omega⟩

theorem kPlace_head {k : Key} {A B : List Key} (hn : (A ++ B).Nodup) : kPlace k B.head? (A ++ B) = A ++ k :: B := by
  cases B with
  | nil => simp [kPlace]
  | cons b B =>
    simp only [List.head?_cons, kPlace]
    exact kBefore_split (fun h => (List.nodup_append.1 hn).2.2 _ h _ (by simp) rfl)

theorem filter_mid {x : Key} {P Q : List Key} (hn : (P ++ x :: Q).Nodup) :
    (P ++ x :: Q).filter (· != x) = P ++ Q := by
  obtain ⟨-, h2, h3⟩ := List.nodup_append.1 hn
  rw [List.filter_append, List.filter_cons, if_neg (by simp),
    filter_ne_of_notMem (fun h => h3 x h x (by simp) rfl), filter_ne_of_notMem (List.nodup_cons.1 h2).1]

theorem getElem?_head {A B : List Key} : (A ++ B)[A.length]? = B.head? := by
  rw [List.getElem?_append_right (Nat.le_refl _), Nat.sub_self, List.head?_eq_getElem?]

theorem nodup_mid {x : Key} {A B : List Key} : (A ++ x :: B).Nodup ↔ x ∉ A ++ B ∧ (A ++ B).Nodup := by
  rw [List.perm_middle.nodup_iff, List.nodup_cons]

theorem insertIdx_split {k : Key} {A B : List Key} : (A ++ B).insertIdx A.length k = A ++ k :: B := by
  induction A with
  | nil => simp
  | cons a A ih => simp [List.insertIdx_succ_cons, ih]

theorem eraseIdx_split {k : Key} {A B : List Key} : (A ++ k :: B).eraseIdx A.length = A ++ B := by
  induction A with
  | nil => simp
  | cons a A ih => simp [ih]

theorem edit_insert {m : Model} (hn : m.vec.Nodup) {i : Nat} {k : Key} (hok : EditOk m.vec (.insert i k)) :
    ∃ m', m.edit (.insert i k) = some m' ∧ m'.vec = vecEdit m.vec (.insert i k) ∧ m'.vec.Nodup ∧
      Logs m (.insert i k) m' := by
  obtain ⟨hi, hk⟩ := hok
  obtain ⟨A, B, hv, hA⟩ := split_at' hi
  subst hA
  refine ⟨{ m.addChange (.insert k m.vec[A.length]?) with vec := m.vec.take A.length ++ k :: m.vec.drop A.length },
    if_pos hi, ?_, ?_, ?_⟩
  · simp only [vecEdit, hv, insertIdx_split, List.take_left', List.drop_left']
  · simp only [hv, List.take_left', List.drop_left', nodup_mid]
    exact ⟨hv ▸ hk, hv ▸ hn⟩
  · refine .logged _ m.vec.length rfl rfl (Or.inl rfl) ⟨hk, ?_⟩ ?_ (fun h => h.elim) (fun _ h => by cases h)
      (fun _ h => by cases h)
    · intro x hx
      exact List.mem_of_getElem? hx
    · simp only [applyChange, hv, List.take_left', List.drop_left', getElem?_head]
      exact kPlace_head (hv ▸ hn)

theorem edit_remove {m : Model} (hn : m.vec.Nodup) {i : Nat} (hok : EditOk m.vec (.remove i)) :
    ∃ m', m.edit (.remove i) = some m' ∧ m'.vec = vecEdit m.vec (.remove i) ∧ m'.vec.Nodup ∧
      Logs m (.remove i) m' := by
  obtain ⟨A, x, B, hv, hA⟩ := split_at hok
  subst hA
  have hx : m.vec[A.length]? = some x := by rw [hv, getElem?_head]; rfl
  refine ⟨{ m with vec := m.vec.eraseIdx A.length }.addChange (.remove x), by simp only [Model.edit, Model.remove, hx],
    rfl, hn.sublist (List.eraseIdx_sublist _ _), ?_⟩
  refine .logged _ _ rfl rfl (Or.inr rfl) (List.mem_of_getElem? hx) ?_ (fun h => h.elim) (fun k h => ?_)
      (fun _ h => by cases h)
  · simp only [applyChange, hv, eraseIdx_split]
    exact filter_mid (hv ▸ hn)
  · cases h
    simp only [removed, hx, Option.toList_some, List.mem_singleton]

theorem edit_pop {m : Model} (hn : m.vec.Nodup) :
    ∃ m', m.edit .pop = some m' ∧ m'.vec = vecEdit m.vec .pop ∧ m'.vec.Nodup ∧ Logs m .pop m' := by
  cases hl : m.vec.getLast? with
  | none =>
    have hv : m.vec = [] := List.getLast?_eq_none_iff.1 hl
    refine ⟨m, by simp only [Model.edit, Model.pop, hl], by simp [vecEdit, hv], hn, .nothing rfl rfl hv⟩
  | some x =>
    obtain ⟨A, hv⟩ := List.getLast?_eq_some_iff.1 hl
    refine ⟨{ m with vec := m.vec.dropLast }.addChange (.remove x), by simp only [Model.edit, Model.pop, hl], rfl, hn.sublist (List.dropLast_sublist _), ?_⟩
    refine .logged _ _ rfl rfl (Or.inr rfl) (List.mem_of_getLast? hl) ?_ (fun h => h.elim) (fun k h => ?_)
      (fun _ h => by cases h)
    · simp only [applyChange, hv, List.dropLast_concat]
      rw [filter_mid (hv ▸ hn), List.append_nil]
      rfl
    · cases h
      simp only [removed, hl, Option.toList_some, List.mem_singleton]

theorem edit_push {m : Model} (hn : m.vec.Nodup) {k : Key} (hok : EditOk m.vec (.push k)) :
    ∃ m', m.edit (.push k) = some m' ∧ m'.vec = vecEdit m.vec (.push k) ∧ m'.vec.Nodup ∧
      Logs m (.push k) m' := by
  refine ⟨_, rfl, rfl, ?_, ?_⟩
  · have : k ∉ m.vec := hok
    simp only [Model.push, Model.addChange, nodup_mid, List.append_nil]
    exact ⟨this, hn⟩
  · refine .logged _ m.vec.length rfl rfl (Or.inl rfl) ⟨hok, by intro x hx; cases hx⟩ rfl (fun h => h.elim)
      (fun _ h => by cases h) (fun _ h => by cases h)

theorem infix_pair {a b : Key} {v : List Key} (hn : v.Nodup) (h : [a, b] <:+: v) {i j : Nat}
    (hi : v[i]? = some a) (hj : v[j]? = some b) : j = i + 1 := by
  obtain ⟨P, Q, rfl⟩ := h
  have h1 : (P ++ [a, b] ++ Q)[P.length]? = some a := by simp
  have h2 : (P ++ [a, b] ++ Q)[P.length + 1]? = some b := by simp
  have e1 := (List.getElem?_inj (List.getElem?_eq_some_iff.1 hi).1 hn).1 (hi.trans h1.symm)
  have e2 := (List.getElem?_inj (List.getElem?_eq_some_iff.1 hj).1 hn).1 (hj.trans h2.symm)
  omega

theorem swap_map {v : List Key} (hn : v.Nodup) {a b : Nat} {x y : Key} (ha : v[a]? = some x) (hb : v[b]? = some y) :
    v.map (fun z => if z = x then y else if z = y then x else z) = (v.set a y).set b x := by
  have hinj : ∀ (i j : Nat) (z : Key), v[i]? = some z → v[j]? = some z → i = j := fun i j z h1 h2 =>
    (List.getElem?_inj (List.getElem?_eq_some_iff.1 h1).1 hn).1 (h1.trans h2.symm)
  apply List.ext_getElem?
  intro i
  rw [List.getElem?_map, List.getElem?_set, List.getElem?_set, List.length_set]
  have hal := (List.getElem?_eq_some_iff.1 ha).1
  have hbl := (List.getElem?_eq_some_iff.1 hb).1
  by_cases h1 : b = i
  · subst h1
    rw [if_pos rfl, if_pos hbl, hb]
    simp only [Option.map_some]
    by_cases h : y = x
    · rw [if_pos h, h]
    · rw [if_neg h]; simp
  · rw [if_neg h1]
    by_cases h2 : a = i
    · subst h2
      rw [if_pos rfl, if_pos hal, ha]
      simp
    · rw [if_neg h2]
      cases hz : v[i]? with
      | none => rfl
      | some z =>
        simp only [Option.map_some]
        rw [if_neg, if_neg]
        · rintro rfl; exact h1 (hinj _ _ _ hb hz)
        · rintro rfl; exact h2 (hinj _ _ _ ha hz)

theorem swap_nodup {v : List Key} (hn : v.Nodup) {x y : Key} :
    (v.map (fun z => if z = x then y else if z = y then x else z)).Nodup := by
  rw [List.Nodup, List.pairwise_map]
  refine List.Pairwise.imp ?_ hn
  intro a b hab
  grind

theorem edit_swap {m : Model} (hn : m.vec.Nodup) {a b : Nat} (hok : EditOk m.vec (.swap a b)) :
    ∃ m', m.edit (.swap a b) = some m' ∧ m'.vec = vecEdit m.vec (.swap a b) ∧ m'.vec.Nodup ∧
      Logs m (.swap a b) m' := by
  obtain ⟨h1, h2⟩ : a < m.vec.length ∧ b < m.vec.length := hok
  obtain ⟨x, ha⟩ : ∃ x, m.vec[a]? = some x := ⟨_, List.getElem?_eq_getElem h1⟩
  obtain ⟨y, hb⟩ : ∃ y, m.vec[b]? = some y := ⟨_, List.getElem?_eq_getElem h2⟩
  refine ⟨{ m.addChange (.swap x y) with vec := (m.vec.set a y).set b x },
    by simp only [Model.edit, Model.swap, ha, hb]; rfl, ?_, ?_, ?_⟩
  · simp only [vecEdit, ha, hb]
  · simp only [← swap_map hn ha hb]
    exact swap_nodup hn
  · refine .logged _ m.vec.length rfl rfl (Or.inl rfl) ⟨List.mem_of_getElem? ha, List.mem_of_getElem? hb⟩
      (swap_map hn ha hb) (fun h => ⟨a, ?_⟩) (fun _ h => by cases h) (fun _ h => by cases h)
    rw [infix_pair hn h ha hb]

/-- moving one key from one place to another -/
theorem move_shape {m : Model} {i j : Nat} (hi : i < m.vec.length) (hj : j < m.vec.length) :
    ∃ P x Q U W, m.vec = P ++ x :: Q ∧ P ++ Q = U ++ W ∧ vecEdit m.vec (.moveItem i j) = U ++ x :: W ∧
      m.edit (.moveItem i j) = some ({ m with vec := U ++ x :: W }.addChange (.move x W.head?)) := by
  -- the key, what is around it before and after
  obtain ⟨P, x, Q, hv, hP⟩ := split_at hi
  subst hP
  have hPQ : j ≤ (P ++ Q).length := by rw [hv] at hj; simp at hj ⊢; omega
  obtain ⟨U, W, hUW, hU⟩ := split_at' hPQ
  subst hU
  have hspec : vecEdit m.vec (.moveItem P.length U.length) = U ++ x :: W := by
    simp only [vecEdit, hv, getElem?_head, List.head?_cons, eraseIdx_split]
    rw [hUW, insertIdx_split]
  have hvec : m.vec.take (min P.length U.length) ++ (if P.length < U.length
        then rotateLeft ((m.vec.drop (min P.length U.length)).take (max P.length U.length + 1 - min P.length U.length))
        else if P.length > U.length
        then rotateRight ((m.vec.drop (min P.length U.length)).take (max P.length U.length + 1 - min P.length U.length))
        else ((m.vec.drop (min P.length U.length)).take (max P.length U.length + 1 - min P.length U.length))) ++
        m.vec.drop (max P.length U.length + 1) = U ++ x :: W := by
    rw [hv]
    rcases Nat.lt_trichotomy P.length U.length with h | h | h
    · -- to the right
      rw [if_pos h, Nat.min_eq_left (by omega), Nat.max_eq_right (by omega)]
      obtain ⟨B, hB1, hB2⟩ : ∃ B, U = P ++ B ∧ Q = B ++ W := by
        rcases List.append_eq_append_iff.1 hUW with ⟨B, h1, h2⟩ | ⟨B, h1, h2⟩
        · exact ⟨B, h1, h2⟩
        · rw [h1] at h; simp at h; omega
      subst hB1 hB2
      have e1 : (P ++ B).length + 1 - P.length = (x :: B).length := by simp; omega
      have e2 : (P ++ B).length + 1 = (P ++ x :: B).length := by simp; omega
      have e3 : P ++ x :: (B ++ W) = (P ++ x :: B) ++ W := by simp
      rw [e1, e2]
      rw [List.take_left', List.drop_left', show x :: (B ++ W) = (x :: B) ++ W from rfl, List.take_left']
      rw [show P ++ (x :: B ++ W) = (P ++ x :: B) ++ W by simp, List.drop_left']
      simp [rotateLeft]
      all_goals rfl
    · rw [if_neg (by omega), if_neg (by omega), h, Nat.min_self, Nat.max_self]
      have : U = P ∧ W = Q := by
        have := List.append_inj hUW h
        exact ⟨this.1.symm, this.2.symm⟩
      obtain ⟨rfl, rfl⟩ := this
      rw [show U.length + 1 - U.length = 1 by omega, List.take_left' rfl, List.drop_left' rfl]
      have e2 : U.length + 1 = (U ++ [x]).length := by simp
      rw [e2, show U ++ x :: W = (U ++ [x]) ++ W by simp, List.drop_left' rfl]
      simp
    · rw [if_neg (by omega), if_pos h, Nat.min_eq_right (by omega), Nat.max_eq_left (by omega)]
      obtain ⟨B, hB1, hB2⟩ : ∃ B, P = U ++ B ∧ W = B ++ Q := by
        rcases List.append_eq_append_iff.1 hUW with ⟨B, h1, h2⟩ | ⟨B, h1, h2⟩
        · rw [h1] at h; simp at h; omega
        · exact ⟨B, h1, h2⟩
      subst hB1 hB2
      have e1 : (U ++ B).length + 1 - U.length = (B ++ [x]).length := by simp; omega
      have e2 : (U ++ B).length + 1 = (U ++ B ++ [x]).length := by simp; omega
      rw [e1, e2]
      rw [show U ++ B ++ x :: Q = U ++ (B ++ [x] ++ Q) by simp, List.take_left' rfl, List.drop_left' rfl,
        List.take_left' rfl, show U ++ (B ++ [x] ++ Q) = U ++ B ++ [x] ++ Q by simp, List.drop_left' rfl]
      simp [rotateRight]
  have hget : (U ++ x :: W)[U.length]? = some x := by rw [getElem?_head]; rfl
  have hget' : (U ++ x :: W)[U.length + 1]? = W.head? := by
    rw [show U ++ x :: W = (U ++ [x]) ++ W by simp, show U.length + 1 = (U ++ [x]).length by simp, getElem?_head]
  refine ⟨P, x, Q, U, W, hv, hUW, hspec, ?_⟩
  simp only [Model.edit, Model.moveItem]
  rw [if_pos (by omega), hvec, hget, hget']

theorem edit_move {m : Model} (hn : m.vec.Nodup) {i j : Nat} (hok : EditOk m.vec (.moveItem i j)) :
    ∃ m', m.edit (.moveItem i j) = some m' ∧ m'.vec = vecEdit m.vec (.moveItem i j) ∧ m'.vec.Nodup ∧
      Logs m (.moveItem i j) m' := by
  obtain ⟨hi, hj⟩ : i < m.vec.length ∧ j < m.vec.length := hok
  obtain ⟨P, x, Q, U, W, hv, hUW, hspec, hedit⟩ := move_shape hi hj
  have hnUW : (U ++ x :: W).Nodup := by
    rw [hv, nodup_mid] at hn
    rw [nodup_mid, ← hUW]
    exact hn
  refine ⟨{ m with vec := U ++ x :: W }.addChange (.move x W.head?), hedit, hspec.symm, hnUW, ?_⟩
  · have hnPQ : (P ++ Q).Nodup := by rw [hv, nodup_mid] at hn; exact hn.2
    have hxPQ : x ∉ P ++ Q := by rw [hv, nodup_mid] at hn; exact hn.1
    refine .logged _ _ rfl rfl (Or.inr rfl) ⟨by rw [hv]; simp, ?_⟩ ?_ (fun h => h.elim)
      (fun _ h => by cases h) (fun _ h => by cases h)
    · intro y hy
      have hyW : y ∈ P ++ Q := by rw [hUW]; exact List.mem_append_right _ (List.mem_of_head? hy)
      refine ⟨?_, fun e => hxPQ (e ▸ hyW)⟩
      rw [hv, List.perm_middle.mem_iff]
      exact List.mem_cons_of_mem _ hyW
    · simp only [applyChange, Model.addChange]
      rw [hv, filter_mid (hv ▸ hn), hUW, kPlace_head (hUW ▸ hnPQ)]

theorem edit_ok {m : Model} (hn : m.vec.Nodup) {e : Edit} (hok : EditOk m.vec e) :
    ∃ m', m.edit e = some m' ∧ m'.vec = vecEdit m.vec e ∧ m'.vec.Nodup ∧ Logs m e m' := by
  cases e with
  | insert i k => exact edit_insert hn hok
  | remove i => exact edit_remove hn hok
  | pop => exact edit_pop hn
  | push k => exact edit_push hn hok
  | swap a b => exact edit_swap hn hok
  | moveItem i j => exact edit_move hn hok
  | modifyVec v => exact ⟨_, rfl, rfl, hok, .cleared rfl rfl ⟨v, rfl⟩⟩

/-- Edits in range, also with equal keys. -/
theorem edit_vec {m : Model} {e : Edit} (h : inRange m.vec e) : ∃ m', m.edit e = some m' ∧ m'.vec = vecEdit m.vec e := by
  cases e with
  | insert i k =>
    have h : i ≤ m.vec.length := h
    obtain ⟨A, B, hv, hA⟩ := split_at' h
    subst hA
    exact ⟨{ m.addChange (.insert k m.vec[A.length]?) with vec := m.vec.take A.length ++ k :: m.vec.drop A.length },
      if_pos h, by simp only [vecEdit, hv, insertIdx_split, List.take_left', List.drop_left']⟩
  | remove i =>
    have h : i < m.vec.length := h
    exact ⟨{ m with vec := m.vec.eraseIdx i }.addChange (.remove m.vec[i]), by
      simp only [Model.edit, Model.remove, List.getElem?_eq_getElem h], rfl⟩
  | pop =>
    refine ⟨m.pop, rfl, ?_⟩
    cases hl : m.vec.getLast? with
    | none => simp [Model.pop, vecEdit, List.getLast?_eq_none_iff.1 hl]
    | some x => simp only [Model.pop, hl]; rfl
  | push k => exact ⟨_, rfl, rfl⟩
  | swap a b =>
    have h1 := List.getElem?_eq_getElem h.1
    have h2 := List.getElem?_eq_getElem h.2
    refine ⟨_, by simp only [Model.edit, Model.swap, h1, h2]; rfl, by simp only [vecEdit, h1, h2]; rfl⟩
  | moveItem i j =>
    obtain ⟨P, x, Q, U, W, hv, hUW, hspec, hedit⟩ := move_shape h.1 h.2
    exact ⟨_, hedit, hspec.symm⟩
  | modifyVec v => exact ⟨_, rfl, rfl⟩

theorem edit_none {m : Model} {e : Edit} (h : ¬ inRange m.vec e) : m.edit e = none := by
  cases e with
  | insert i k => exact if_neg h
  | remove i =>
    have h : ¬ i < m.vec.length := h
    simp only [Model.edit, Model.remove, List.getElem?_eq_none (Nat.le_of_not_lt h)]
  | pop => exact absurd trivial h
  | push k => exact absurd trivial h
  | swap a b =>
    simp only [inRange, Classical.not_and_iff_not_or_not, Nat.not_lt] at h
    simp only [Model.edit, Model.swap]
    rcases h with h | h
    · rw [List.getElem?_eq_none h]
    · rw [List.getElem?_eq_none h]
      cases m.vec[a]? <;> rfl
  | moveItem i j =>
    simp only [inRange] at h
    exact if_neg (by omega)
  | modifyVec v => exact absurd trivial h

end Verif.Lists
