import Verif.Comb.Readiness
/-! Both readiness structures implement a list of distinct indices. -/
namespace Verif.Comb

/-- `I` implements a duplicate-free list of woken indices below `n`. -/
structure Impl.Correct (I : Impl) where
  Rel : Nat → I.σ → List Nat → Prop
  new : ∀ n, Rel n (I.new n) (List.range n)
  wake_mem : ∀ {n r l i}, Rel n r l → i ∈ l → ∃ r', I.wake r i = some (r', false) ∧ Rel n r' l
  wake_new : ∀ {n r l i}, Rel n r l → i < n → i ∉ l →
    ∃ r', I.wake r i = some (r', l.isEmpty) ∧ Rel n r' (l ++ [i])
  wake_oob : ∀ {n r l i}, Rel n r l → n ≤ i → I.wake r i = none
  list : ∀ {n r l}, Rel n r l → I.list r = l
  clear : ∀ {n r l}, Rel n r l → ∃ r', I.clear r = some r' ∧ Rel n r' []
  nodup : ∀ {n r l}, Rel n r l → l.Nodup
  bound : ∀ {n r l}, Rel n r l → ∀ i ∈ l, i < n

theorem clearEach_spec (set : List Bool) (is : List Nat) (h : ∀ i ∈ is, i < set.length) :
    ∃ set', clearEach set is = some set' ∧ set'.length = set.length ∧
      ∀ j, set'[j]? = if j ∈ is ∧ j < set.length then some false else set[j]? := by
  induction is generalizing set with
  | nil => exact ⟨set, rfl, rfl, by simp⟩
  | cons i is ih =>
    have hi := h i (by simp)
    obtain ⟨set', h1, h2, h3⟩ := ih (set.set i false) (by
      intro j hj; simpa using h j (by simp [hj]))
    refine ⟨set', by simp [clearEach, setAt, hi, h1], by simpa using h2, ?_⟩
    intro j
    rw [h3]
    simp only [List.length_set, List.mem_cons]
    by_cases hj : j = i
    · subst hj; simp [hi]
    · by_cases hm : j ∈ is
      · have := h j (by simp [hm])
        simp [hm, this]
      · simp only [hm, false_and, if_false, hj, or_self, List.getElem?_set]
        rw [if_neg (Ne.symm hj)]

structure SetRel (n : Nat) (set : List Bool) (l : List Nat) : Prop where
  len : set.length = n
  mem : ∀ i, i < n → (set[i]? = some true ↔ i ∈ l)
  nodup : l.Nodup
  bound : ∀ i ∈ l, i < n

theorem SetRel.length_le {n : Nat} {set : List Bool} {l : List Nat} (h : SetRel n set l) :
    l.length ≤ n := by
  have : l.length ≤ (List.range n).length := by
    apply h.nodup.length_le_of_subset
    intro i hi
    simpa using h.bound i hi
  simpa using this

theorem SetRel.length_lt {n : Nat} {set : List Bool} {l : List Nat} (h : SetRel n set l) {i : Nat}
    (hi : i < n) (hn : i ∉ l) : l.length < n := by
  have h' : SetRel n (set.set i true) (l ++ [i]) := by
    refine ⟨by simp [h.len], ?_, ?_, ?_⟩
    · intro j hj
      rw [List.getElem?_set]
      by_cases hij : i = j
      · subst hij; simp [h.len, hi]
      · have := h.mem j hj
        simp [hij, this, Ne.symm hij]
    · rw [List.nodup_append]
      refine ⟨h.nodup, by simp, ?_⟩
      intro a ha b hb hab
      simp at hb; subst hab; subst hb; exact hn ha
    · intro j hj
      rcases List.mem_append.1 hj with hj | hj
      · exact h.bound j hj
      · simp at hj; subst hj; exact hi
  have := h'.length_le
  simp at this; omega

theorem SetRel.set {n : Nat} {set : List Bool} {l : List Nat} (h : SetRel n set l) {i : Nat}
    (hi : i < n) (hn : i ∉ l) : SetRel n (set.set i true) (l ++ [i]) := by
  refine ⟨by simp [h.len], ?_, ?_, ?_⟩
  · intro j hj
    rw [List.getElem?_set]
    by_cases hij : i = j
    · subst hij; simp [h.len, hi]
    · have := h.mem j hj
      simp [hij, this, Ne.symm hij]
  · rw [List.nodup_append]
    refine ⟨h.nodup, by simp, ?_⟩
    intro a ha b hb hab
    simp at hb; subst hab; subst hb; exact hn ha
  · intro j hj
    rcases List.mem_append.1 hj with hj | hj
    · exact h.bound j hj
    · simp at hj; subst hj; exact hi

theorem SetRel.set_mem {n : Nat} {set : List Bool} {l : List Nat} (h : SetRel n set l) {i : Nat}
    (hi : i ∈ l) : set.set i true = set ∧ set[i]? = some true := by
  have hib := h.bound i hi
  have hm := (h.mem i hib).2 hi
  refine ⟨?_, hm⟩
  apply List.ext_getElem?
  intro j
  rw [List.getElem?_set]
  split
  · next hij => subst hij; rw [hm]; simp [h.len, hib]
  · rfl

theorem SetRel.get_not_mem {n : Nat} {set : List Bool} {l : List Nat} (h : SetRel n set l) {i : Nat}
    (hi : i < n) (hn : i ∉ l) : set[i]? = some false := by
  have := h.mem i hi
  have hlt : i < set.length := by rw [h.len]; exact hi
  rw [List.getElem?_eq_getElem hlt] at this ⊢
  cases hb : set[i] with
  | true => rw [hb] at this; exact absurd (this.1 rfl) hn
  | false => rfl

theorem SetRel.fill {n : Nat} {set : List Bool} {l : List Nat} (h : SetRel n set l) :
    SetRel n (List.replicate set.length false) [] := by
  refine ⟨by simp [h.len], ?_, List.nodup_nil, by simp⟩
  intro i hi
  simp [h.len, hi]

theorem SetRel.clearEach {n : Nat} {set : List Bool} {l is : List Nat} (h : SetRel n set l)
    (h1 : ∀ i ∈ l, i ∈ is) (h2 : ∀ i ∈ is, i < n) :
    ∃ set', Verif.Comb.clearEach set is = some set' ∧ SetRel n set' [] := by
  obtain ⟨set', e1, e2, e3⟩ := clearEach_spec set is (by rw [h.len]; exact h2)
  refine ⟨set', e1, by rw [e2, h.len], ?_, List.nodup_nil, by simp⟩
  intro i hi
  rw [e3]
  by_cases hm : i ∈ is
  · simp [hm, h.len, hi]
  · have : i ∉ l := fun hl => hm (h1 i hl)
    simp [hm, h.get_not_mem hi this]

def arrayCorrect : arrayImpl.Correct where
  Rel n r l := SetRel n r.awakeSet l ∧ r.awakeList.length = n ∧ r.awakeLen = l.length ∧
    r.awakeList.take r.awakeLen = l ∧ ∀ i ∈ r.awakeList, i < n
  new n := by
    refine ⟨⟨by simp [arrayImpl, RArray.new], ?_, List.nodup_range, by simp⟩, by simp [arrayImpl, RArray.new],
      by simp [arrayImpl, RArray.new], ?_, by simp [arrayImpl, RArray.new]⟩
    · intro i hi; simp [arrayImpl, RArray.new, hi]
    · simp only [arrayImpl, RArray.new]; rw [List.take_of_length_le]; simp
  wake_mem := by
    intro n r l i h hi
    obtain ⟨e1, e2⟩ := h.1.set_mem hi
    have hb : i < r.awakeSet.length := by rw [h.1.len]; exact h.1.bound i hi
    refine ⟨r, ?_, h⟩
    simp only [arrayImpl, RArray.wake, RArray.setWoken, e2, setAt, hb, e1, if_true,
      Option.bind_eq_bind, Option.bind_some, Option.pure_def, Bool.not_true, Bool.false_and]
    rfl
  wake_new := by
    rintro n r l i ⟨h1, h2, h3, h4, h5⟩ hi hn
    have hlt := h1.length_lt hi hn
    have hb : i < r.awakeSet.length := by rw [h1.len]; exact hi
    have hb2 : r.awakeLen < r.awakeList.length := by omega
    refine ⟨⟨r.awakeSet.set i true, r.awakeList.set r.awakeLen i, r.awakeLen + 1⟩, ?_,
      h1.set hi hn, by simpa using h2, by simp [h3], ?_, ?_⟩
    · simp only [arrayImpl, RArray.wake, RArray.setWoken, h1.get_not_mem hi hn, setAt, hb, hb2,
        if_true, Option.bind_eq_bind, Option.bind_some, Bool.false_eq_true, if_false,
        Option.pure_def, Bool.not_false, Bool.true_and, Option.some.injEq, Prod.mk.injEq, true_and]
      rw [h3]
      cases l with
      | nil => simp
      | cons => simp
    · simp only
      rw [List.take_add_one]
      simp only [List.take_set_of_le (Nat.le_refl _), h4]
      simp [hb2]
    · intro j hj
      rcases List.mem_or_eq_of_mem_set hj with h | h
      · exact h5 j h
      · subst h; exact hi
  wake_oob := by
    rintro n r l i ⟨h1, -⟩ hi
    have : r.awakeSet[i]? = none := by
      rw [List.getElem?_eq_none_iff, h1.len]; exact hi
    simp [arrayImpl, RArray.wake, RArray.setWoken, this]
  list h := h.2.2.2.1
  clear := by
    rintro n r l ⟨h1, h2, h3, h4, h5⟩
    simp only [arrayImpl, RArray.clear]
    split
    · exact ⟨_, rfl, h1.fill, h2, rfl, by simp, h5⟩
    · obtain ⟨set', e1, e2⟩ := h1.clearEach (is := r.awakeList)
        (by intro i hi; rw [← h4] at hi; exact List.mem_of_mem_take hi) h5
      exact ⟨⟨set', r.awakeList, 0⟩, by simp [e1], e2, h2, rfl, by simp, h5⟩
  nodup h := h.1.nodup
  bound h := h.1.bound

def vecCorrect : vecImpl.Correct where
  Rel n r l := SetRel n r.awakeSet l ∧ r.awakeList = l
  new n := by
    refine ⟨⟨by simp [vecImpl, RVec.new], ?_, List.nodup_range, by simp⟩, rfl⟩
    intro i hi; simp [vecImpl, RVec.new, hi]
  wake_mem := by
    intro n r l i h hi
    obtain ⟨e1, e2⟩ := h.1.set_mem hi
    have hb : i < r.awakeSet.length := by rw [h.1.len]; exact h.1.bound i hi
    refine ⟨r, ?_, h⟩
    simp only [vecImpl, RVec.wake, RVec.setWoken, e2, setAt, hb, e1, if_true,
      Option.bind_eq_bind, Option.bind_some, Option.pure_def, Bool.not_true, Bool.false_and]
    rfl
  wake_new := by
    rintro n r l i ⟨h1, rfl⟩ hi hn
    have hb : i < r.awakeSet.length := by rw [h1.len]; exact hi
    refine ⟨⟨r.awakeSet.set i true, r.awakeList ++ [i]⟩, ?_, h1.set hi hn, rfl⟩
    simp only [vecImpl, RVec.wake, RVec.setWoken, h1.get_not_mem hi hn, setAt, hb,
      if_true, Option.bind_eq_bind, Option.bind_some, Bool.false_eq_true, if_false,
      Option.pure_def, Bool.not_false, Bool.true_and, Option.some.injEq, Prod.mk.injEq, true_and]
    cases r.awakeList with
    | nil => simp
    | cons => simp
  wake_oob := by
    rintro n r l i ⟨h1, -⟩ hi
    have : r.awakeSet[i]? = none := by
      rw [List.getElem?_eq_none_iff, h1.len]; exact hi
    simp [vecImpl, RVec.wake, RVec.setWoken, this]
  list h := h.2
  clear := by
    rintro n r l ⟨h1, rfl⟩
    simp only [vecImpl, RVec.clear]
    split
    · obtain ⟨set', e1, e2⟩ := h1.clearEach (is := r.awakeList) (fun _ h => h) h1.bound
      exact ⟨⟨set', []⟩, by simp [e1], e2, rfl⟩
    · exact ⟨_, rfl, h1.fill, rfl⟩
  nodup h := h.1.nodup
  bound h := h.1.bound

end Verif.Comb
