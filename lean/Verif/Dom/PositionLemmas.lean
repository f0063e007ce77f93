import Verif.Dom.Position
import Verif.Dom.Spec
/-! Helper lemmas about positions. -/
namespace Verif.Dom

/-- Plain lexicographic comparison of root-first paths. -/
def lexCmp : List Nat → List Nat → Ordering
  | [], [] => .eq
  | [], _ :: _ => .lt
  | _ :: _, [] => .gt
  | a :: as, b :: bs =>
    match compare a b with
    | .eq => lexCmp as bs
    | o => o

theorem compareZip_eq (k1 k2 : Nat) (s1 s2 : List Nat) (h : k1 + s2.length = k2 + s1.length) :
    compareZip k1 k2 s1 s2 = lexCmp s1 s2 := by
  induction s1 generalizing s2 with
  | nil =>
    cases s2 with
    | nil =>
      simp only [compareZip, lexCmp]
      simp at h
      simp [h]
    | cons b bs =>
      simp only [compareZip, lexCmp]
      simp at h
      rw [Nat.compare_eq_lt]; omega
  | cons a as ih =>
    cases s2 with
    | nil =>
      simp only [compareZip, lexCmp]
      simp at h
      rw [Nat.compare_eq_gt]; omega
    | cons b bs =>
      simp only [compareZip, lexCmp]
      simp only [List.length_cons] at h
      rw [ih bs (by omega)]
      cases compare a b <;> rfl

theorem cmp_eq_lex (p q : Pos) : Pos.cmp p q = lexCmp p.reverse q.reverse := by
  unfold Pos.cmp
  apply compareZip_eq
  simp; omega

theorem lexCmp_lt_iff (a b : List Nat) : lexCmp a b = .lt ↔ SourceBefore a b := by
  induction a generalizing b with
  | nil =>
    cases b with
    | nil => simp [lexCmp, SourceBefore]
    | cons b bs => simp [lexCmp, SourceBefore]
  | cons x xs ih =>
    cases b with
    | nil => simp [lexCmp, SourceBefore]
    | cons y ys =>
      simp only [lexCmp]
      rcases Nat.lt_trichotomy x y with h | h | h
      · rw [Nat.compare_eq_lt.2 h]
        simp only [true_iff]
        exact .inr ⟨[], x, y, xs, ys, rfl, rfl, h⟩
      · subst h
        rw [Nat.compare_eq_eq.2 rfl]
        simp only [ih]
        constructor
        · rintro (⟨s, hs, rfl⟩ | ⟨c, i, j, s, t, rfl, rfl, hij⟩)
          · exact .inl ⟨s, hs, rfl⟩
          · exact .inr ⟨x :: c, i, j, s, t, rfl, rfl, hij⟩
        · rintro (⟨s, hs, h⟩ | ⟨c, i, j, s, t, h1, h2, hij⟩)
          · simp at h
            exact .inl ⟨s, hs, h⟩
          · cases c with
            | nil => simp at h1 h2; omega
            | cons c cs =>
              simp at h1 h2
              exact .inr ⟨cs, i, j, s, t, h1.2, h2.2, hij⟩
      · rw [Nat.compare_eq_gt.2 h]
        simp only [reduceCtorEq, false_iff]
        rintro (⟨s, hs, h'⟩ | ⟨c, i, j, s, t, h1, h2, hij⟩)
        · simp at h'; omega
        · cases c with
          | nil => simp at h1 h2; omega
          | cons c cs => simp at h1 h2; omega

theorem lexCmp_eq_iff (a b : List Nat) : lexCmp a b = .eq ↔ a = b := by
  induction a generalizing b with
  | nil => cases b <;> simp [lexCmp]
  | cons x xs ih =>
    cases b with
    | nil => simp [lexCmp]
    | cons y ys =>
      simp only [lexCmp]
      rcases Nat.lt_trichotomy x y with h | h | h
      · rw [Nat.compare_eq_lt.2 h]; simp; omega
      · subst h; rw [Nat.compare_eq_eq.2 rfl]; simp [ih]
      · rw [Nat.compare_eq_gt.2 h]; simp; omega

theorem lexCmp_swap (a b : List Nat) : (lexCmp a b).swap = lexCmp b a := by
  induction a generalizing b with
  | nil => cases b <;> simp [lexCmp]
  | cons x xs ih =>
    cases b with
    | nil => simp [lexCmp]
    | cons y ys =>
      simp only [lexCmp]
      rcases Nat.lt_trichotomy x y with h | h | h
      · rw [Nat.compare_eq_lt.2 h, Nat.compare_eq_gt.2 h]; rfl
      · subst h; rw [Nat.compare_eq_eq.2 rfl]; exact ih ys
      · rw [Nat.compare_eq_gt.2 h, Nat.compare_eq_lt.2 h]; rfl

theorem lexCmp_trans {a b c : List Nat} (h1 : lexCmp a b = .lt) (h2 : lexCmp b c = .lt) :
    lexCmp a c = .lt := by
  induction a generalizing b c with
  | nil =>
    cases c with
    | nil => cases b <;> simp [lexCmp] at h2
    | cons => simp [lexCmp]
  | cons x xs ih =>
    cases b with
    | nil => simp [lexCmp] at h1
    | cons y ys =>
      cases c with
      | nil => simp [lexCmp] at h2
      | cons z zs =>
        simp only [lexCmp] at *
        rcases Nat.lt_trichotomy x y with h | h | h
        · rcases Nat.lt_trichotomy y z with h' | h' | h'
          · rw [Nat.compare_eq_lt.2 (by omega)]
          · rw [Nat.compare_eq_lt.2 (by omega)]
          · rw [Nat.compare_eq_gt.2 h'] at h2; simp at h2
        · subst h
          rcases Nat.lt_trichotomy x z with h' | h' | h'
          · rw [Nat.compare_eq_lt.2 (by omega)]
          · subst h'
            rw [Nat.compare_eq_eq.2 rfl] at *
            exact ih h1 h2
          · rw [Nat.compare_eq_gt.2 h'] at h2; simp at h2
        · rw [Nat.compare_eq_gt.2 h] at h1; simp at h1

theorem lexCmp_prefix_ne_gt (a s : List Nat) : lexCmp a (a ++ s) ≠ .gt := by
  induction a with
  | nil => cases s <;> simp [lexCmp]
  | cons x xs ih => simp [lexCmp, ih]

theorem lexCmp_common (c a b : List Nat) : lexCmp (c ++ a) (c ++ b) = lexCmp a b := by
  induction c with
  | nil => rfl
  | cons x xs ih => simp [lexCmp, ih]

/-- the interval lemma on root-first paths -/
theorem lex_interval (c : List Nat) (x : Nat) (q : List Nat) :
    (lexCmp (c ++ [x]) q ≠ .gt ∧ lexCmp q (c ++ [x + 1]) = .lt) ↔ ∃ s, q = c ++ x :: s := by
  induction c generalizing q with
  | nil =>
    cases q with
    | nil => simp [lexCmp]
    | cons y ys =>
      simp only [List.nil_append, lexCmp]
      rcases Nat.lt_trichotomy x y with h | h | h
      · rw [Nat.compare_eq_lt.2 h]
        rcases Nat.lt_or_ge (x + 1) y with h' | h'
        · rw [Nat.compare_eq_gt.2 h']; simp; omega
        · have : y = x + 1 := by omega
          subst this
          rw [Nat.compare_eq_eq.2 rfl]
          simp only [List.cons.injEq]
          cases ys <;> simp [lexCmp]
      · subst h
        rw [Nat.compare_eq_eq.2 rfl, Nat.compare_eq_lt.2 (by omega)]
        cases ys <;> simp [lexCmp]
      · rw [Nat.compare_eq_gt.2 h]; simp; omega
  | cons z zs ih =>
    cases q with
    | nil => simp [lexCmp]
    | cons y ys =>
      simp only [List.cons_append, lexCmp]
      rcases Nat.lt_trichotomy z y with h | h | h
      · rw [Nat.compare_eq_lt.2 h, Nat.compare_eq_gt.2 h]; simp; omega
      · subst h
        rw [Nat.compare_eq_eq.2 rfl]
        simp only [List.cons.injEq, true_and]
        exact ih ys
      · rw [Nat.compare_eq_gt.2 h]; simp; omega

theorem nextSibling_reverse {b : Build} {x : Nat} {xs : List Nat} (h : x + 1 < 2 ^ 32) :
    Pos.nextSibling b (x :: xs) = some ((x + 1) :: xs) := by
  simp only [Pos.nextSibling, if_pos h]

end Verif.Dom
