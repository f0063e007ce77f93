/-!
# Doubly linked rings over a pair of pointer functions
-/
namespace Verif.Arena

def upd (f : Nat → Nat) (i v : Nat) : Nat → Nat := fun j => if j = i then v else f j

theorem upd_self (f : Nat → Nat) (i v : Nat) : upd f i v i = v := by simp [upd]
theorem upd_ne (f : Nat → Nat) {i j : Nat} (v : Nat) (h : j ≠ i) : upd f i v j = f j := by
  simp [upd, h]

/-- Neighbours in the list point at each other. -/
def Linked (N P : Nat → Nat) : List Nat → Prop
  | [] => True
  | [_] => True
  | a :: b :: l => N a = b ∧ P b = a ∧ Linked N P (b :: l)

/-- The nodes form a circle in the order of the list. -/
def Ring (N P : Nat → Nat) : List Nat → Prop
  | [] => True
  | h :: l => Linked N P (h :: (l ++ [h]))

theorem linked_append {N P : Nat → Nat} : ∀ (xs : List Nat) (a : Nat) (ys : List Nat),
    Linked N P (xs ++ a :: ys) ↔ Linked N P (xs ++ [a]) ∧ Linked N P (a :: ys)
  | [], a, ys => by simp [Linked]
  | [x], a, ys => by simp [Linked, and_assoc]
  | x :: y :: xs, a, ys => by
    have := linked_append (N := N) (P := P) (y :: xs) a ys
    simp only [List.cons_append, Linked] at this ⊢
    rw [this]; simp only [and_assoc]

theorem linked_congr {N P N' P' : Nat → Nat} : ∀ (xs : List Nat),
    (∀ i ∈ xs.dropLast, N' i = N i) → (∀ i ∈ xs.tail, P' i = P i) → Linked N P xs → Linked N' P' xs
  | [], _, _, h => h
  | [_], _, _, h => h
  | a :: b :: l, hn, hp, h => by
    simp only [Linked] at h ⊢
    refine ⟨by rw [hn a (by simp)]; exact h.1, by rw [hp b (by simp)]; exact h.2.1, ?_⟩
    refine linked_congr (b :: l) (fun i hi => hn i ?_) (fun i hi => hp i ?_) h.2.2
    · simp only [List.dropLast]; exact List.mem_cons_of_mem _ hi
    · simp only [List.tail] at hi ⊢; exact List.mem_cons_of_mem _ hi

theorem ring_frame {N P N' P' : Nat → Nat} {r : List Nat}
    (hn : ∀ i ∈ r, N' i = N i) (hp : ∀ i ∈ r, P' i = P i) (h : Ring N P r) : Ring N' P' r := by
  cases r with
  | nil => trivial
  | cons a l =>
    refine linked_congr _ (fun i hi => hn i ?_) (fun i hi => hp i ?_) h
    · rw [← List.cons_append, List.dropLast_concat] at hi; exact hi
    · simp only [List.tail_cons, List.mem_append, List.mem_singleton] at hi
      rcases hi with hi | hi
      · exact List.mem_cons_of_mem _ hi
      · rw [hi]; exact List.mem_cons_self

theorem linked_at {N P : Nat → Nat} {xs ys : List Nat} {a b : Nat}
    (h : Linked N P (xs ++ a :: b :: ys)) : N a = b ∧ P b = a := by
  rw [linked_append] at h; exact ⟨h.2.1, h.2.2.1⟩

/-- Splitting a ring at a member that is not the head. -/
theorem ring_split {N P : Nat → Nat} {h x : Nat} {l1 l2 : List Nat}
    (hr : Ring N P (h :: (l1 ++ x :: l2))) :
    Linked N P (h :: l1) ∧ N ((h :: l1).getLast (by simp)) = x ∧
      P x = (h :: l1).getLast (by simp) ∧ N x = (l2 ++ [h]).head (by simp) ∧
      P ((l2 ++ [h]).head (by simp)) = x ∧ Linked N P (l2 ++ [h]) := by
  have e1 : h :: l1 = (h :: l1).dropLast ++ [(h :: l1).getLast (by simp)] :=
    (List.dropLast_concat_getLast (by simp)).symm
  have e2 : l2 ++ [h] = (l2 ++ [h]).head (by simp) :: (l2 ++ [h]).tail :=
    (List.cons_head_tail (by simp)).symm
  generalize (h :: l1).getLast (by simp) = a at *
  generalize (l2 ++ [h]).head (by simp) = b at *
  have e : h :: (l1 ++ x :: l2 ++ [h]) = (h :: l1).dropLast ++ a :: x :: b :: (l2 ++ [h]).tail := by
    have : h :: (l1 ++ x :: l2 ++ [h]) = (h :: l1) ++ x :: (l2 ++ [h]) := by simp
    rw [this, e2, e1]; simp
  have hl : Linked N P (h :: (l1 ++ x :: l2 ++ [h])) := hr
  rw [e] at hl
  rw [linked_append] at hl
  refine ⟨by rw [e1]; exact hl.1, hl.2.1, hl.2.2.1, hl.2.2.2.1, hl.2.2.2.2.1, ?_⟩
  rw [e2]; exact hl.2.2.2.2.2

theorem ring_join {N P : Nat → Nat} {h : Nat} {l1 l2 : List Nat}
    (h1 : Linked N P (h :: l1)) (h2 : Linked N P (l2 ++ [h]))
    (e1 : N ((h :: l1).getLast (by simp)) = (l2 ++ [h]).head (by simp))
    (e2 : P ((l2 ++ [h]).head (by simp)) = (h :: l1).getLast (by simp)) :
    Ring N P (h :: (l1 ++ l2)) := by
  have f1 : h :: l1 = (h :: l1).dropLast ++ [(h :: l1).getLast (by simp)] :=
    (List.dropLast_concat_getLast (by simp)).symm
  have f2 : l2 ++ [h] = (l2 ++ [h]).head (by simp) :: (l2 ++ [h]).tail :=
    (List.cons_head_tail (by simp)).symm
  generalize (h :: l1).getLast (by simp) = a at *
  generalize (l2 ++ [h]).head (by simp) = b at *
  have e : h :: (l1 ++ l2 ++ [h]) = (h :: l1).dropLast ++ a :: b :: (l2 ++ [h]).tail := by
    have : h :: (l1 ++ l2 ++ [h]) = (h :: l1) ++ (l2 ++ [h]) := by simp
    rw [this, f2, f1]; simp
  show Linked N P (h :: (l1 ++ l2 ++ [h]))
  rw [e, linked_append]
  refine ⟨by rw [← f1]; exact h1, e1, e2, ?_⟩
  rw [← f2]; exact h2

/-- Neighbours stay in the ring. -/
theorem ring_mem {N P : Nat → Nat} {r : List Nat} (hr : Ring N P r) {i : Nat} (hi : i ∈ r) :
    N i ∈ r ∧ P i ∈ r := by
  cases r with
  | nil => cases hi
  | cons h l =>
    have hl : Linked N P (h :: (l ++ [h])) := hr
    constructor
    · -- successor
      have hm : i ∈ h :: l := hi
      obtain ⟨p, q, e⟩ := List.append_of_mem hm
      cases q with
      | nil =>
        have e' : h :: (l ++ [h]) = p ++ i :: h :: [] := by
          rw [← List.cons_append, e]; simp
        rw [e'] at hl
        rw [(linked_at hl).1]; exact List.mem_cons_self
      | cons b q =>
        have e' : h :: (l ++ [h]) = p ++ i :: b :: (q ++ [h]) := by
          rw [← List.cons_append, e]; simp
        rw [e'] at hl
        rw [(linked_at hl).1, e]; simp
    · have hm : i ∈ l ++ [h] := by
        rcases List.mem_cons.1 hi with hi | hi
        · simp [hi]
        · simp [hi]
      obtain ⟨p, q, e⟩ := List.append_of_mem hm
      rcases List.eq_nil_or_concat p with hp | ⟨p', b, hp⟩
      · subst hp
        rw [e] at hl
        have : P i = h := (linked_at (xs := []) hl).2
        rw [this]; exact List.mem_cons_self
      · subst hp
        have e' : h :: (l ++ [h]) = (h :: p') ++ b :: i :: q := by rw [e]; simp
        rw [e'] at hl
        rw [(linked_at hl).2]
        have hb : b ∈ l ++ [h] := by rw [e]; simp
        simp only [List.mem_append, List.mem_singleton] at hb
        rcases hb with hb | hb
        · exact List.mem_cons_of_mem _ hb
        · rw [hb]; exact List.mem_cons_self

theorem nodup_split {h : Nat} {l1 l2 : List Nat} (hd : (h :: (l1 ++ l2)).Nodup) :
    (h :: l1).Nodup ∧ (l2 ++ [h]).Nodup ∧ (∀ i ∈ h :: l1, i ∉ l2) ∧ (∀ i ∈ l2 ++ [h], i ∉ l1) := by
  simp only [List.nodup_cons, List.mem_append, List.nodup_append] at *
  grind

theorem getLast_not_mem_dropLast {l : List Nat} (hd : l.Nodup) (hne : l ≠ []) :
    l.getLast hne ∉ l.dropLast := by
  have e := List.dropLast_concat_getLast hne
  generalize l.getLast hne = a at *
  rw [← e] at hd
  simp only [List.nodup_append] at hd
  grind

theorem head_not_mem_tail {l : List Nat} (hd : l.Nodup) (hne : l ≠ []) :
    l.head hne ∉ l.tail := by
  cases l with
  | nil => cases hne rfl
  | cons a l => simp at *; exact hd.1

/-- Taking a member (not the head) out. -/
theorem ring_unlink {N P N' P' : Nat → Nat} {h x : Nat} {l1 l2 : List Nat}
    (hr : Ring N P (h :: (l1 ++ x :: l2))) (hd : (h :: (l1 ++ x :: l2)).Nodup)
    (hN : N' (P x) = N x) (hP : P' (N x) = P x)
    (fN : ∀ i ∈ h :: (l1 ++ l2), i ≠ P x → N' i = N i)
    (fP : ∀ i ∈ h :: (l1 ++ l2), i ≠ N x → P' i = P i) :
    Ring N' P' (h :: (l1 ++ l2)) := by
  have hd2 : (h :: (l1 ++ l2)).Nodup := by
    simp only [List.nodup_cons, List.mem_append, List.nodup_append, List.mem_cons] at *
    grind
  obtain ⟨d1, d2, d3, d4⟩ := nodup_split hd2
  obtain ⟨s1, s2, s3, s4, s5, s6⟩ := ring_split hr
  rw [s3] at hN hP fN
  rw [s4] at hN hP fP
  have m1 := getLast_not_mem_dropLast d1 (by simp)
  have m2 := head_not_mem_tail d2 (by simp)
  refine ring_join ?_ ?_ hN hP
  · refine linked_congr _ (fun i hi => fN i ?_ ?_) (fun i hi => fP i ?_ ?_) s1
    · have := List.dropLast_subset _ hi
      simp only [List.mem_cons, List.mem_append] at this ⊢; grind
    · intro e; rw [e] at hi; exact m1 hi
    · simp only [List.tail_cons] at hi; simp [hi]
    · intro e
      simp only [List.tail_cons] at hi
      exact d4 _ (List.head_mem (by simp)) (e ▸ hi)
  · refine linked_congr _ (fun i hi => fN i ?_ ?_) (fun i hi => fP i ?_ ?_) s6
    · rw [List.dropLast_concat] at hi; simp [hi]
    · rw [List.dropLast_concat] at hi
      intro e
      exact d3 _ (List.getLast_mem (by simp)) (e ▸ hi)
    · have := List.mem_of_mem_tail hi
      simp only [List.mem_cons, List.mem_append] at this ⊢; grind
    · intro e; rw [e] at hi; exact m2 hi

theorem ring_ends {N P : Nat → Nat} {h : Nat} {l : List Nat} (hr : Ring N P (h :: l)) :
    P h = (h :: l).getLast (by simp) ∧ N h = (l ++ [h]).head (by simp) ∧
    N ((h :: l).getLast (by simp)) = h ∧ P ((l ++ [h]).head (by simp)) = h := by
  have hl : Linked N P (h :: (l ++ [h])) := hr
  have f1 : h :: l = (h :: l).dropLast ++ [(h :: l).getLast (by simp)] :=
    (List.dropLast_concat_getLast (by simp)).symm
  have f2 : l ++ [h] = (l ++ [h]).head (by simp) :: (l ++ [h]).tail :=
    (List.cons_head_tail (by simp)).symm
  generalize (h :: l).getLast (by simp) = a at *
  generalize (l ++ [h]).head (by simp) = b at *
  have h1 := hl
  have e1 : h :: (l ++ [h]) = (h :: l).dropLast ++ a :: h :: [] := by
    rw [← List.cons_append, f1]; simp
  rw [e1] at h1
  have h2 := hl
  rw [f2] at h2
  exact ⟨(linked_at h1).2, h2.1, (linked_at h1).1, h2.2.1⟩

/-- Putting a new node at the end. -/
theorem ring_append {N P N' P' : Nat → Nat} {h x : Nat} {l : List Nat}
    (hr : Ring N P (h :: l)) (hd : (h :: l).Nodup)
    (hN : N' (P h) = x) (hPx : P' x = P h) (hNx : N' x = h) (hP : P' h = x)
    (fN : ∀ i ∈ h :: l, i ≠ P h → N' i = N i)
    (fP : ∀ i ∈ h :: l, i ≠ h → P' i = P i) :
    Ring N' P' (h :: (l ++ [x])) := by
  obtain ⟨e1, _, _, _⟩ := ring_ends hr
  have hl : Linked N P (h :: (l ++ [h])) := hr
  have f1 : h :: l = (h :: l).dropLast ++ [(h :: l).getLast (by simp)] :=
    (List.dropLast_concat_getLast (by simp)).symm
  have m1 := getLast_not_mem_dropLast hd (by simp)
  generalize (h :: l).getLast (by simp) = a at *
  have g1 : h :: (l ++ [h]) = (h :: l).dropLast ++ a :: h :: [] := by
    rw [← List.cons_append, f1]; simp
  rw [g1, linked_append] at hl
  have g2 : h :: (l ++ [x] ++ [h]) = (h :: l).dropLast ++ a :: x :: h :: [] := by
    have : h :: (l ++ [x] ++ [h]) = (h :: l) ++ [x, h] := by simp
    rw [this, f1]; simp
  show Linked N' P' (h :: (l ++ [x] ++ [h]))
  rw [g2, linked_append]
  rw [e1] at hN hPx fN
  refine ⟨?_, hN, hPx, hNx, hP, trivial⟩
  refine linked_congr _ (fun i hi => fN i ?_ ?_) (fun i hi => fP i ?_ ?_) hl.1
  · rw [List.dropLast_concat] at hi; exact List.dropLast_subset _ hi
  · rw [List.dropLast_concat] at hi; intro e; rw [e] at hi; exact m1 hi
  · have := List.mem_of_mem_tail hi; rw [f1]; exact this
  · rw [← f1] at hi; simp only [List.tail_cons] at hi
    intro e; rw [e] at hi; simp only [List.nodup_cons] at hd; exact hd.1 hi

/-- Putting a new node right behind the head. -/
theorem ring_push {N P N' P' : Nat → Nat} {h x : Nat} {l : List Nat}
    (hr : Ring N P (h :: l)) (hd : (h :: l).Nodup)
    (hN : N' h = x) (hPx : P' x = h) (hNx : N' x = N h) (hP : P' (N h) = x)
    (fN : ∀ i ∈ h :: l, i ≠ h → N' i = N i)
    (fP : ∀ i ∈ h :: l, i ≠ N h → P' i = P i) :
    Ring N' P' (h :: x :: l) := by
  obtain ⟨_, e1, _, _⟩ := ring_ends hr
  have hl : Linked N P (h :: (l ++ [h])) := hr
  have hd2 : (l ++ [h]).Nodup := by
    simp only [List.nodup_cons, List.nodup_append] at *; grind
  have f2 : l ++ [h] = (l ++ [h]).head (by simp) :: (l ++ [h]).tail :=
    (List.cons_head_tail (by simp)).symm
  have m1 := head_not_mem_tail hd2 (by simp)
  generalize (l ++ [h]).head (by simp) = b at *
  show Linked N' P' (h :: x :: (l ++ [h]))
  rw [f2] at hl ⊢
  rw [e1] at hNx hP fP
  refine ⟨hN, hPx, hNx, hP, ?_⟩
  refine linked_congr _ (fun i hi => fN i ?_ ?_) (fun i hi => fP i ?_ ?_) hl.2.2
  · rw [← f2, List.dropLast_concat] at hi; exact List.mem_cons_of_mem _ hi
  · rw [← f2, List.dropLast_concat] at hi
    intro e; rw [e] at hi; simp only [List.nodup_cons] at hd; exact hd.1 hi
  · simp only [List.tail_cons] at hi
    have := List.mem_of_mem_tail hi
    simp only [List.mem_append, List.mem_cons, List.not_mem_nil, or_false] at this ⊢; grind
  · simp only [List.tail_cons] at hi
    intro e; rw [e] at hi; exact m1 hi

theorem linked_range {N P : Nat → Nat} : ∀ (n s : Nat),
    (∀ i, s ≤ i → i + 1 < s + n → N i = i + 1 ∧ P (i + 1) = i) → Linked N P (List.range' s n)
  | 0, _, _ => trivial
  | 1, _, _ => trivial
  | n + 2, s, h => by
    have ih := linked_range (n + 1) (s + 1) (fun i h1 h2 => h i (by omega) (by omega))
    have e : List.range' s (n + 2) = s :: (s + 1) :: List.range' (s + 1 + 1) n := rfl
    have e' : List.range' (s + 1) (n + 1) = (s + 1) :: List.range' (s + 1 + 1) n := rfl
    rw [e]; rw [e'] at ih
    have := h s (by omega) (by omega)
    exact ⟨this.1, this.2, ih⟩

theorem ring_range {N P : Nat → Nat} {s n : Nat}
    (hN0 : N 0 = s) (hP0 : P 0 = s + n) (hs : P s = 0) (hn : N (s + n) = 0)
    (h : ∀ i, s ≤ i → i < s + n → N i = i + 1 ∧ P (i + 1) = i) :
    Ring N P (0 :: List.range' s (n + 1)) := by
  show Linked N P (0 :: (List.range' s (n + 1) ++ [0]))
  have e : List.range' s (n + 1) = s :: List.range' (s + 1) n := rfl
  have e2 : List.range' s (n + 1) = List.range' s n ++ [s + n] := by
    rw [List.range'_1_concat]
  have g : 0 :: (List.range' s (n + 1) ++ [0]) = [] ++ 0 :: s :: (List.range' (s + 1) n ++ [0]) := by
    rw [e]; simp
  rw [g, linked_append]
  refine ⟨trivial, hN0, hs, ?_⟩
  have g2 : s :: (List.range' (s + 1) n ++ [0]) = List.range' s n ++ (s + n) :: [0] := by
    rw [← List.cons_append, ← e, e2]; simp
  rw [g2, linked_append, ← e2]
  refine ⟨linked_range _ _ (fun i h1 h2 => h i h1 (by omega)), hn, hP0, trivial⟩

end Verif.Arena
