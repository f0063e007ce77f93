import Verif.Live.Store
/-!
# Changes between two moments at which nothing is left to report

For C72: what the polls of one listener say about the changes of a part of a history.
-/
namespace Verif.XBow

/-- The last element with a property. -/
theorem exists_last {α : Type} {P : α → Prop} [DecidablePred P] {l : List α} (h : ∃ x ∈ l, P x) :
    ∃ a x b, l = a ++ x :: b ∧ P x ∧ ∀ y ∈ b, ¬ P y := by
  induction l with
  | nil => obtain ⟨x, hx, _⟩ := h; cases hx
  | cons z l ih =>
    by_cases hl : ∃ x ∈ l, P x
    · obtain ⟨a, x, b, rfl, h1, h2⟩ := ih hl
      exact ⟨z :: a, x, b, rfl, h1, h2⟩
    · obtain ⟨x, hx, hp⟩ := h
      rcases List.mem_cons.1 hx with rfl | hx
      · exact ⟨[], x, l, rfl, hp, fun y hy hpy => hl ⟨y, hy, hpy⟩⟩
      · exact (hl ⟨x, hx, hp⟩).elim

/-- The first element with a property. -/
theorem exists_first {α : Type} {P : α → Prop} [DecidablePred P] {l : List α} (h : ∃ x ∈ l, P x) :
    ∃ a x b, l = a ++ x :: b ∧ P x ∧ ∀ y ∈ a, ¬ P y := by
  induction l with
  | nil => obtain ⟨x, hx, _⟩ := h; cases hx
  | cons z l ih =>
    by_cases hz : P z
    · exact ⟨[], z, l, rfl, hz, by simp⟩
    · obtain ⟨x, hx, hp⟩ := h
      rcases List.mem_cons.1 hx with rfl | hx
      · exact (hz hp).elim
      · obtain ⟨a, x, b, rfl, h1, h2⟩ := ih ⟨x, hx, hp⟩
        refine ⟨z :: a, x, b, rfl, h1, fun y hy => ?_⟩
        rcases List.mem_cons.1 hy with rfl | hy
        · exact hz
        · exact h2 y hy

section
variable {hash : Path → BitVec 64} {create : Op} {i : Nat} {s : Sys}

/-- The event changes a key of the listener. -/
def Hits (hash : Path → BitVec 64) (create : Op) (e : Op × Out) : Prop :=
  ∃ k ∈ createKeys hash create, k ∈ e.1.keys hash

/-- The listener `i` was created by `create`, and `t` is what has happened since; nothing is left to report: it was
polled, and neither polled, nor dropped, nor hit since. -/
def Quiet (hash : Path → BitVec 64) (create : Op) (i : Nat) (t : List (Op × Out)) : Prop :=
  ∃ a w o m, t = a ++ (.poll i w, o) :: m ∧ ∀ e ∈ m, e.1.touches i = false ∧ ¬ Hits hash create e

/-- The trace of a store with this listener. -/
def Has' (hash : Path → BitVec 64) (create : Op) (i : Nat) (t : List (Op × Out)) (s : Sys) : Prop :=
  ∃ pre s0 s1 o, Run hash init pre s0 ∧ i = s0.listeners.length ∧ step hash s0 create = some (s1, o) ∧ Run hash s1 t s

theorem Has'.poll {a b : List (Op × Out)} {w w' : Waker} {o o' : Out} {m : List (Op × Out)}
    (h : Has' hash create i (a ++ (.poll i w, o) :: (m ++ (.poll i w', o') :: b)) s)
    (hc : (∃ q, create = .listen q) ∨ ∃ q, create = .listenBubbling q) (hm : ∀ e ∈ m, e.1.touches i = false) :
    ∃ r, o' = .polled r ∧ (r = true ↔ ∃ e ∈ m, Hits hash create e) := by
  obtain ⟨pre, s0, s1, o0, h1, h2, h3, h4⟩ := h
  obtain ⟨s2, r1, r2⟩ := Live.xrun_split h4
  cases r2 with
  | cons e1 r2 =>
  obtain ⟨s4, r3, r4⟩ := Live.xrun_split r2
  cases r4 with
  | cons e2 r4 =>
  exact ready_iff_key ⟨pre, a, s0, s1, s2, _, o0, o, h1, h2, h3, r1, e1, r3, hm⟩ hc e2

def isPoll (i : Nat) (e : Op × Out) : Bool :=
  match e.1 with
  | .poll j _ => decide (j = i)
  | _ => false

theorem isPoll_eq {e : Op × Out} (h : isPoll i e = true) : ∃ w o, e = (.poll i w, o) := by
  obtain ⟨op, o⟩ := e
  cases op <;> simp [isPoll] at h
  subst h
  exact ⟨_, _, rfl⟩

/-- If the listener reports something after a quiet moment, it was hit after it. -/
theorem hit_of_ready {t x1 x2 : List (Op × Out)} {w : Waker}
    (h : Has' hash create i (t ++ (x1 ++ (.poll i w, .polled true) :: x2)) s)
    (hc : (∃ q, create = .listen q) ∨ ∃ q, create = .listenBubbling q) (hq : Quiet hash create i t)
    (hd : ∀ e ∈ x1, e.1 ≠ .drop i) : ∃ e ∈ x1, Hits hash create e := by
  obtain ⟨a, w0, o0, m, rfl, hm⟩ := hq
  have htouch : ∀ e : Op × Out, e.1 ≠ .drop i → ¬ (isPoll i e = true) → e.1.touches i = false := by
    rintro ⟨op, o⟩ h1 h2
    cases op <;> simp_all [Op.touches, isPoll]
  by_cases hp : ∃ e ∈ x1, isPoll i e = true
  · obtain ⟨b, y, c, rfl, h1, h2⟩ := exists_last (P := fun e => isPoll i e = true) hp
    obtain ⟨w1, o1, rfl⟩ := isPoll_eq h1
    have hl : (a ++ (.poll i w0, o0) :: m) ++ ((b ++ (.poll i w1, o1) :: c) ++ (.poll i w, .polled true) :: x2) =
        ((a ++ (.poll i w0, o0) :: m) ++ b) ++ (.poll i w1, o1) :: (c ++ (.poll i w, .polled true) :: x2) := by
      simp only [List.append_assoc, List.cons_append]
    rw [hl] at h
    obtain ⟨r, hr, hiff⟩ := h.poll hc (fun e he => htouch e (hd e (by simp [he])) (h2 e he))
    cases hr
    obtain ⟨e, he, hh⟩ := hiff.1 rfl
    exact ⟨e, by simp [he], hh⟩
  · have hl : (a ++ (.poll i w0, o0) :: m) ++ (x1 ++ (.poll i w, .polled true) :: x2) =
        a ++ (.poll i w0, o0) :: ((m ++ x1) ++ (.poll i w, .polled true) :: x2) := by
      simp only [List.append_assoc, List.cons_append]
    rw [hl] at h
    obtain ⟨r, hr, hiff⟩ := h.poll hc (fun e he => by
      rcases List.mem_append.1 he with he | he
      · exact (hm e he).1
      · exact htouch e (hd e he) fun hp' => hp ⟨e, he, hp'⟩)
    cases hr
    obtain ⟨e, he, hh⟩ := hiff.1 rfl
    rcases List.mem_append.1 he with he | he
    · exact ((hm e he).2 hh).elim
    · exact ⟨e, he, hh⟩

/-- If the listener is hit after it was polled, then by the next quiet moment it has reported. -/
theorem ready_of_hit {t y1 y2 : List (Op × Out)} {c : Op × Out}
    (h : Has' hash create i (t ++ (y1 ++ c :: y2)) s)
    (hc : (∃ q, create = .listen q) ∨ ∃ q, create = .listenBubbling q) (hp : ∃ e ∈ t, isPoll i e = true)
    (hd : ∀ e ∈ y1 ++ c :: y2, e.1 ≠ .drop i) (hdt : Quiet hash create i t)
    (hq : Quiet hash create i (t ++ (y1 ++ c :: y2))) (hh : Hits hash create c) :
    ∃ w, ((.poll i w, .polled true) : Op × Out) ∈ y2 := by
  have htouch : ∀ e : Op × Out, e.1 ≠ .drop i → ¬ (isPoll i e = true) → e.1.touches i = false := by
    rintro ⟨op, o⟩ h1 h2
    cases op <;> simp_all [Op.touches, isPoll]
  have hcp : ¬ isPoll i c = true := by
    intro hcp
    obtain ⟨w, o, rfl⟩ := isPoll_eq hcp
    obtain ⟨k, _, hk⟩ := hh
    simp [Op.keys] at hk
  -- it is polled after the hit
  have hpy : ∃ e ∈ y2, isPoll i e = true := by
    obtain ⟨a, w0, o0, m, heq, hm⟩ := hq
    have heq' : (t ++ y1) ++ c :: y2 = a ++ (.poll i w0, o0) :: m := by rw [← heq]; simp only [List.append_assoc]
    rcases List.append_eq_append_iff.1 heq' with ⟨b, hb1, hb2⟩ | ⟨b, hb1, hb2⟩
    · cases b with
      | nil =>
        simp only [List.nil_append, List.cons.injEq] at hb2
        obtain ⟨rfl, -⟩ := hb2
        exact (hcp (by simp [isPoll])).elim
      | cons z b =>
        simp only [List.cons_append, List.cons.injEq] at hb2
        exact ⟨(.poll i w0, o0), by rw [hb2.2]; simp, by simp [isPoll]⟩
    · cases b with
      | nil =>
        simp only [List.nil_append, List.cons.injEq] at hb2
        obtain ⟨rfl, -⟩ := hb2
        exact (hcp (by simp [isPoll])).elim
      | cons z b =>
        simp only [List.cons_append, List.cons.injEq] at hb2
        exact ((hm c (by rw [hb2.2]; simp)).2 hh).elim
  obtain ⟨z1, y, z2, rfl, h1, h2⟩ := exists_first (P := fun e => isPoll i e = true) hpy
  obtain ⟨w1, o1, rfl⟩ := isPoll_eq h1
  -- the last poll before
  have hlast : ∃ a w0 o0 m, t ++ y1 = a ++ (.poll i w0, o0) :: m ∧ ∀ e ∈ m, e.1.touches i = false := by
    by_cases hpy1 : ∃ e ∈ y1, isPoll i e = true
    · obtain ⟨b, y, m, rfl, h3, h4⟩ := exists_last (P := fun e => isPoll i e = true) hpy1
      obtain ⟨w2, o2, rfl⟩ := isPoll_eq h3
      exact ⟨t ++ b, w2, o2, m, by simp only [List.append_assoc], fun e he =>
        htouch e (hd e (by simp [he])) (h4 e he)⟩
    · obtain ⟨a, w0, o0, m, rfl, hm⟩ := hdt
      refine ⟨a, w0, o0, m ++ y1, by simp only [List.append_assoc, List.cons_append], fun e he => ?_⟩
      rcases List.mem_append.1 he with he | he
      · exact (hm e he).1
      · exact htouch e (hd e (by simp [he])) fun hp' => hpy1 ⟨e, he, hp'⟩
  obtain ⟨a, w0, o0, m, heq, hm⟩ := hlast
  have hl : t ++ (y1 ++ c :: (z1 ++ (.poll i w1, o1) :: z2)) =
      a ++ (.poll i w0, o0) :: ((m ++ c :: z1) ++ (.poll i w1, o1) :: z2) := by
    calc t ++ (y1 ++ c :: (z1 ++ (.poll i w1, o1) :: z2)) = (t ++ y1) ++ (c :: (z1 ++ (.poll i w1, o1) :: z2)) := by
          simp only [List.append_assoc]
      _ = _ := by rw [heq]; simp only [List.append_assoc, List.cons_append]
  rw [hl] at h
  obtain ⟨r, rfl, hiff⟩ := h.poll hc (fun e he => by
    rcases List.mem_append.1 he with he | he
    · exact hm e he
    · rcases List.mem_cons.1 he with rfl | he
      · exact htouch _ (hd _ (by simp)) hcp
      · exact htouch e (hd e (by simp [he])) (h2 e he))
  rw [hiff.2 ⟨c, by simp, hh⟩]
  exact ⟨w1, by simp⟩

/-- Without collisions, what hits a listener. -/
theorem hits_regular {q p : Path} {o : Out} (hn : NoClash hash q p) : Hits hash (.listen q) (.change p, o) ↔ p <+: q := by
  constructor
  · rintro ⟨k, hk, hke⟩
    obtain ⟨q', hq', rfl⟩ := List.mem_map.1 hk
    simp only [Op.keys, List.mem_append, List.mem_map, List.mem_singleton] at hke
    rcases hke with ⟨p', hp', e⟩ | e
    · exact (hn.bubbling q' p' (mem_visited.1 hq') (mem_visited.1 hp') e.symm).elim
    · have := hn.regular q' (mem_visited.1 hq') e
      exact this ▸ mem_visited.1 hq'
  · intro hpq
    exact ⟨regularKey hash p, List.mem_map_of_mem (mem_visited.2 hpq), by simp [Op.keys]⟩

theorem hits_bubbling {q p : Path} {o : Out} (hn : NoClashBubbling hash q p) :
    Hits hash (.listenBubbling q) (.change p, o) ↔ q <+: p := by
  constructor
  · rintro ⟨k, hk, hke⟩
    simp only [createKeys, List.mem_singleton] at hk
    subst hk
    simp only [Op.keys, List.mem_append, List.mem_map, List.mem_singleton] at hke
    rcases hke with ⟨p', hp', e⟩ | e
    · have := hn.bubbling p' (mem_visited.1 hp') e.symm
      exact this ▸ mem_visited.1 hp'
    · exact (hn.regular e).elim
  · intro hpq
    exact ⟨bubblingKey hash q, by simp [createKeys], List.mem_append_left _ (List.mem_map_of_mem (mem_visited.2 hpq))⟩

theorem hits_change {e : Op × Out} (h : Hits hash create e) : ∃ p o, e = (.change p, o) := by
  obtain ⟨op, o⟩ := e
  obtain ⟨k, -, hk⟩ := h
  cases op with
  | change p => exact ⟨p, o, rfl⟩
  | _ => simp [Op.keys] at hk

end
end Verif.XBow
