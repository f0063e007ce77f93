import Verif.Wakers.Props
/-!
# C19: the number of woken subfutures

The code keeps the woken indices with their number; a number that is too small would make `poll` skip a woken
subfuture, one that is too large would make it poll one that is not awake (or index out of bounds).
-/
namespace Verif.Wakers

/-- The number kept beside the flags is the number of flags that are set. -/
def Counted (H : Heap) : Prop := ∀ (c : Nat) (b : Block), H[c]? = some (some b) → b.awakeLen = b.awake.count true

theorem of_blockAt {H : Heap} {raw : Nat} {b : Block} (h : blockAt H raw = .ok b) : H[raw]? = some (some b) := by
  simp only [blockAt] at h
  split at h
  · next b' hb => cases h; exact hb
  · cases h

theorem Counted.set {H : Heap} (h : Counted H) (raw : Nat) {b : Block} (hb : b.awakeLen = b.awake.count true) :
    Counted (H.set raw (some b)) := by
  intro c b' hc
  rw [List.getElem?_set] at hc
  split at hc
  · split at hc
    · cases hc; exact hb
    · cases hc
  · exact h c b' hc

theorem Counted.free {H : Heap} (h : Counted H) (raw : Nat) : Counted (H.set raw none) := by
  intro c b' hc
  rw [List.getElem?_set] at hc
  split at hc
  · split at hc <;> cases hc
  · exact h c b' hc

theorem Counted.arcClone {H H' : Heap} {raw : Nat} (h : Counted H) (he : arcClone H raw = .ok H') : Counted H' := by
  simp only [Wakers.arcClone] at he
  split at he
  · cases he
  · next b hb => cases he; exact h.set raw (h _ b (of_blockAt hb) :)

theorem Counted.arcDrop : ∀ (f : Nat) {H H' : Heap} {raw : Nat}, Counted H → arcDrop f H raw = .ok H' → Counted H' := by
  intro f
  induction f with
  | zero => intro H H' raw _ he; cases he
  | succ f ih =>
    intro H H' raw h he
    simp only [Wakers.arcDrop] at he
    split at he
    · cases he
    · next b hb =>
      split at he
      · split at he
        · cases he; exact h.free raw
        · split at he
          · cases he
          · exact ih (h.free raw) he
      · cases he; exact h.set raw (h _ b (of_blockAt hb) :)

theorem Counted.cloneWaker {H H' : Heap} {p q : Ptr} (h : Counted H) (he : cloneWaker H p = .ok (H', q)) :
    Counted H' := by
  simp only [Wakers.cloneWaker] at he
  split at he
  · cases he
  · split at he
    · cases he
    · next hc => cases he; exact h.arcClone hc

theorem Counted.dropWaker {H H' : Heap} {p : Ptr} (h : Counted H) (he : dropWaker H p = .ok H') : Counted H' := by
  simp only [Wakers.dropWaker] at he
  split at he
  · cases he
  · exact Counted.arcDrop _ h he

theorem Counted.wakeByRef {H H' : Heap} {p : Ptr} (h : Counted H) (he : wakeByRef H p = .ok H') : Counted H' := by
  simp only [Wakers.wakeByRef] at he
  split at he
  · cases he
  · split at he
    · cases he
    · next b hb =>
      split at he
      · cases he
      · split at he
        · cases he
        · next b' hb' =>
          cases he
          have hb := h _ _ (of_blockAt hb)
          apply h.set
          simp only [wakeIndex] at hb'
          split at hb'
          · cases hb'
          · cases hb'; exact hb
          · next hi =>
            cases hb'
            obtain ⟨hi, hv⟩ := List.getElem?_eq_some_iff.1 hi
            simp only
            rw [hb, List.count_set hi, hv]
            simp

theorem Counted.wakersFrom (inner : Nat) : ∀ (is : List Nat) {H H' : Heap} {ps : List Ptr}, Counted H →
    wakersFrom inner H is = .ok (H', ps) → Counted H' := by
  intro is
  induction is with
  | nil => intro H H' ps h he; cases he; exact h
  | cons i is ih =>
    intro H H' ps h he
    simp only [Wakers.wakersFrom] at he
    split at he
    · cases he
    · next H1 p h1 =>
      split at he
      · cases he
      · next h2 =>
        cases he
        refine ih ?_ h2
        simp only [wakerFromRedirect] at h1
        split at h1
        · cases h1
        · next hc => cases h1; exact h.arcClone hc

theorem Counted.dropWakers : ∀ (ps : List Ptr) {H H' : Heap}, Counted H → dropWakers H ps = .ok H' → Counted H' := by
  intro ps
  induction ps with
  | nil => intro H H' h he; cases he; exact h
  | cons p ps ih =>
    intro H H' h he
    simp only [Wakers.dropWakers] at he
    split at he
    · cases he
    · next h1 => exact ih (h.dropWaker h1) he

theorem Counted.pollSet {H H' : Heap} {s : Set} {w : Option Ptr} (h : Counted H) (he : pollSet H s w = .ok H') :
    Counted H' := by
  simp only [Wakers.pollSet] at he
  split at he
  · cases he
  · split at he
    · cases he
      apply h.set
      simp [List.count_replicate]
    · split at he
      · cases he
      · next H1 h1 =>
        have hc : Counted H1 := by
          split at h1
          · cases h1; exact h
          · split at h1
            · cases h1
            · next hc => cases h1; exact h.cloneWaker hc
        split at he
        · cases he
        · next b1 hb1 =>
          have h2 : Counted (H1.set s.inner (some { { b1 with awake := List.replicate b1.awake.length false, awakeLen := 0 } with parent := w })) := by
            apply hc.set
            simp [List.count_replicate]
          split at he
          · cases he; exact h2
          · exact h2.dropWaker he

theorem Counted.step {s s' : State} {op : Op} (h : Counted s.heap) (he : step s op = some (.ok s')) :
    Counted s'.heap := by
  cases op with
  | new n =>
    simp only [Wakers.step] at he
    split at he
    · cases he
    · next H x hn =>
      cases he
      simp only [newSet] at hn
      split at hn
      · cases hn
      · next hw =>
        cases hn
        refine Counted.wakersFrom _ _ ?_ hw
        intro c b hc
        rw [List.getElem?_append] at hc
        split at hc
        · exact h c b hc
        · rw [List.getElem?_singleton] at hc
          split at hc
          · cases hc; simp
          · cases hc
  | clone src =>
    simp only [Wakers.step] at he
    split at he
    · cases he
    · split at he
      · cases he
      · next hc => cases he; exact h.cloneWaker hc
  | wakeByRef src =>
    simp only [Wakers.step] at he
    split at he
    · cases he
    · split at he
      · cases he
      · next hc => cases he; exact h.wakeByRef hc
  | wake w =>
    simp only [Wakers.step] at he
    split at he
    · cases he
    · split at he
      · cases he
      · next hc =>
        cases he
        simp only [wake] at hc
        split at hc
        · cases hc
        · next h1 => exact (h.wakeByRef h1).dropWaker hc
  | drop w =>
    simp only [Wakers.step] at he
    split at he
    · cases he
    · split at he
      · cases he
      · next hc => cases he; exact h.dropWaker hc
  | poll c w =>
    simp only [Wakers.step] at he
    split at he
    · cases he
    · split at he
      · cases he
      · next hc => cases he; exact h.pollSet hc
    · split at he
      · cases he
      · split at he
        · cases he
        · next hc => cases he; exact h.pollSet hc
  | dropSet c =>
    simp only [Wakers.step] at he
    split at he
    · cases he
    · split at he
      · cases he
      · next hc =>
        cases he
        simp only [dropSet] at hc
        split at hc
        · cases hc
        · next h1 => exact Counted.arcDrop _ (Counted.dropWakers _ h h1) hc

/-- At any time, for every combinator whose memory is still allocated, the number of woken subfutures that is kept is
the number of subfutures that are marked as woken. -/
theorem woken_counted {ops : List Op} {s : State} (h : Run ops s) (c : Nat) (b : Block)
    (hb : s.heap[c]? = some (some b)) : b.awakeLen = b.awake.count true := by
  have : Counted s.heap := by
    clear hb
    induction h with
    | nil => intro c b hc; simp [init] at hc
    | cons _ hs ih => exact ih.step hs
  exact this c b hb

/-- Two subfutures, both marked; a poll clears them; one is woken, twice. -/
example : ∃ s b, Run [.wakeByRef (.own 0 1), .wakeByRef (.own 0 1), .poll 0 none, .new 2] s ∧
    s.heap[0]? = some (some b) ∧ b.awakeLen = 1 ∧ b.awake = [false, true] :=
  ⟨_, _, .cons (.cons (.cons (.cons .nil rfl) rfl) rfl) rfl, rfl, rfl, rfl⟩

end Verif.Wakers
