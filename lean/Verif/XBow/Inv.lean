import Verif.XBow.Steps
/-!
# Invariant of the subscriptions
-/
namespace Verif.XBow

def slotsOfOpt : Option Listener → List (Key × Nat)
  | some l => l.slots
  | none => []

def own (s : Sys) : List (Key × Nat) := s.listeners.flatMap slotsOfOpt

structure WF (s : Sys) (A : Abs) : Prop where
  sim : Sim s.wakers A
  ok : Ok A
  /-- every slot belongs to exactly one listener -/
  count : ∀ y, (own s).count y = (pairs A).count y
  lst : ∀ (i : Nat) (l : Listener), s.listeners[i]? = some (some l) → l.slots ≠ []

theorem split_get {α : Type} {l : List α} {i : Nat} {a : α} (h : l[i]? = some a) :
    ∃ l1 l2, l = l1 ++ a :: l2 ∧ l1.length = i ∧ ∀ b, l.set i b = l1 ++ b :: l2 := by
  induction l generalizing i with
  | nil => simp at h
  | cons x l ih =>
    cases i with
    | zero => simp at h; subst h; exact ⟨[], l, rfl, rfl, fun _ => rfl⟩
    | succ i =>
      simp at h
      obtain ⟨l1, l2, e, hl, hs⟩ := ih h
      exact ⟨x :: l1, l2, by rw [e]; rfl, by simp [hl], fun b => by simp [hs]⟩

theorem own_split {s : Sys} {i : Nat} {l : Listener} (h : s.listeners[i]? = some (some l)) :
    ∃ L1 L2, own s = L1 ++ (l.slots ++ L2) ∧
      ∀ st o, own ⟨st, s.listeners.set i o⟩ = L1 ++ (slotsOfOpt o ++ L2) := by
  obtain ⟨l1, l2, e, _, hs⟩ := split_get h
  refine ⟨l1.flatMap slotsOfOpt, l2.flatMap slotsOfOpt, ?_, ?_⟩
  · simp [own, e, slotsOfOpt]
  · intro st o; simp [own, hs]

variable {s : Sys} {A : Abs}

theorem WF.perm (h : WF s A) : (own s).Perm (pairs A) := List.perm_iff_count.2 h.count

theorem WF.nodup (h : WF s A) : ((own s).map (·.2)).Nodup := by
  rw [(h.perm.map (·.2)).nodup_iff, pairs_snd]; exact h.sim.slots

theorem WF.mem (h : WF s A) {i : Nat} {l : Listener} (hl : s.listeners[i]? = some (some l)) :
    ∀ y ∈ l.slots, y ∈ pairs A := by
  obtain ⟨L1, L2, e, _⟩ := own_split hl
  intro y hy
  rw [← h.perm.mem_iff, e]; simp [hy]

theorem WF.slotsNodup (h : WF s A) {i : Nat} {l : Listener} (hl : s.listeners[i]? = some (some l)) :
    (l.slots.map (·.2)).Nodup := by
  obtain ⟨L1, L2, e, _⟩ := own_split hl
  have := h.nodup
  rw [e] at this
  simp only [List.map_append, List.nodup_append] at this
  exact this.2.1.1

theorem WF.disjoint (h : WF s A) {i j : Nat} {l m : Listener} (hl : s.listeners[i]? = some (some l))
    (hm : s.listeners[j]? = some (some m)) (hne : i ≠ j) : ∀ y ∈ m.slots, y.2 ∉ l.slots.map (·.2) := by
  obtain ⟨L1, L2, e, hs⟩ := own_split hl
  have hn := h.nodup
  rw [e] at hn
  have hm' : (s.listeners.set i none)[j]? = some (some m) := by rw [List.getElem?_set_ne hne]; exact hm
  obtain ⟨M1, M2, e', _⟩ := own_split (s := ⟨s.wakers, s.listeners.set i none⟩) hm'
  rw [hs] at e'
  intro y hy hx
  have hmem : y ∈ L1 ++ L2 := by
    have : y ∈ L1 ++ (slotsOfOpt none ++ L2) := by rw [e']; simp [hy]
    simpa [slotsOfOpt] using this
  simp only [List.map_append, List.nodup_append, List.mem_append] at hn
  rcases List.mem_append.1 hmem with h1 | h2
  · exact hn.2.2 _ (List.mem_map_of_mem h1) _ (.inl hx) rfl
  · exact hn.2.1.2.2 _ hx _ (List.mem_map_of_mem h2) rfl

/-- The keys that an operation wakes. -/
def Op.keys (hash : Path → BitVec 64) : Op → List Key
  | .change p => (visited p).map (bubblingKey hash) ++ [regularKey hash p]
  | _ => []

/-- The operation polls or drops listener `i`. -/
def Op.touches (i : Nat) : Op → Bool
  | .poll j _ => j == i
  | .drop j => j == i
  | _ => false

/-- The operation is on a listener that exists. -/
def allowed (s : Sys) : Op → Prop
  | .poll i _ => ∃ l, s.listeners[i]? = some (some l)
  | .drop i => ∃ l, s.listeners[i]? = some (some l)
  | _ => True

/-- A listener that is not touched stays as it is, and each of its slots sees the wake-ups of its
key. -/
def Untouched (hash : Path → BitVec 64) (s : Sys) (A : Abs) (op : Op) (o : Out) (s' : Sys) (A' : Abs) :
    Prop :=
  ∀ (i : Nat) (l : Listener), op.touches i = false → s.listeners[i]? = some (some l) →
    s'.listeners[i]? = some (some l) ∧
    ∀ y ∈ l.slots, ∀ w v, Has A y.1 y.2 w v →
      Has A' y.1 y.2 w (v + (op.keys hash).count y.1) ∧
      (y.1 ∈ op.keys hash → ∃ ws, o = .woken ws ∧ w ∈ ws)

def Detail (hash : Path → BitVec 64) (s : Sys) (A : Abs) (s' : Sys) (A' : Abs) (o : Out) : Op → Prop
  | .listen p => ∃ l, s'.listeners = s.listeners ++ [some l] ∧ l.lastVersion = 0 ∧
      l.slots.map (·.1) = (visited p).map (regularKey hash)
  | .listenBubbling p => ∃ l, s'.listeners = s.listeners ++ [some l] ∧ l.lastVersion = 0 ∧
      l.slots.map (·.1) = [bubblingKey hash p]
  | .poll i w => ∃ l, s.listeners[i]? = some (some l) ∧
      s'.listeners = s.listeners.set i (some ⟨sumVer A l.slots, l.slots⟩) ∧
      o = .polled (decide (1 ≤ l.lastVersion) && decide (l.lastVersion ≠ sumVer A l.slots)) ∧
      (∀ k, ver A' k = ver A k) ∧ ∀ y ∈ l.slots, ∃ v, Has A' y.1 y.2 w v
  | .drop i => s'.listeners = s.listeners.set i none
  | .change _ => s'.listeners = s.listeners

theorem visited_ne_nil (p : Path) : visited p ≠ [] := by cases p <;> simp [visited]

theorem subscribe_wf {hash : Path → BitVec 64} (h : WF s A) (ks : List Key) (hks : ks ≠ []) (op : Op)
    (hk : op.keys hash = []) : ∃ st' slots A', subscribe s.wakers ks = some (st', slots) ∧
      WF ⟨st', s.listeners ++ [some ⟨0, slots⟩]⟩ A' ∧
      Untouched hash s A op .unit ⟨st', s.listeners ++ [some ⟨0, slots⟩]⟩ A' ∧ slots.map (·.1) = ks := by
  obtain ⟨st', A', slots, e, hs, hok, hm, hc, hp⟩ := subscribe_ok ks h.sim h.ok
  refine ⟨st', slots, A', e, ⟨hs, hok, ?_, ?_⟩, ?_, hm⟩
  · intro y
    rw [hc, ← h.count]
    simp [own, slotsOfOpt]
  · intro i l hl
    rw [List.getElem?_append] at hl
    split at hl
    · exact h.lst i l hl
    · rw [List.getElem?_singleton] at hl
      split at hl
      · cases hl
        simp only
        intro e0
        rw [e0] at hm
        exact hks hm.symm
      · cases hl
  · intro i l _ hl
    have hlt : i < s.listeners.length := (List.getElem?_eq_some_iff.1 hl).1
    refine ⟨by rw [List.getElem?_append_left hlt]; exact hl, ?_⟩
    intro y hy w v hh
    refine ⟨?_, by simp [hk]⟩
    rw [hk]; simpa using hp _ _ _ _ hh

theorem step_wf {hash : Path → BitVec 64} (h : WF s A) (op : Op) (ha : allowed s op) :
    ∃ s' o A', step hash s op = some (s', o) ∧ WF s' A' ∧ Untouched hash s A op o s' A' ∧
      Detail hash s A s' A' o op := by
  cases op with
  | listen p =>
    obtain ⟨st', slots, A', e, hw, hu, hm⟩ := subscribe_wf (hash := hash) h
      ((visited p).map (regularKey hash)) (by simp [visited_ne_nil]) (.listen p) rfl
    exact ⟨_, _, A', by simp only [step, untilChange, e, bind, Option.bind]; rfl, hw, hu, _, rfl, rfl, hm⟩
  | listenBubbling p =>
    obtain ⟨st', slots, A', e, hw, hu, hm⟩ := subscribe_wf (hash := hash) h
      [bubblingKey hash p] (by simp) (.listenBubbling p) rfl
    exact ⟨_, _, A', by simp only [step, untilBubblingChange, e, bind, Option.bind]; rfl, hw, hu, _, rfl, rfl, hm⟩
  | change p =>
    obtain ⟨st', A', ws, e, hs, hok, hp, hh⟩ := wakeKeys_ok (Op.keys hash (.change p)) h.sim h.ok
    refine ⟨⟨st', s.listeners⟩, .woken ws, A', ?_, ⟨hs, hok, ?_, h.lst⟩, ?_, rfl⟩
    · simp only [Op.keys] at e
      simp only [step, notify, e, bind, Option.bind]; rfl
    · intro y; rw [hp]; exact h.count y
    · intro i l _ hl
      refine ⟨hl, ?_⟩
      intro y hy w v hv
      obtain ⟨g1, g2⟩ := hh _ _ _ _ hv
      exact ⟨g1, fun hm => ⟨ws, rfl, g2 hm⟩⟩
  | poll i w =>
    obtain ⟨l, hl⟩ := ha
    obtain ⟨st', A', e, hs, hok, hp, hv, hn, hy⟩ := pollSlots_ok w l.slots 0 h.sim h.ok (h.mem hl) (h.slotsNodup hl)
    rw [Nat.zero_add] at e
    obtain ⟨L1, L2, eo, hso⟩ := own_split hl
    refine ⟨⟨st', s.listeners.set i (some ⟨sumVer A l.slots, l.slots⟩)⟩, _, A', ?_, ⟨hs, hok, ?_, ?_⟩, ?_,
      l, hl, rfl, rfl, hv, ?_⟩
    · simp only [step, hl, pollNext, e, bind, Option.bind]; rfl
    · intro y; rw [hso, hp, ← h.count, eo]; rfl
    · intro j m hm
      by_cases hij : i = j
      · subst hij
        rw [List.getElem?_set_self (List.getElem?_eq_some_iff.1 hl).1] at hm
        cases hm
        exact h.lst i l hl
      · rw [List.getElem?_set_ne hij] at hm; exact h.lst j m hm
    · intro j m ht hm
      have hij : i ≠ j := by simpa [Op.touches] using ht
      refine ⟨by rw [List.getElem?_set_ne hij]; exact hm, ?_⟩
      intro y hy w' v hh
      refine ⟨?_, by simp [Op.keys]⟩
      simpa [Op.keys] using hn _ _ _ _ (h.disjoint hl hm hij y hy) hh
    · intro y hy'
      obtain ⟨w0, v0, hh⟩ := mem_pairs.1 (h.mem hl y hy')
      exact ⟨v0, hy y hy' _ _ hh⟩
  | drop i =>
    obtain ⟨l, hl⟩ := ha
    obtain ⟨st', A', e, hs, hok, hc, hn⟩ := dropSlots_ok l.slots h.sim h.ok (h.mem hl) (h.slotsNodup hl)
    obtain ⟨L1, L2, eo, hso⟩ := own_split hl
    refine ⟨⟨st', s.listeners.set i none⟩, .unit, A', ?_, ⟨hs, hok, ?_, ?_⟩, ?_, rfl⟩
    · simp only [step, hl, e, bind, Option.bind]; rfl
    · intro y
      have h1 := hc y
      have h2 := h.count y
      rw [eo] at h2
      rw [hso]
      simp only [List.count_append, slotsOfOpt, List.count_nil] at h2 ⊢
      omega
    · intro j m hm
      by_cases hij : i = j
      · subst hij
        rw [List.getElem?_set_self (List.getElem?_eq_some_iff.1 hl).1] at hm
        cases hm
      · rw [List.getElem?_set_ne hij] at hm; exact h.lst j m hm
    · intro j m ht hm
      have hij : i ≠ j := by simpa [Op.touches] using ht
      refine ⟨by rw [List.getElem?_set_ne hij]; exact hm, ?_⟩
      intro y hy w' v hh
      refine ⟨?_, by simp [Op.keys]⟩
      simpa [Op.keys] using hn _ _ _ _ (h.disjoint hl hm hij y hy) hh

theorem init_wf : WF init [] := ⟨Sim.init, by simp [Ok], by simp [own, pairs, init], by simp [init]⟩

theorem allowed_of_step {hash : Path → BitVec 64} {op : Op} {s' : Sys} {o : Out}
    (e : step hash s op = some (s', o)) : allowed s op := by
  cases op with
  | listen p => trivial
  | listenBubbling p => trivial
  | change p => trivial
  | poll i w =>
    simp only [step] at e
    split at e
    · rename_i l hl; exact ⟨l, hl⟩
    · cases e
  | drop i =>
    simp only [step] at e
    split at e
    · rename_i l hl; exact ⟨l, hl⟩
    · cases e

/-- Every step of a run comes with the invariant. -/
theorem step_inv {hash : Path → BitVec 64} {op : Op} {s' : Sys} {o : Out} (h : WF s A)
    (e : step hash s op = some (s', o)) :
    ∃ A', WF s' A' ∧ Untouched hash s A op o s' A' ∧ Detail hash s A s' A' o op := by
  obtain ⟨s1, o1, A', e1, h1, h2, h3⟩ := step_wf h op (allowed_of_step e)
  rw [e] at e1; cases e1
  exact ⟨A', h1, h2, h3⟩

theorem run_inv {hash : Path → BitVec 64} {s s' : Sys} {h : List (Op × Out)} (hr : Run hash s h s') :
    ∀ A, WF s A → ∃ A', WF s' A' := by
  induction hr with
  | nil s => exact fun A hw => ⟨A, hw⟩
  | cons e _ ih =>
    intro A hw
    obtain ⟨A1, hw1, _⟩ := step_inv hw e
    exact ih A1 hw1

/-- A listener keeps its slots as long as it exists. -/
theorem run_slots {hash : Path → BitVec 64} {s s' : Sys} {h : List (Op × Out)} (hr : Run hash s h s') :
    ∀ A (i : Nat) (o : Option Listener), WF s A → s.listeners[i]? = some o →
      ∃ o', s'.listeners[i]? = some o' ∧ ∀ l', o' = some l' → ∃ l, o = some l ∧ l'.slots = l.slots := by
  induction hr with
  | nil s => intro A i o _ ho; exact ⟨o, ho, fun l' e => ⟨l', e, rfl⟩⟩
  | cons e _ ih =>
    rename_i s op out s1 h s2 _
    intro A i o hw ho
    obtain ⟨A1, hw1, _, hd⟩ := step_inv hw e
    have hlt : i < s.listeners.length := (List.getElem?_eq_some_iff.1 ho).1
    have h1 : ∃ o1, s1.listeners[i]? = some o1 ∧ ∀ l', o1 = some l' → ∃ l, o = some l ∧ l'.slots = l.slots := by
      cases op with
      | listen p =>
        obtain ⟨l, hl, _⟩ := hd
        exact ⟨o, by rw [hl, List.getElem?_append_left hlt]; exact ho, fun l' e => ⟨l', e, rfl⟩⟩
      | listenBubbling p =>
        obtain ⟨l, hl, _⟩ := hd
        exact ⟨o, by rw [hl, List.getElem?_append_left hlt]; exact ho, fun l' e => ⟨l', e, rfl⟩⟩
      | change p =>
        have hd' : s1.listeners = s.listeners := hd
        exact ⟨o, by rw [hd']; exact ho, fun l' e => ⟨l', e, rfl⟩⟩
      | poll j w =>
        obtain ⟨l, hl, hset, _⟩ := hd
        rw [hset]
        by_cases hij : j = i
        · subst hij
          rw [ho] at hl; cases hl
          exact ⟨_, List.getElem?_set_self hlt, fun l' e => by cases e; exact ⟨l, rfl, rfl⟩⟩
        · exact ⟨o, by rw [List.getElem?_set_ne hij]; exact ho, fun l' e => ⟨l', e, rfl⟩⟩
      | drop j =>
        have hd' : s1.listeners = s.listeners.set j none := hd
        rw [hd']
        by_cases hij : j = i
        · subst hij
          exact ⟨none, List.getElem?_set_self hlt, fun l' e => by cases e⟩
        · exact ⟨o, by rw [List.getElem?_set_ne hij]; exact ho, fun l' e => ⟨l', e, rfl⟩⟩
    obtain ⟨o1, ho1, hl1⟩ := h1
    obtain ⟨o2, ho2, hl2⟩ := ih A1 i o1 hw1 ho1
    refine ⟨o2, ho2, ?_⟩
    intro l' e'
    obtain ⟨l1, e1, hs1⟩ := hl2 l' e'
    obtain ⟨l0, e0, hs0⟩ := hl1 l1 e1
    exact ⟨l0, e0, hs1.trans hs0⟩

/-- Number of wake-ups of a list of slots by a history. -/
def hits (hash : Path → BitVec 64) (h : List (Op × Out)) (slots : List (Key × Nat)) : Nat :=
  (h.map fun e => (slots.map fun y => (e.1.keys hash).count y.1).sum).sum

theorem sum_add {α : Type} (l : List α) (f g : α → Nat) :
    (l.map fun x => f x + g x).sum = (l.map f).sum + (l.map g).sum := by
  induction l with
  | nil => rfl
  | cons a l ih => simp only [List.map_cons, List.sum_cons, ih]; omega

/-- Between two polls: the listener stays as it is, its slots hold the waker and the versions grow by
the number of hits. -/
theorem run_same {hash : Path → BitVec 64} {s s' : Sys} {h : List (Op × Out)} (hr : Run hash s h s') :
    ∀ A (i : Nat) (l : Listener) (w : Waker), WF s A → s.listeners[i]? = some (some l) →
      (∀ y ∈ l.slots, ∃ v, Has A y.1 y.2 w v) → (∀ e ∈ h, e.1.touches i = false) →
      ∃ A', WF s' A' ∧ s'.listeners[i]? = some (some l) ∧ (∀ y ∈ l.slots, ∃ v, Has A' y.1 y.2 w v) ∧
        sumVer A' l.slots = sumVer A l.slots + hits hash h l.slots := by
  induction hr with
  | nil s => intro A i l w hw hl hh _; exact ⟨A, hw, hl, hh, by simp [hits]⟩
  | cons e _ ih =>
    rename_i s op out s1 h s2 _
    intro A i l w hw hl hh ht
    obtain ⟨A1, hw1, hu, _⟩ := step_inv hw e
    obtain ⟨hl1, hy⟩ := hu i l (ht _ List.mem_cons_self) hl
    obtain ⟨A2, hw2, hl2, hh2, hs⟩ := ih A1 i l w hw1 hl1 (fun y hym => by
      obtain ⟨v, hv⟩ := hh y hym
      exact ⟨_, (hy y hym w v hv).1⟩) (fun e he => ht e (List.mem_cons_of_mem _ he))
    refine ⟨A2, hw2, hl2, hh2, ?_⟩
    have h1 : sumVer A1 l.slots = sumVer A l.slots + (l.slots.map fun y => (op.keys hash).count y.1).sum := by
      simp only [sumVer]
      rw [← sum_add]
      congr 1
      apply List.map_congr_left
      intro y hym
      obtain ⟨v, hv⟩ := hh y hym
      rw [(hy y hym w v hv).1.ver hw1.sim.keys, hv.ver hw.sim.keys]
    rw [hs, h1]
    simp only [hits, List.map_cons, List.sum_cons]
    omega

theorem sum_pos {α : Type} (l : List α) (f : α → Nat) : 0 < (l.map f).sum ↔ ∃ x ∈ l, 0 < f x := by
  induction l with
  | nil => simp
  | cons a l ih => simp only [List.map_cons, List.sum_cons, List.mem_cons, exists_eq_or_imp, ← ih]; omega

theorem hits_pos {hash : Path → BitVec 64} {h : List (Op × Out)} {slots : List (Key × Nat)} :
    0 < hits hash h slots ↔ ∃ e ∈ h, ∃ k ∈ slots.map (·.1), k ∈ e.1.keys hash := by
  simp only [hits, sum_pos, List.count_pos_iff]
  constructor
  · rintro ⟨e, he, y, hy, hm⟩; exact ⟨e, he, y.1, List.mem_map_of_mem hy, hm⟩
  · rintro ⟨e, he, k, hk, hm⟩
    obtain ⟨y, hy, rfl⟩ := List.mem_map.1 hk
    exact ⟨e, he, y, hy, hm⟩

theorem sumVer_pos (h : WF s A) {i : Nat} {l : Listener} (hl : s.listeners[i]? = some (some l)) :
    1 ≤ sumVer A l.slots := by
  have hne := h.lst i l hl
  simp only [sumVer]
  apply (sum_pos _ _).2
  obtain ⟨y, hy⟩ := List.exists_mem_of_ne_nil _ hne
  obtain ⟨w, v, hh⟩ := mem_pairs.1 (h.mem hl y hy)
  refine ⟨y, hy, ?_⟩
  rw [hh.ver h.sim.keys]
  obtain ⟨r, hr, _, hv, _⟩ := hh
  have := (h.ok r hr).2
  omega

end Verif.XBow
