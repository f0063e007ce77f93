import Verif.XBow.Abs
/-!
# The composite operations, on rows
-/
namespace Verif.XBow

/-- Slots with their keys. -/
def pairs (A : Abs) : List (Key × Nat) := A.flatMap fun r => r.slots.map fun y => (r.key, y.1)

/-- Every row is in use and its version is positive. -/
def Ok (A : Abs) : Prop := ∀ r ∈ A, r.slots ≠ [] ∧ 1 ≤ r.version

/-- The version of a key. -/
def ver (A : Abs) (k : Key) : Nat :=
  match A.find? fun r => decide (r.key = k) with
  | some r => r.version
  | none => 0

/-- The sum of versions a listener computes. -/
def sumVer (A : Abs) (slots : List (Key × Nat)) : Nat := (slots.map fun y => ver A y.1).sum

variable {st : StoreWakers} {A : Abs}

theorem ver_of_mem (hk : (A.map (·.key)).Nodup) {r : Row} (hr : r ∈ A) : ver A r.key = r.version := by
  induction A with
  | nil => cases hr
  | cons a A ih =>
    simp only [List.map_cons, List.nodup_cons] at hk
    rcases List.mem_cons.1 hr with rfl | hr'
    · simp [ver]
    · have hne : a.key ≠ r.key := fun e => hk.1 (by rw [e]; exact List.mem_map_of_mem hr')
      have := ih hk.2 hr'
      simp only [ver] at this ⊢
      rw [List.find?_cons_of_neg (by simpa using hne)]
      exact this

theorem Has.ver (hk : (A.map (·.key)).Nodup) {k : Key} {x : Nat} {w : Waker} {v : Nat}
    (h : Has A k x w v) : ver A k = v := by
  obtain ⟨r, hr, h1, h2, _⟩ := h
  rw [← h1, ← h2]; exact ver_of_mem hk hr

theorem mem_pairs {k : Key} {x : Nat} : (k, x) ∈ pairs A ↔ ∃ w v, Has A k x w v := by
  simp only [pairs, List.mem_flatMap, List.mem_map, Prod.mk.injEq]
  constructor
  · rintro ⟨r, hr, ⟨x', w⟩, hy, rfl, rfl⟩
    exact ⟨w, r.version, r, hr, rfl, rfl, hy⟩
  · rintro ⟨w, v, r, hr, rfl, rfl, hy⟩
    exact ⟨r, hr, _, hy, rfl, rfl⟩

theorem pairs_snd (A : Abs) : (pairs A).map (·.2) = slotsOf A := by
  simp only [pairs, slotsOf, List.map_flatMap, List.map_map, Function.comp_def]

theorem pair_unique (h : Sim st A) {k k' : Key} {x : Nat} (h1 : (k, x) ∈ pairs A)
    (h2 : (k', x) ∈ pairs A) : k = k' := by
  have := inj_of_nodup_map (by rw [pairs_snd]; exact h.slots) h1 h2 rfl
  simpa using this

theorem pairs_count_le (h : Sim st A) (y : Key × Nat) : (pairs A).count y ≤ 1 := by
  have : (pairs A).Nodup := List.Pairwise.of_map (S := fun a b => a ≠ b) (·.2)
    (fun a b hab e => hab (by rw [e])) (by rw [pairs_snd]; exact h.slots)
  exact List.nodup_iff_count.1 this y

/-! ## one slot -/

theorem addTo_pairs {k : Key} {x : Nat} (hk : (A.map (·.key)).Nodup) (h : ∃ r ∈ A, r.key = k)
    (y : Key × Nat) : (pairs (addTo A k x)).count y = (pairs A).count y + [(k, x)].count y := by
  induction A with
  | nil => obtain ⟨r, hr, _⟩ := h; cases hr
  | cons a A ih =>
    simp only [List.map_cons, List.nodup_cons] at hk
    simp only [addTo, pairs, List.map_cons, List.flatMap_cons, List.count_append] at ih ⊢
    by_cases ha : a.key = k
    · rw [if_pos ha]
      have hrest : (A.map fun r => if r.key = k then ⟨r.key, r.list, r.version, r.slots ++ [(x, none)]⟩ else r) = A := by
        apply Arena.map_id_of
        intro r hr
        rw [if_neg]
        intro e
        exact hk.1 (by rw [ha, ← e]; exact List.mem_map_of_mem hr)
      rw [hrest]
      simp only [List.map_append, List.map_cons, List.map_nil, List.count_append, ha]
      omega
    · rw [if_neg ha]
      obtain ⟨r, hr, e⟩ := h
      rcases List.mem_cons.1 hr with rfl | hr'
      · exact (ha e).elim
      · rw [ih hk.2 ⟨r, hr', e⟩]; omega

theorem addWakerSlot_ok (h : Sim st A) (hok : Ok A) (k : Key) :
    ∃ st' A' x, addWakerSlot st k = some (st', x) ∧ Sim st' A' ∧ Ok A' ∧
      (∀ y, (pairs A').count y = (pairs A).count y + [(k, x)].count y) ∧
      (∀ k' x' w v, Has A k' x' w v → Has A' k' x' w v) := by
  have okAdd : ∀ B : Abs, (∀ r ∈ B, r.key ≠ k → r.slots ≠ []) → (∀ r ∈ B, 1 ≤ r.version) →
      ∀ x, Ok (addTo B k x) := by
    intro B h1 h2 x r hr
    obtain ⟨r0, hr0, rfl⟩ := List.mem_map.1 hr
    by_cases hk : r0.key = k
    · rw [if_pos hk]; exact ⟨by simp, h2 r0 hr0⟩
    · rw [if_neg hk]; exact ⟨h1 r0 hr0 hk, h2 r0 hr0⟩
  by_cases hk : ∃ r ∈ A, r.key = k
  · obtain ⟨r, hr, rfl⟩ := hk
    obtain ⟨a, x, e, hs, hx⟩ := add_some h hr
    refine ⟨_, _, x, by simp only [addWakerSlot, getEntry_some h hr, bind, Option.bind, e]; rfl, hs,
      okAdd A (fun r hr _ => (hok r hr).1) (fun r hr => (hok r hr).2) x,
      addTo_pairs h.keys ⟨r, hr, rfl⟩, fun _ _ _ _ hh => hh.addTo⟩
  · have hk' : ∀ r ∈ A, r.key ≠ k := fun r hr e => hk ⟨r, hr, e⟩
    obtain ⟨st1, l, e1, hs1⟩ := getEntry_none h hk'
    obtain ⟨a, x, e, hs, hx⟩ := add_some hs1 (r := ⟨k, l, 1, []⟩) (by simp)
    refine ⟨_, _, x, by simp only [addWakerSlot, e1, bind, Option.bind, e]; rfl, hs, ?_, ?_,
      fun _ _ _ _ hh => (hh.append _).addTo⟩
    · apply okAdd
      · intro r hr hne
        rcases List.mem_append.1 hr with hr | hr
        · exact (hok r hr).1
        · simp only [List.mem_singleton] at hr; subst hr; exact (hne rfl).elim
      · intro r hr
        rcases List.mem_append.1 hr with hr | hr
        · exact (hok r hr).2
        · simp only [List.mem_singleton] at hr; subst hr; exact Nat.le_refl 1
    · intro y
      rw [addTo_pairs hs1.keys ⟨⟨k, l, 1, []⟩, by simp, rfl⟩]
      simp [pairs]

theorem aset_pairs (A : Abs) (x : Nat) (w : Waker) : pairs (aset A x w) = pairs A := by
  simp only [pairs, aset, List.flatMap_map, List.map_map]
  congr 1
  funext r
  apply List.map_congr_left
  intro y _
  simp only [Function.comp]
  split
  · rename_i h; rw [h]
  · rfl

theorem aset_ok {x : Nat} {w : Waker} (h : Ok A) : Ok (aset A x w) := by
  intro r hr
  obtain ⟨r0, hr0, rfl⟩ := List.mem_map.1 hr
  exact ⟨by simpa using (h r0 hr0).1, (h r0 hr0).2⟩

theorem find_map_key (f : Row → Row) (hf : ∀ r, (f r).key = r.key) (k : Key) :
    ∀ A : Abs, (A.map f).find? (fun r => decide (r.key = k)) = (A.find? fun r => decide (r.key = k)).map f
  | [] => rfl
  | a :: A => by
    simp only [List.map_cons, List.find?_cons, hf]
    split
    · rfl
    · exact find_map_key f hf k A

theorem aset_ver (A : Abs) (x : Nat) (w : Waker) (k : Key) : ver (aset A x w) k = ver A k := by
  simp only [ver, aset]
  rw [find_map_key (fun r => ⟨r.key, r.list, r.version, r.slots.map fun y => if y.1 = x then (x, w) else y⟩)
    (fun r => rfl)]
  cases A.find? fun r => decide (r.key = k) <;> rfl

theorem awake_pairs (A : Abs) (k : Key) : pairs (awake A k) = pairs A := by
  simp only [pairs, awake, List.flatMap_map]
  congr 1
  funext r
  split <;> rfl

theorem awake_ok {k : Key} (h : Ok A) : Ok (awake A k) := by
  intro r hr
  obtain ⟨r0, hr0, rfl⟩ := List.mem_map.1 hr
  have := h r0 hr0
  split
  · exact ⟨this.1, by simp⟩
  · exact this

theorem arem_ok {k : Key} {x : Nat} (h : Ok A) (hs : Sim st A) (hx : (k, x) ∈ pairs A) : Ok (arem A k x) := by
  intro r hr
  obtain ⟨hr1, hr2⟩ := List.mem_filter.1 hr
  obtain ⟨r0, hr0, rfl⟩ := List.mem_map.1 hr1
  refine ⟨?_, (h r0 hr0).2⟩
  simp only at hr2 ⊢
  by_cases hk : r0.key = k
  · simp only [hk, decide_true, Bool.true_and, Bool.not_eq_true', List.isEmpty_eq_false_iff] at hr2
    exact hr2
  · -- another row does not contain the slot
    have : r0.slots.filter (fun y => decide (y.1 ≠ x)) = r0.slots := by
      rw [List.filter_eq_self]
      intro y hy
      simp only [ne_eq, decide_not, Bool.not_eq_true', decide_eq_false_iff_not]
      intro e
      apply hk
      refine pair_unique hs (x := x) ?_ hx
      exact List.mem_flatMap.2 ⟨r0, hr0, List.mem_map.2 ⟨y, hy, by rw [e]⟩⟩
    rw [this]; exact (h r0 hr0).1

theorem arem_pairs {k : Key} {x : Nat} (hs : Sim st A) (hx : (k, x) ∈ pairs A) (y : Key × Nat) :
    (pairs A).count y = (pairs (arem A k x)).count y + [(k, x)].count y := by
  have h1 : pairs (arem A k x) = (pairs A).filter fun y => decide (y.2 ≠ x) := by
    clear hx hs
    induction A with
    | nil => rfl
    | cons a A ih =>
      have e1 : arem (a :: A) k x = (arem [a] k x) ++ arem A k x := by
        simp only [arem, aclear, List.map_cons, ← List.filter_append, List.map_nil, List.singleton_append]
      have e2 : pairs (a :: A) = pairs [a] ++ pairs A := by simp [pairs]
      have e3 : ∀ B C : Abs, pairs (B ++ C) = pairs B ++ pairs C := by intro B C; simp [pairs]
      rw [e1, e3, e2, List.filter_append, ih]
      congr 1
      simp only [arem, aclear, List.map_cons, List.map_nil, pairs, List.flatMap_cons, List.flatMap_nil,
        List.append_nil, List.filter_map, Function.comp_def]
      rw [List.filter_cons]
      split
      · simp
      · rename_i hc
        simp only [Bool.not_eq_true', Bool.and_eq_false_iff, decide_eq_false_iff_not, not_or,
          Classical.not_not, List.isEmpty_eq_false_iff] at hc
        simp only [List.filter_nil, List.flatMap_nil]
        rw [hc.2]; rfl
  rw [h1]
  have hle := pairs_count_le hs y
  by_cases hy : y.2 = x
  · obtain ⟨k', x'⟩ := y
    simp only at hy; subst hy
    have h0 : ((pairs A).filter fun y => decide (y.2 ≠ x')).count (k', x') = 0 := by
      rw [List.count_eq_zero]; simp
    rw [h0]
    by_cases hk : k = k'
    · subst hk
      have := List.count_pos_iff.2 hx
      simp; omega
    · rw [List.count_eq_zero.2 (fun hm => hk (pair_unique hs hx hm))]
      simp [hk]
  · rw [List.count_filter (by simpa using hy)]
    have : [(k, x)].count y = 0 := by
      rw [List.count_eq_zero]; simp only [List.mem_singleton]; intro e; subst e; exact hy rfl
    omega

/-! ## whole operations -/

theorem subscribe_ok : ∀ (ks : List Key) {st : StoreWakers} {A : Abs}, Sim st A → Ok A →
    ∃ st' A' slots, subscribe st ks = some (st', slots) ∧ Sim st' A' ∧ Ok A' ∧
      slots.map (·.1) = ks ∧ (∀ y, (pairs A').count y = (pairs A).count y + slots.count y) ∧
      (∀ k x w v, Has A k x w v → Has A' k x w v)
  | [], st, A, h, hok => ⟨st, A, [], rfl, h, hok, rfl, by simp, fun _ _ _ _ h => h⟩
  | k :: ks, st, A, h, hok => by
    obtain ⟨st1, A1, x, e1, h1, ok1, c1, p1⟩ := addWakerSlot_ok h hok k
    obtain ⟨st2, A2, slots, e2, h2, ok2, m2, c2, p2⟩ := subscribe_ok ks h1 ok1
    refine ⟨st2, A2, (k, x) :: slots, by simp only [subscribe, e1, e2, bind, Option.bind]; rfl, h2, ok2,
      by rw [List.map_cons, m2], ?_, fun _ _ _ _ hh => p2 _ _ _ _ (p1 _ _ _ _ hh)⟩
    intro y
    rw [c2, c1]
    have : ((k, x) :: slots).count y = [(k, x)].count y + slots.count y := by
      rw [← List.count_append]; rfl
    omega

theorem pollSlots_ok (w : Waker) : ∀ (slots : List (Key × Nat)) {st : StoreWakers} {A : Abs} (acc : Nat),
    Sim st A → Ok A → (∀ y ∈ slots, y ∈ pairs A) → (slots.map (·.2)).Nodup →
    ∃ st' A', pollSlots w st slots acc = some (st', acc + sumVer A slots) ∧ Sim st' A' ∧ Ok A' ∧
      pairs A' = pairs A ∧ (∀ k, ver A' k = ver A k) ∧
      (∀ k x w' v, x ∉ slots.map (·.2) → Has A k x w' v → Has A' k x w' v) ∧
      (∀ y ∈ slots, ∀ w' v, Has A y.1 y.2 w' v → Has A' y.1 y.2 w v)
  | [], st, A, acc, h, hok, _, _ =>
    ⟨st, A, rfl, h, hok, rfl, fun _ => rfl, fun _ _ _ _ _ h => h, by simp⟩
  | (k, x) :: slots, st, A, acc, h, hok, hp, hd => by
    simp only [List.map_cons, List.nodup_cons] at hd
    obtain ⟨w0, v0, hh⟩ := mem_pairs.1 (hp (k, x) List.mem_cons_self)
    have hv := hh.ver h.keys
    have hsl := hh.slot
    obtain ⟨r, hr, hrk, hrv, _⟩ := hh
    have eg : getEntry st k = some (st, ⟨r.list, r.version⟩) := by rw [← hrk]; exact getEntry_some h hr
    obtain ⟨a, eu, hs1⟩ := update_ok h hsl w
    obtain ⟨st2, A2, e2, h2, ok2, p2, vr2, n2, y2⟩ := pollSlots_ok w slots (acc + r.version) hs1
      (aset_ok hok) (fun y hy => by rw [aset_pairs]; exact hp y (List.mem_cons_of_mem _ hy)) hd.2
    refine ⟨st2, A2, ?_, h2, ok2, by rw [p2, aset_pairs], fun k => by rw [vr2, aset_ver], ?_, ?_⟩
    · simp only [pollSlots, eg, eu, bind, Option.bind, e2]
      congr 2
      simp only [sumVer, List.map_cons, List.sum_cons, aset_ver]
      rw [hv, hrv]; omega
    · intro k' x' w' v hx' h'
      simp only [List.map_cons, List.mem_cons, not_or] at hx'
      exact n2 _ _ _ _ hx'.2 (h'.aset_ne hx'.1)
    · intro y hy w' v h'
      rcases List.mem_cons.1 hy with rfl | hy'
      · exact n2 _ _ _ _ hd.1 h'.aset_eq
      · have hne : y.2 ≠ x := by
          intro e; apply hd.1; rw [← e]; exact List.mem_map_of_mem hy'
        exact y2 y hy' _ _ (h'.aset_ne hne)

theorem dropSlots_ok : ∀ (slots : List (Key × Nat)) {st : StoreWakers} {A : Abs}, Sim st A → Ok A →
    (∀ y ∈ slots, y ∈ pairs A) → (slots.map (·.2)).Nodup →
    ∃ st' A', dropSlots st slots = some st' ∧ Sim st' A' ∧ Ok A' ∧
      (∀ y, (pairs A).count y = (pairs A').count y + slots.count y) ∧
      (∀ k x w v, x ∉ slots.map (·.2) → Has A k x w v → Has A' k x w v)
  | [], st, A, h, hok, _, _ => ⟨st, A, rfl, h, hok, by simp, fun _ _ _ _ _ h => h⟩
  | (k, x) :: slots, st, A, h, hok, hp, hd => by
    simp only [List.map_cons, List.nodup_cons] at hd
    have hx := hp (k, x) List.mem_cons_self
    obtain ⟨w0, v0, hh⟩ := mem_pairs.1 hx
    have hsl := hh.slot
    obtain ⟨r, hr, hrk, hrv, _⟩ := hh
    obtain ⟨st1, e1, h1⟩ := removeWakerSlot_ok h hr hsl
    rw [hrk] at e1 h1
    have c1 := arem_pairs h hx
    obtain ⟨st2, A2, e2, h2, ok2, c2, p2⟩ := dropSlots_ok slots h1 (arem_ok hok h hx) (by
      intro y hy
      have hc := List.count_pos_iff.2 (hp y (List.mem_cons_of_mem _ hy))
      have h0 : [(k, x)].count y = 0 := by
        rw [List.count_eq_zero]; simp only [List.mem_singleton]; intro e; subst e
        exact hd.1 (List.mem_map_of_mem (f := fun x => x.2) hy)
      have := c1 y
      exact List.count_pos_iff.1 (by omega)) hd.2
    refine ⟨st2, A2, by simp only [dropSlots, e1, e2, bind, Option.bind], h2, ok2, ?_, ?_⟩
    · intro y
      have : ((k, x) :: slots).count y = [(k, x)].count y + slots.count y := by
        rw [← List.count_append]; rfl
      rw [c1 y, c2 y]; omega
    · intro k' x' w v hx' h'
      simp only [List.map_cons, List.mem_cons, not_or] at hx'
      exact p2 _ _ _ _ hx'.2 (h'.arem hx'.1)

theorem wakeKeys_ok : ∀ (ks : List Key) {st : StoreWakers} {A : Abs}, Sim st A → Ok A →
    ∃ st' A' ws, wakeKeys st ks = some (st', ws) ∧ Sim st' A' ∧ Ok A' ∧ pairs A' = pairs A ∧
      (∀ k x w v, Has A k x w v → Has A' k x w (v + ks.count k) ∧ (k ∈ ks → w ∈ ws))
  | [], st, A, h, hok => ⟨st, A, [], rfl, h, hok, rfl, fun _ _ _ _ h => ⟨by simpa using h, by simp⟩⟩
  | k :: ks, st, A, h, hok => by
    obtain ⟨st1, ws1, e1, h1, w1⟩ := wakeEntry_ok h k
    obtain ⟨st2, A2, ws2, e2, h2, ok2, p2, q2⟩ := wakeKeys_ok ks h1 (awake_ok hok)
    refine ⟨st2, A2, ws1 ++ ws2, by simp only [wakeKeys, e1, e2, bind, Option.bind]; rfl, h2, ok2,
      by rw [p2, awake_pairs], ?_⟩
    intro k' x w v hh
    obtain ⟨g1, g2⟩ := q2 _ _ _ _ (hh.awake (k' := k))
    refine ⟨?_, ?_⟩
    · have : v + (k :: ks).count k' = (v + if k' = k then 1 else 0) + ks.count k' := by
        rw [List.count_cons]
        by_cases e : k' = k
        · subst e; simp; omega
        · have : (k == k') = false := by simpa using fun e' => e e'.symm
          simp [e, this]
      rw [this]; exact g1
    · intro hm
      rcases List.mem_cons.1 hm with rfl | hm
      · obtain ⟨r, hr, hk, _, hx⟩ := hh
        exact List.mem_append_left _ (w1 r hr hk _ hx)
      · exact List.mem_append_right _ (g2 hm)

end Verif.XBow
