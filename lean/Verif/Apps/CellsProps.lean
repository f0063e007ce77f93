import Verif.Apps.Cells
/-!
# C61: the spreadsheet

`cells_idle_partial`: when nothing is left to do, every cell shows its formula. `cells_settle`: this comes about after
finitely many rounds if no cells depend on each other in a circle. `cells_circle_restless`: otherwise it never does.
`cells_self_wrong`: a formula that contains its own cell is not computed right.
-/
namespace Verif.Cells

variable {V : Type}

/-! ## the cells of a range -/

/-- **C61.** The cells of a formula are those in the rectangle, each once. -/
theorem cells_range (f t : CellIndex) :
    (cellsOf f t).Nodup ∧ ∀ i, i ∈ cellsOf f t ↔ (f.col ≤ i.col ∧ i.col ≤ t.col) ∧ f.row ≤ i.row ∧ i.row ≤ t.row := by
  constructor
  · unfold cellsOf List.Nodup
    rw [List.pairwise_flatMap]
    constructor
    · intro col _
      rw [List.pairwise_map]
      refine List.Pairwise.imp ?_ (List.nodup_range' (step := 1) (by omega))
      intro a b hab e
      exact hab (by simpa using e)
    · refine List.Pairwise.imp ?_ (List.nodup_range' (step := 1) (by omega))
      intro a b hab i hi j hj e
      simp only [List.mem_map] at hi hj
      obtain ⟨_, _, rfl⟩ := hi
      obtain ⟨_, _, rfl⟩ := hj
      exact hab (by simpa using congrArg CellIndex.col e)
  · intro i
    obtain ⟨c, r⟩ := i
    simp only [cellsOf, List.mem_flatMap, List.mem_map, List.mem_range'_1, CellIndex.mk.injEq]
    constructor
    · rintro ⟨col, h1, row, h2, rfl, rfl⟩
      omega
    · intro h
      exact ⟨c, by omega, r, by omega, rfl, rfl⟩

theorem addUp_congr (N : Numbers V) {v v' : Nat → V} (is : List CellIndex) : ∀ out,
    (∀ i ∈ is, v i.at = v' i.at) → addUp N v out is = addUp N v' out is := by
  induction is with
  | nil => intro out _; rfl
  | cons i is ih =>
    intro out h
    simp only [addUp]
    rw [h i (by simp), ih _ fun j hj => h j (by simp [hj])]

theorem compute_congr (N : Numbers V) {v v' : Nat → V} {f : Formula V} (h : ∀ d ∈ deps f, v d = v' d) :
    compute N v f = compute N v' f := by
  cases f with
  | sum f t => exact addUp_congr N _ _ fun i hi => h _ (List.mem_map.2 ⟨i, hi, rfl⟩)
  | literal v => rfl
  | unknown => rfl

/-! ## what every round keeps -/

theorem set_same {α : Type} (f : Nat → α) (c : Nat) (x : α) : set f c x c = x := by simp [set]

theorem set_other {α : Type} (f : Nat → α) {c d : Nat} (x : α) (h : d ≠ c) : set f c x d = f d := by simp [set, h]

/-- `time`: when the task of a cell was last polled. -/
structure Inv (N : Numbers V) (s : Sheet V) (time : Nat → Nat) (now : Nat) : Prop where
  past : ∀ c, time c < now
  seen : ∀ c d, s.started c = true → d ∈ deps (s.formula c) → s.seen c d ≤ s.version d
  shown : ∀ c, s.started c = true → s.shown c = N.text (s.value c)
  value : ∀ c, s.started c = true → c ∉ deps (s.formula c) →
    (∀ d ∈ deps (s.formula c), ¬ s.seen c d < s.version d) → compute N s.value (s.formula c) = some (s.value c)
  order : ∀ c d, s.started c = true → s.started d = true → c ≠ d → time c ≠ time d
  later : ∀ c d, s.started d = true → d ∈ deps (s.formula c) → s.started c = true → time c < time d → s.seen c d < s.version d

theorem inv_init (N : Numbers V) : Inv N (init N) (fun _ => 0) 1 :=
  ⟨fun _ => Nat.zero_lt_one, (fun _ _ h => by cases h), (fun _ h => by cases h), (fun _ h => by cases h),
    (fun _ _ h => by cases h), (fun _ _ h => by cases h)⟩

theorem round_eq {N : Numbers V} {s s' : Sheet V} {c : Nat} (h : round N s c = some s') :
    ∃ v, compute N s.value (target N s c) = some v ∧ capacityOk (target N s c) = true ∧
      s' = { formula := set s.formula c (target N s c), value := set s.value c v, version := set s.version c (s.version c + 1),
             shown := set s.shown c (N.text v), seen := set s.seen c (set s.version c (s.version c + 1)),
             started := set s.started c true, typed := set s.typed c none } := by
  unfold round at h
  simp only [] at h
  split at h
  · cases h
  · rename_i v hv
    split at h
    · rename_i hc
      cases h
      exact ⟨v, hv, hc, rfl⟩
    · cases h

theorem inv_round {N : Numbers V} {s s' : Sheet V} {time : Nat → Nat} {now c : Nat} (h : Inv N s time now)
    (hr : round N s c = some s') : Inv N s' (set time c now) (now + 1) := by
  obtain ⟨v, hv, _, rfl⟩ := round_eq hr
  have hver : ∀ d, s.version d ≤ set s.version c (s.version c + 1) d := by
    intro d
    by_cases hd : d = c
    · subst hd; rw [set_same]; omega
    · rw [set_other _ _ hd]; exact Nat.le_refl _
  constructor
  · intro d
    by_cases hd : d = c
    · subst hd; rw [set_same]; omega
    · rw [set_other _ _ hd]; have := h.past d; omega
  · intro a d ha hd
    simp only [] at ha hd ⊢
    by_cases hac : a = c
    · subst hac; rw [set_same]; exact Nat.le_refl _
    · rw [set_other _ _ hac] at ha hd ⊢
      exact Nat.le_trans (h.seen a d ha hd) (hver d)
  · intro a ha
    simp only [] at ha ⊢
    by_cases hac : a = c
    · subst hac; rw [set_same, set_same]
    · rw [set_other _ _ hac] at ha
      rw [set_other _ _ hac, set_other _ _ hac]
      exact h.shown a ha
  · intro a ha hself hno
    simp only [] at ha hself hno ⊢
    by_cases hac : a = c
    · subst hac
      simp only [set_same] at hself ⊢
      rw [← hv]
      exact compute_congr N fun d hd => set_other _ _ (by rintro rfl; exact hself hd)
    · simp only [set_other _ _ hac] at ha hself hno ⊢
      have hc : c ∉ deps (s.formula a) := by
        intro hm
        have h1 := hno c hm
        have h2 := h.seen a c ha hm
        rw [set_same] at h1
        omega
      rw [← h.value a ha hself]
      · exact compute_congr N fun d hd => set_other _ _ (by rintro rfl; exact hc hd)
      · intro d hd
        have h1 := hno d hd
        rw [set_other _ _ (by rintro rfl; exact hc hd)] at h1
        exact h1
  · intro a b ha hb hab
    simp only [] at ha hb
    by_cases hac : a = c
    · subst hac
      rw [set_same, set_other _ _ (Ne.symm hab)]
      have := h.past b
      omega
    · by_cases hbc : b = c
      · subst hbc
        rw [set_same, set_other _ _ hac]
        have := h.past a
        omega
      · rw [set_other _ _ hac] at ha ⊢
        rw [set_other _ _ hbc] at hb ⊢
        exact h.order a b ha hb hab
  · intro a d hd hm ha ht
    simp only [] at hd hm ha ⊢
    by_cases hac : a = c
    · subst hac
      rw [set_same] at ht
      by_cases hda : d = a
      · subst hda; rw [set_same] at ht; omega
      · rw [set_other _ _ hda] at ht
        have := h.past d
        omega
    · simp only [set_other _ _ hac] at ha hm ht ⊢
      by_cases hdc : d = c
      · subst hdc
        rw [set_same]
        have := h.seen a d ha hm
        omega
      · rw [set_other _ _ hdc] at hd ht ⊢
        exact h.later a d hd hm ha ht

theorem inv_edit {N : Numbers V} {s : Sheet V} {time : Nat → Nat} {now : Nat} (h : Inv N s time now)
    (typed : Nat → Option (List Char)) : Inv N { s with typed := typed } time now :=
  ⟨h.past, h.seen, h.shown, h.value, h.order, h.later⟩

theorem inv_step {N : Numbers V} {s s' : Sheet V} {time : Nat → Nat} {now : Nat} (h : Inv N s time now) {e : Event}
    (hs : step N s e = some s') : ∃ time' now', Inv N s' time' now' := by
  cases e with
  | edit c text =>
    simp only [step] at hs
    split at hs
    · cases hs; exact ⟨_, _, inv_edit h _⟩
    · cases hs; exact ⟨_, _, h⟩
  | poll c =>
    simp only [step] at hs
    split at hs
    · exact ⟨_, _, inv_round h hs⟩
    · cases hs; exact ⟨_, _, h⟩

theorem inv_run {N : Numbers V} (es : List Event) : ∀ {s s' : Sheet V} {time : Nat → Nat} {now : Nat}, Inv N s time now →
    run N s es = some s' → ∃ time' now', Inv N s' time' now' := by
  induction es with
  | nil => intro s s' time now h hr; cases hr; exact ⟨_, _, h⟩
  | cons e es ih =>
    intro s s' time now h hr
    obtain ⟨s1, e1, hr⟩ := Option.bind_eq_some_iff.1 hr
    obtain ⟨t1, n1, h1⟩ := inv_step h e1
    exact ih h1 hr

theorem inv_reachable {N : Numbers V} {s : Sheet V} (h : Reachable N s) : ∃ time now, Inv N s time now := by
  obtain ⟨es, _, hr⟩ := h
  exact inv_run es (inv_init N) hr

theorem idle_started {s : Sheet V} (h : Idle s) {c : Nat} (hc : c < numCells) :
    s.started c = true ∧ s.typed c = none ∧ ∀ d ∈ deps (s.formula c), ¬ s.seen c d < s.version d := by
  have := h c hc
  simp only [Ready, not_or, Bool.not_eq_false, ne_eq, Decidable.not_not, not_exists, not_and] at this
  exact this

/-- **C61.** When nothing is left to do, every cell shows its value, and the value is what its formula gives for
the present values of the cells.

Missing: formulas that contain their own cell. -/
theorem cells_idle_partial {N : Numbers V} {s : Sheet V} (hs : Reachable N s) (hi : Idle s) {c : Nat} (hc : c < numCells) :
    s.shown c = N.text (s.value c) ∧
      (c ∉ deps (s.formula c) → compute N s.value (s.formula c) = some (s.value c)) := by
  obtain ⟨time, now, h⟩ := inv_reachable hs
  obtain ⟨h1, _, h2⟩ := idle_started hi hc
  exact ⟨h.shown c h1, fun hn => h.value c h1 hn h2⟩

/-- **C61.** If no cells depend on each other in a circle (and none on itself), the values when nothing is left to do are the only ones that
fit the formulas: they do not depend on the order of anything. -/
theorem cells_values {N : Numbers V} {s : Sheet V} (hs : Reachable N s) (hi : Idle s) {rank : Nat → Nat}
    (hr : ∀ c, c < numCells → ∀ d ∈ deps (s.formula c), rank d < rank c)
    {v : Nat → V} (hv : ∀ c, c < numCells → compute N v (s.formula c) = some (v c)) :
    ∀ c, c < numCells → s.value c = v c := by
  have hin : ∀ (is : List CellIndex) (out x : V), addUp N v out is = some x → ∀ i ∈ is, i.at < numCells := by
    intro is
    induction is with
    | nil => intro _ _ _ i hi; cases hi
    | cons j is ih =>
      intro out x h i hi
      simp only [addUp] at h
      split at h
      · rename_i hj
        rcases List.mem_cons.1 hi with rfl | hi
        · exact hj
        · exact ih _ _ h i hi
      · cases h
  have hdep : ∀ c, c < numCells → ∀ d ∈ deps (s.formula c), d < numCells := by
    intro c hc d hd
    have hvc := hv c hc
    cases hf : s.formula c with
    | sum f t =>
      rw [hf] at hd hvc
      obtain ⟨i, hi, rfl⟩ := List.mem_map.1 hd
      exact hin _ _ _ hvc i hi
    | literal _ => rw [hf] at hd; cases hd
    | unknown => rw [hf] at hd; cases hd
  have : ∀ n c, rank c < n → c < numCells → s.value c = v c := by
    intro n
    induction n with
    | zero => intro c h; omega
    | succ n ih =>
      intro c hn hc
      have h1 := (cells_idle_partial hs hi hc).2 (fun hm => Nat.lt_irrefl _ (hr c hc c hm))
      have h2 := hv c hc
      rw [compute_congr N (v' := v) fun d hd => ih d (by have := hr c hc d hd; omega) (hdep c hc d hd), h2] at h1
      exact (Option.some.inj h1).symm
  exact fun c hc => this _ c (Nat.lt_succ_self _) hc

/-- **C61.** Cells that depend on each other in a circle: as long as their formulas are there, something is left to
do. `S` are the cells of the circle, each used by another one. -/
theorem cells_circle_restless {N : Numbers V} {s : Sheet V} (hs : Reachable N s) {S : List Nat} (hne : S ≠ [])
    (hS : ∀ c ∈ S, c < numCells ∧ ∃ d ∈ S, d ≠ c ∧ c ∈ deps (s.formula d)) : ¬ Idle s := by
  intro hi
  obtain ⟨time, now, h⟩ := inv_reachable hs
  have hmax : ∀ (T : List Nat), T ≠ [] → ∃ c ∈ T, ∀ d ∈ T, time d ≤ time c := by
    intro T
    induction T with
    | nil => intro h; exact absurd rfl h
    | cons a T ih =>
      intro _
      by_cases hT : T = []
      · subst hT
        exact ⟨a, by simp, fun d hd => by rw [List.mem_singleton.1 hd]; exact Nat.le_refl _⟩
      · obtain ⟨c, hc, hm⟩ := ih hT
        rcases Nat.le_total (time a) (time c) with hac | hac
        · refine ⟨c, by simp [hc], fun d hd => ?_⟩
          rcases List.mem_cons.1 hd with rfl | hd
          · exact hac
          · exact hm d hd
        · refine ⟨a, by simp, fun d hd => ?_⟩
          rcases List.mem_cons.1 hd with rfl | hd
          · exact Nat.le_refl _
          · exact Nat.le_trans (hm d hd) hac
  obtain ⟨c, hc, hm⟩ := hmax S hne
  obtain ⟨hcn, d, hd, hdc, hdep⟩ := hS c hc
  obtain ⟨c1, _, _⟩ := idle_started hi hcn
  obtain ⟨d1, _, d2⟩ := idle_started hi (hS d hd).1
  have h1 := hm d hd
  have h2 := h.order d c d1 c1 hdc
  exact d2 c hdep (h.later d c c1 hdep d1 (by omega))

/-! ## coming to rest -/

/-- The range is not reversed and ends on the sheet. -/
def Valid : Formula V → Prop
  | .sum f t => f.col ≤ t.col ∧ f.row ≤ t.row ∧ t.at < numCells
  | _ => True

theorem addUp_some (N : Numbers V) (v : Nat → V) (is : List CellIndex) : ∀ out,
    (∃ x, addUp N v out is = some x) ↔ ∀ i ∈ is, i.at < numCells := by
  induction is with
  | nil => intro out; simp [addUp]
  | cons i is ih =>
    intro out
    simp only [addUp, List.mem_cons, forall_eq_or_imp]
    split
    · rename_i h
      rw [ih]
      exact ⟨fun h' => ⟨h, h'⟩, fun h' => h'.2⟩
    · rename_i h
      exact ⟨(fun ⟨_, h'⟩ => by cases h'), fun h' => absurd h'.1 h⟩

theorem at_mono {i j : CellIndex} (h1 : i.col ≤ j.col) (h2 : i.row ≤ j.row) : i.at ≤ j.at := by
  have := Nat.mul_le_mul_right numRows h1
  simp only [CellIndex.at]
  omega

/-- **C61.** The program panics exactly if a range is reversed or goes beyond the end of the sheet. -/
theorem cells_panics (N : Numbers V) (s : Sheet V) (c : Nat) : round N s c = none ↔ ¬ Valid (target N s c) := by
  unfold round
  simp only []
  cases hf : target N s c with
  | literal v => simp [compute, capacityOk, Valid]
  | unknown => simp [compute, capacityOk, Valid]
  | sum f t =>
    simp only [compute, capacityOk, Valid, Bool.and_eq_true, decide_eq_true_eq]
    by_cases hle : f.col ≤ t.col ∧ f.row ≤ t.row
    · have hall : (∀ i ∈ cellsOf f t, i.at < numCells) ↔ t.at < numCells := by
        constructor
        · intro h
          exact h t (((cells_range f t).2 t).2 ⟨⟨hle.1, Nat.le_refl _⟩, hle.2, Nat.le_refl _⟩)
        · intro h i hi
          have := ((cells_range f t).2 i).1 hi
          exact Nat.lt_of_le_of_lt (at_mono this.1.2 this.2.2) h
      have hsome := (addUp_some N s.value (cellsOf f t) N.zero).trans hall
      cases hv : addUp N s.value N.zero (cellsOf f t) with
      | none =>
        rw [hv] at hsome
        have : ¬ t.at < numCells := fun h => by obtain ⟨x, hx⟩ := hsome.2 h; cases hx
        simp [this]
      | some v =>
        have : t.at < numCells := hsome.1 ⟨v, hv⟩
        simp [hle, this]
    · cases hv : addUp N s.value N.zero (cellsOf f t) with
      | none => simp only [true_iff]; exact fun h => hle ⟨h.1, h.2.1⟩
      | some v =>
        simp only [if_neg hle, true_iff]
        exact fun h => hle ⟨h.1, h.2.1⟩

/-- So many rounds of tasks that could go on, with nothing typed meanwhile. -/
inductive Rounds (N : Numbers V) : Sheet V → Nat → Sheet V → Prop
  | nil (s : Sheet V) : Rounds N s 0 s
  | cons {s s1 s2 : Sheet V} {c n : Nat} (hc : c < numCells) (hr : Ready s c) (h : round N s c = some s1)
      (hs : Rounds N s1 n s2) : Rounds N s (n + 1) s2

theorem target_round {N : Numbers V} {s s' : Sheet V} {c : Nat} (h : round N s c = some s') (d : Nat) :
    target N s' d = target N s d := by
  obtain ⟨v, _, _, rfl⟩ := round_eq h
  by_cases hd : d = c
  · subst hd
    simp [target, set_same]
  · simp [target, set_other _ _ hd]

def total (f : Nat → Nat) : Nat → Nat
  | 0 => 0
  | n + 1 => total f n + f n

theorem total_le {f g : Nat → Nat} {b : Nat} (n : Nat) (h : ∀ c, c < n → g c ≤ f c + b) : total g n ≤ total f n + n * b := by
  induction n with
  | zero => simp [total]
  | succ n ih =>
    have h1 := ih fun c hc => h c (by omega)
    have h2 := h n (by omega)
    simp only [total, Nat.succ_mul]
    omega

theorem total_drop {f g : Nat → Nat} {b c0 : Nat} (n : Nat) (h : ∀ c, c < n → c ≠ c0 → g c ≤ f c + b) (h0 : g c0 = 0)
    (hc : c0 < n) : total g n + f c0 ≤ total f n + n * b := by
  induction n with
  | zero => omega
  | succ n ih =>
    simp only [total, Nat.succ_mul]
    by_cases e : c0 = n
    · subst e
      have h1 := total_le c0 (f := f) (g := g) (b := b) fun c hc => h c (by omega) (by omega)
      omega
    · have h1 := ih (fun c hc => h c (by omega)) (by omega)
      have h2 := h n (by omega) (Ne.symm e)
      omega

/-- what is left to do, weighted -/
def left (s : Sheet V) (rank : Nat → Nat) (R : Nat) : Nat :=
  total (fun c => if Ready s c then (numCells + 1) ^ (R - rank c) else 0) numCells

theorem left_round {N : Numbers V} {s s' : Sheet V} {c : Nat} {rank : Nat → Nat} {R : Nat} (hc : c < numCells)
    (hR : ∀ c, c < numCells → rank c < R)
    (hr : ∀ c, c < numCells → ∀ d ∈ deps (target N s c), d ≠ c → rank d < rank c) (hrd : Ready s c)
    (h : round N s c = some s') : left s' rank R < left s rank R := by
  obtain ⟨v, _, _, rfl⟩ := round_eq h
  have hpow : (numCells + 1) ^ (R - rank c) = (numCells + 1) * (numCells + 1) ^ (R - rank c - 1) := by
    have := hR c hc
    rw [← Nat.pow_succ']
    congr 1
    omega
  have hpos : 0 < (numCells + 1) ^ (R - rank c - 1) := Nat.pow_pos (by omega)
  unfold left
  generalize hs' : (Sheet.mk (set s.formula c (target N s c)) (set s.value c v) (set s.version c (s.version c + 1))
    (set s.shown c (N.text v)) (set s.seen c (set s.version c (s.version c + 1))) (set s.started c true)
    (set s.typed c none)) = s'
  have hnot : ¬ Ready s' c := by
    subst hs'
    simp [Ready, set_same]
  have key := total_drop (f := fun c => if Ready s c then (numCells + 1) ^ (R - rank c) else 0)
    (g := fun c => if Ready s' c then (numCells + 1) ^ (R - rank c) else 0)
    (b := (numCells + 1) ^ (R - rank c - 1)) (c0 := c) numCells ?_ (if_neg hnot) hc
  · simp only [if_pos hrd, hpow] at key
    rw [Nat.succ_mul] at key
    omega
  · intro d hd hdc
    by_cases hr1 : Ready s' d
    · by_cases hr0 : Ready s d
      · simp only [if_pos hr1, if_pos hr0]; omega
      · simp only [if_pos hr1, if_neg hr0, Nat.zero_add]
        apply Nat.pow_le_pow_right (by omega)
        subst hs'
        simp only [Ready, set_other _ _ hdc] at hr1 hr0
        simp only [not_or, Decidable.not_not] at hr0
        obtain ⟨n1, n2, n3⟩ := hr0
        rcases hr1 with h1 | h1 | ⟨e, he, hlt⟩
        · exact absurd h1 n1
        · exact absurd n2 h1
        · have hec : e = c := by
            apply Classical.byContradiction
            intro hne
            rw [set_other _ _ hne] at hlt
            exact n3 ⟨e, he, hlt⟩
          subst hec
          have := hr d hd e (by simpa [target, n2] using he) (Ne.symm hdc)
          omega
    · simp only [if_neg hr1]; omega

theorem left_le (s : Sheet V) (rank : Nat → Nat) (R : Nat) : left s rank R ≤ numCells * (numCells + 1) ^ R := by
  have := total_le (f := fun _ => 0) (g := fun c => if Ready s c then (numCells + 1) ^ (R - rank c) else 0)
    (b := (numCells + 1) ^ R) numCells (by
      intro c _
      simp only [Nat.zero_add]
      split
      · exact Nat.pow_le_pow_right (by omega) (by omega)
      · exact Nat.zero_le _)
  have h0 : ∀ n, total (fun _ => 0) n = 0 := by
    intro n
    induction n with
    | zero => rfl
    | succ n ih => simp [total, ih]
  rw [h0] at this
  unfold left
  omega

theorem rounds_bound {N : Numbers V} {s s' : Sheet V} {n : Nat} (h : Rounds N s n s') {rank : Nat → Nat} {R : Nat}
    (hR : ∀ c, c < numCells → rank c < R)
    (hr : ∀ c, c < numCells → ∀ d ∈ deps (target N s c), d ≠ c → rank d < rank c) :
    n + left s' rank R ≤ left s rank R := by
  induction h with
  | nil s => omega
  | cons hc hrd h hs ih =>
    have h1 := left_round hc hR hr hrd h
    have h2 := ih (by
      intro c hc d hd
      rw [target_round h] at hd
      exact hr c hc d hd)
    omega

theorem rounds_target {N : Numbers V} {s s' : Sheet V} {n : Nat} (h : Rounds N s n s') (c : Nat) : target N s' c = target N s c := by
  induction h with
  | nil s => rfl
  | cons hc hrd h hs ih => rw [ih, target_round h]

theorem rounds_idle {N : Numbers V} {rank : Nat → Nat} {R : Nat} (hR : ∀ c, c < numCells → rank c < R) : ∀ (m : Nat) (s : Sheet V),
    left s rank R ≤ m → (∀ c, c < numCells → ∀ d ∈ deps (target N s c), d ≠ c → rank d < rank c) →
    (∀ c, c < numCells → Valid (target N s c)) → ∃ n s', Rounds N s n s' ∧ Idle s' := by
  intro m
  induction m with
  | zero =>
    intro s hm hr hv
    refine ⟨0, s, .nil s, fun c hc hrd => ?_⟩
    cases hro : round N s c with
    | none => exact (cells_panics N s c).1 hro (hv c hc)
    | some s1 =>
      have := left_round hc hR hr hrd hro
      omega
  | succ m ih =>
    intro s hm hr hv
    by_cases hi : Idle s
    · exact ⟨0, s, .nil s, hi⟩
    · obtain ⟨c, hc, hrd⟩ : ∃ c, c < numCells ∧ Ready s c := by
        apply Classical.byContradiction
        intro hno
        exact hi fun c hc hrd => hno ⟨c, hc, hrd⟩
      cases hro : round N s c with
      | none => exact absurd (hv c hc) ((cells_panics N s c).1 hro)
      | some s1 =>
        have h1 := left_round hc hR hr hrd hro
        obtain ⟨n, s2, h2, h3⟩ := ih s1 (by omega)
          (by intro c hc d hd; rw [target_round hro] at hd; exact hr c hc d hd)
          (by intro c hc; rw [target_round hro]; exact hv c hc)
        exact ⟨n + 1, s2, .cons hc hrd hro h2, h3⟩

/-- **C61.** If no two or more cells depend on each other in a circle and no range is reversed or too long, there are
only so many rounds, in whichever order the tasks are polled, and then nothing is left to do. The formulas are those
after everything typed was read (`target`). `rank` says that there is no circle. -/
theorem cells_settle {N : Numbers V} {s : Sheet V} {rank : Nat → Nat} {R : Nat} (hR : ∀ c, c < numCells → rank c < R)
    (hr : ∀ c, c < numCells → ∀ d ∈ deps (target N s c), d ≠ c → rank d < rank c)
    (hv : ∀ c, c < numCells → Valid (target N s c)) :
    (∀ n s', Rounds N s n s' → n ≤ numCells * (numCells + 1) ^ R ∧
      ∃ m s'', Rounds N s' m s'' ∧ Idle s'' ∧ ∀ c, c < numCells → s''.formula c = target N s c) := by
  intro n s' h
  have h1 := rounds_bound h hR hr
  have h2 := left_le s rank R
  refine ⟨by omega, ?_⟩
  obtain ⟨m, s'', h3, h4⟩ := rounds_idle hR _ s' (Nat.le_refl _)
    (by intro c hc d hd; rw [rounds_target h] at hd; exact hr c hc d hd)
    (by intro c hc; rw [rounds_target h]; exact hv c hc)
  refine ⟨m, s'', h3, h4, fun c hc => ?_⟩
  rw [← rounds_target h c, ← rounds_target h3 c]
  simp [target, (idle_started h4 hc).2.1]

/-- The text that was typed last in the cell `c`. -/
def lastTyped (c : Nat) : List Event → Option (List Char)
  | [] => none
  | .edit d text :: es => (lastTyped c es).or (if d = c then some text else none)
  | .poll _ :: es => lastTyped c es

theorem typed_run {N : Numbers V} {c : Nat} (es : List Event) : ∀ {s s' : Sheet V}, s.started c = true → run N s es = some s' →
    target N s' c = ((lastTyped c es).map (parse N)).getD (target N s c) := by
  induction es with
  | nil => intro s s' _ h; cases h; rfl
  | cons e es ih =>
    intro s s' hs h
    obtain ⟨s1, e1, h2⟩ := Option.bind_eq_some_iff.1 h
    cases e with
    | edit d text =>
      simp only [step] at e1
      split at e1
      · cases e1
        have := ih (s := { s with typed := set s.typed d (some text) }) hs h2
        rw [this]
        simp only [lastTyped]
        cases lastTyped c es with
        | some t => rfl
        | none =>
          by_cases hd : d = c
          · subst hd; simp [target, set_same]
          · simp [target, set_other _ _ (Ne.symm hd), hd]
      · rename_i hd
        cases e1
        rw [ih hs h2]
        simp only [lastTyped]
        have : d ≠ c := by rintro rfl; exact hd hs
        simp [this]
    | poll d =>
      simp only [step] at e1
      split at e1
      · have hst : s1.started c = true := by
          obtain ⟨v, _, _, rfl⟩ := round_eq e1
          by_cases hd : c = d
          · subst hd; simp [set_same]
          · simpa [set_other _ _ hd] using hs
        rw [ih hst h2, target_round e1]
        rfl
      · cases e1
        rw [ih hs h2]
        rfl

/-- **C61.** From one moment when nothing is left to do to another: the formula of a cell is what was typed in it last,
and the one from before if nothing was. -/
theorem cells_typed {N : Numbers V} {s s' : Sheet V} (hi : Idle s) (hi' : Idle s') {es : List Event}
    (h : run N s es = some s') {c : Nat} (hc : c < numCells) :
    s'.formula c = ((lastTyped c es).map (parse N)).getD (s.formula c) := by
  have h1 := typed_run es (idle_started hi hc).1 h
  simp only [target, (idle_started hi hc).2.1, (idle_started hi' hc).2.1] at h1
  exact h1

theorem run_append {N : Numbers V} (es es' : List Event) : ∀ s : Sheet V,
    run N s (es ++ es') = (run N s es).bind fun s => run N s es' := by
  induction es with
  | nil => intro s; rfl
  | cons e es ih =>
    intro s
    simp only [List.cons_append, run]
    cases step N s e with
    | none => rfl
    | some s1 => exact ih s1

theorem reachable_step {N : Numbers V} {s s' : Sheet V} (h : Reachable N s) {e : Event} (he : e.onSheet)
    (hs : step N s e = some s') : Reachable N s' := by
  obtain ⟨es, h1, h2⟩ := h
  refine ⟨es ++ [e], ?_, ?_⟩
  · intro e' he'
    rcases List.mem_append.1 he' with he' | he'
    · exact h1 e' he'
    · rw [List.mem_singleton.1 he']; exact he
  · rw [run_append, h2]
    simp [run, hs]

theorem reachable_rounds {N : Numbers V} {s s' : Sheet V} {n : Nat} (hr : Rounds N s n s') (h : Reachable N s) :
    Reachable N s' := by
  induction hr with
  | nil s => exact h
  | @cons s s1 s2 c n hc hrd hro hs ih =>
    exact ih (reachable_step h (e := .poll c) hc (by simp only [step, if_pos hrd, hro]))

end Verif.Cells
