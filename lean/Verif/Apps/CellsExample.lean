import Verif.Apps.CellsProps
/-! # C61: what the user types, and concrete sheets -/
namespace Verif.Cells

variable {V : Type}

/-- The name of a cell, as in `B7`. -/
def name (i : CellIndex) : List Char := Char.ofNat (65 + i.col) :: Nat.toDigits 10 i.row

theorem parseUsize_digits {n : Nat} (h : n < 2 ^ 32) : parseUsize (Nat.toDigits 10 n) = some n := by
  have hd : ∀ c ∈ Nat.toDigits 10 n, c.isDigit = true := fun c hc => Nat.isDigit_of_mem_toDigits (by decide) (by decide) hc
  have hne : Nat.toDigits 10 n ≠ [] := Nat.toDigits_ne_nil
  unfold parseUsize
  have hhead : ¬ (Nat.toDigits 10 n).head? = some '+' := by
    intro e
    have := hd '+' (List.mem_of_head? e)
    revert this
    decide
  rw [if_neg hhead]
  simp only []
  rw [if_neg, Nat.ofDigitChars_ten_toDigits, if_pos h]
  simp only [Bool.or_eq_true, List.isEmpty_iff, Bool.not_eq_true', List.all_eq_false, not_or, not_exists, not_and]
  exact ⟨hne, fun c hc => by simp [hd c hc]⟩

theorem letter {c : Nat} (h : c < numColumns) : (Char.ofNat (65 + c)).isUpper = true ∧ (Char.ofNat (65 + c)).toNat = 65 + c := by
  have : ∀ c : Fin 26, (Char.ofNat (65 + c.val)).isUpper = true ∧ (Char.ofNat (65 + c.val)).toNat = 65 + c.val := by decide
  exact this ⟨c, h⟩

theorem parseIndex_name {i : CellIndex} (h1 : i.col < numColumns) (h2 : i.row < 2 ^ 32) : parseIndex (name i) = some i := by
  obtain ⟨l1, l2⟩ := letter h1
  simp only [name, parseIndex, l1, if_true, parseUsize_digits h2, Option.map_some, l2]
  have : 'A'.toNat = 65 := rfl
  rw [this]
  simp

theorem splitColon_append {l r : List Char} (h : ':' ∉ l) : splitColon (l ++ ':' :: r) = some (l, r) := by
  induction l with
  | nil => simp [splitColon]
  | cons c l ih =>
    simp only [List.mem_cons, not_or] at h
    simp only [List.cons_append, splitColon, if_neg (Ne.symm h.1), ih h.2, Option.map_some]

theorem name_no_colon {i : CellIndex} (h1 : i.col < numColumns) : ':' ∉ name i := by
  simp only [name, List.mem_cons, not_or]
  constructor
  · intro e
    have := (letter h1).1
    rw [← e] at this
    revert this
    decide
  · intro hm
    have : ':'.isDigit = true := Nat.isDigit_of_mem_toDigits (by decide) (by decide) hm
    revert this
    decide

/-- **C61.** The text `=SUM(a:b)` with the names of two cells is the sum of the cells from `a` to `b`. -/
theorem cells_sum_text (N : Numbers V) {a b : CellIndex} (ha : a.col < numColumns ∧ a.row < 2 ^ 32)
    (hb : b.col < numColumns ∧ b.row < 2 ^ 32) :
    parse N ("=SUM(".toList ++ (name a ++ ':' :: name b) ++ [')']) = .sum a b := by
  have e : "=SUM(".toList = ['=', 'S', 'U', 'M', '('] := by decide +kernel
  rw [e]
  have h1 : (['=', 'S', 'U', 'M', '('].isPrefixOf (['=', 'S', 'U', 'M', '('] ++ (name a ++ ':' :: name b) ++ [')']) &&
      (['=', 'S', 'U', 'M', '('] ++ (name a ++ ':' :: name b) ++ [')']).getLast? == some ')') = true := by
    rw [List.getLast?_concat]
    simp
  have h2 : ((['=', 'S', 'U', 'M', '('] ++ (name a ++ ':' :: name b) ++ [')']).drop 5).dropLast = name a ++ ':' :: name b := by
    rw [List.append_assoc]
    exact List.dropLast_concat
  unfold parse
  rw [if_pos h1, h2, splitColon_append (name_no_colon ha.1)]
  simp only [parseIndex_name ha.1 ha.2, parseIndex_name hb.1 hb.2]

/-- **C61.** A cell that is not on the sheet is not refused: `A150` is `B50`. -/
theorem cells_alias (N : Numbers V) :
    (deps (parse N "=SUM(A150:A150)".toList) = [(⟨1, 50⟩ : CellIndex).at]) ∧ Valid (parse N "=SUM(A150:A150)".toList) ∧
      ¬ 150 < numRows := by
  have h := cells_sum_text N (a := ⟨0, 150⟩) (b := ⟨0, 150⟩) (by decide) (by decide)
  have e : "=SUM(".toList ++ (name ⟨0, 150⟩ ++ ':' :: name ⟨0, 150⟩) ++ [')'] = "=SUM(A150:A150)".toList := by decide +kernel
  rw [e] at h
  rw [h]
  exact ⟨rfl, ⟨by decide, by decide, by decide⟩, by decide⟩

/-! ## typing -/

/-- The result of typing a text in a cell and polling its task. -/
def entered (N : Numbers V) (s : Sheet V) (c : Nat) (text : List Char) (v : V) : Sheet V :=
  { formula := set s.formula c (parse N text), value := set s.value c v, version := set s.version c (s.version c + 1),
    shown := set s.shown c (N.text v), seen := set s.seen c (set s.version c (s.version c + 1)),
    started := set s.started c true, typed := set (set s.typed c (some text)) c none }

theorem entered_reachable {N : Numbers V} {s : Sheet V} (h : Reachable N s) {c : Nat} (hc : c < numCells)
    (hs : s.started c = true) {text : List Char} {v : V} (hv : compute N s.value (parse N text) = some v)
    (hk : Valid (parse N text)) : Reachable N (entered N s c text v) := by
  have h1 := reachable_step h (e := .edit c text) hc (by simp only [step, hs, if_true]; rfl)
  refine reachable_step h1 (e := .poll c) hc ?_
  have hr : Ready { s with typed := set s.typed c (some text) } c := Or.inr (Or.inl (by simp [set_same]))
  have ht : target N { s with typed := set s.typed c (some text) } c = parse N text := by simp [target, set_same]
  simp only [step, if_pos hr]
  cases hro : round N { s with typed := set s.typed c (some text) } c with
  | none =>
    rw [cells_panics, ht] at hro
    exact absurd hk hro
  | some s' =>
    obtain ⟨v', h1, _, h3⟩ := round_eq hro
    rw [ht] at h1 h3
    replace h1 : compute N s.value (parse N text) = some v' := h1
    rw [hv] at h1
    cases h1
    rw [h3]
    rfl

/-- There is a sheet with nothing to do before anything was typed. -/
theorem blank_sheet (N : Numbers V) : ∃ s, Reachable N s ∧ Idle s ∧ ∀ c, c < numCells → s.formula c = .unknown := by
  have ht : ∀ c, target N (init N) c = .unknown := fun c => rfl
  obtain ⟨_, m, s, h1, h2, h3⟩ := cells_settle (N := N) (s := init N) (rank := fun _ => 0) (R := 1) (fun _ _ => Nat.zero_lt_one)
    (by intro c _ d hd; rw [ht] at hd; cases hd) (by intro c _; rw [ht]; trivial) 0 (init N) (.nil _)
  exact ⟨s, reachable_rounds h1 ⟨[], (fun e he => by cases he), rfl⟩, h2, fun c hc => by rw [h3 c hc, ht]⟩

/-- Integers for numbers: the text of a number is its decimal digits; NaN is -1. -/
def demoNumbers : Numbers Int where
  zero := 0
  add := (· + ·)
  nan := -1
  parse := fun cs => (parseUsize cs).map Int.ofNat
  text := fun v => if v = -1 then [] else '=' :: (toString v).toList

/-- **C61.** The property without the exception is false: type `5` in `A0`, `1` in `A1` and `=SUM(A0:A1)` in `A0`.
When nothing is left to do `A0` is 6, but its formula gives 7. -/
theorem cells_self_wrong : ∃ s : Sheet Int, Reachable demoNumbers s ∧ Idle s ∧
    s.formula 0 = .sum ⟨0, 0⟩ ⟨0, 1⟩ ∧ s.value 0 = 6 ∧ compute demoNumbers s.value (s.formula 0) = some 7 := by
  obtain ⟨s0, r0, i0, f0⟩ := blank_sheet demoNumbers
  have hn : numCells = 2600 := rfl
  have p1 : parse demoNumbers "5".toList = .literal 5 := by decide +kernel
  have p2 : parse demoNumbers "1".toList = .literal 1 := by decide +kernel
  have p3 : parse demoNumbers "=SUM(A0:A1)".toList = .sum ⟨0, 0⟩ ⟨0, 1⟩ := by decide +kernel
  have r1 := entered_reachable r0 (c := 0) (by omega) (idle_started i0 (by omega)).1 (text := "5".toList) (v := 5)
    (by rw [p1]; rfl) (by rw [p1]; trivial)
  have r2 := entered_reachable r1 (c := 1) (by omega)
    (by show set s0.started 0 true 1 = true; rw [set_other _ _ (by decide)]; exact (idle_started i0 (by omega)).1)
    (text := "1".toList) (v := 1) (by rw [p2]; rfl) (by rw [p2]; trivial)
  have r3 := entered_reachable r2 (c := 0) (by omega)
    (by show set (set s0.started 0 true) 1 true 0 = true; rw [set_other _ _ (by decide), set_same])
    (text := "=SUM(A0:A1)".toList) (v := 6) (by rw [p3]; rfl) (by rw [p3]; exact ⟨by decide, by decide, by decide⟩)
  refine ⟨_, r3, ?_, ?_, ?_, ?_⟩
  · intro c hc
    obtain ⟨i1, i2, i3⟩ := idle_started i0 hc
    have hf := f0 c hc
    by_cases h0 : c = 0
    · subst h0
      simp [Ready, entered, set_same]
    · by_cases h1 : c = 1
      · subst h1
        simp only [Ready, entered, set_same, set_other _ _ h0, p2, deps]
        simp
      · simp only [Ready, entered, set_other _ _ h0, set_other _ _ h1, i1, i2, hf, deps]
        simp
  · exact p3
  · rfl
  · have e : (entered demoNumbers (entered demoNumbers (entered demoNumbers s0 0 "5".toList 5) 1 "1".toList 1) 0
        "=SUM(A0:A1)".toList 6).formula 0 = .sum ⟨0, 0⟩ ⟨0, 1⟩ := p3
    rw [e]
    rfl

/-- `cells_typed` applied: `5` is typed in `A0`. -/
example : ∃ s s' : Sheet Int, Idle s ∧ Idle s' ∧ run demoNumbers s [.edit 0 "5".toList, .poll 0] = some s' ∧
    s'.formula 0 = .literal 5 ∧ s.formula 0 = .unknown := by
  obtain ⟨s0, r0, i0, f0⟩ := blank_sheet demoNumbers
  have hn : numCells = 2600 := rfl
  have p1 : parse demoNumbers "5".toList = .literal 5 := by decide +kernel
  have hrun : run demoNumbers s0 [.edit 0 "5".toList, .poll 0] = some (entered demoNumbers s0 0 "5".toList 5) := by
    have hr : Ready { s0 with typed := set s0.typed 0 (some "5".toList) } 0 := Or.inr (Or.inl (by simp [set_same]))
    have ht : target demoNumbers { s0 with typed := set s0.typed 0 (some "5".toList) } 0 = .literal 5 := p1
    simp only [run, step, (idle_started i0 (show 0 < numCells by omega)).1, if_true, Option.bind_some, if_pos hr, round, ht, compute]
    simp only [capacityOk, if_true, entered, p1, Option.bind_some]
  have hidle : Idle (entered demoNumbers s0 0 "5".toList 5) := by
    intro c hc
    obtain ⟨i1, i2, i3⟩ := idle_started i0 hc
    by_cases h0 : c = 0
    · subst h0
      simp [Ready, entered, set_same]
    · simp only [Ready, entered, set_other _ _ h0, i1, i2, f0 c hc, deps]
      simp
  refine ⟨s0, _, i0, hidle, hrun, ?_, f0 0 (by omega)⟩
  rw [cells_typed i0 hidle hrun (show 0 < numCells by omega)]
  exact p1

/-- Without circles: `2` in `A0`, `3` in `A1` and their sum in `A2`; then nothing is left to do after finitely many
rounds, and `A2` is 5. -/
theorem demo_sum : ∃ s : Sheet Int, Reachable demoNumbers s ∧ Idle s ∧ s.formula 2 = .sum ⟨0, 0⟩ ⟨0, 1⟩ ∧ s.value 2 = 5 ∧
    (∀ c, c < numCells → ∀ d ∈ deps (s.formula c), (if d = 2 then 1 else 0) < (if c = 2 then 1 else 0)) ∧
    ∀ c, c < numCells → compute demoNumbers s.value (s.formula c) = some (s.value c) := by
  obtain ⟨s0, r0, i0, f0⟩ := blank_sheet demoNumbers
  have hn : numCells = 2600 := rfl
  have p1 : parse demoNumbers "2".toList = .literal 2 := by decide +kernel
  have p2 : parse demoNumbers "3".toList = .literal 3 := by decide +kernel
  have p3 : parse demoNumbers "=SUM(A0:A1)".toList = .sum ⟨0, 0⟩ ⟨0, 1⟩ := by decide +kernel
  have st := fun c (hc : c < numCells) => (idle_started i0 hc).1
  -- everything is typed before any task is polled
  have r1 := reachable_step r0 (e := .edit 2 "=SUM(A0:A1)".toList) (by show 2 < numCells; omega)
    (by simp only [step, st 2 (by omega), if_true]; rfl)
  have r2 := reachable_step r1 (e := .edit 0 "2".toList) (by show 0 < numCells; omega)
    (by simp only [step, st 0 (by omega), if_true]; rfl)
  have r3 := reachable_step r2 (e := .edit 1 "3".toList) (by show 1 < numCells; omega)
    (by simp only [step, st 1 (by omega), if_true]; rfl)
  generalize hs3 : ({ s0 with typed := set (set (set s0.typed 2 (some "=SUM(A0:A1)".toList)) 0 (some "2".toList)) 1 (some "3".toList) } : Sheet Int) = s3 at r3
  have t0 : target demoNumbers s3 0 = .literal 2 := by subst hs3; exact p1
  have t1 : target demoNumbers s3 1 = .literal 3 := by subst hs3; exact p2
  have t2 : target demoNumbers s3 2 = .sum ⟨0, 0⟩ ⟨0, 1⟩ := by subst hs3; exact p3
  have tn : ∀ c, c < numCells → c ≠ 0 → c ≠ 1 → c ≠ 2 → target demoNumbers s3 c = .unknown := by
    intro c hc h0 h1 h2
    subst hs3
    simp [target, set, h0, h1, h2, (idle_started i0 hc).2.1, f0 c hc]
  have hd : deps (.sum ⟨0, 0⟩ ⟨0, 1⟩ : Formula Int) = [0, 1] := by decide
  have hcase : ∀ c, c < numCells → Valid (target demoNumbers s3 c) ∧
      ∀ d ∈ deps (target demoNumbers s3 c), c = 2 ∧ (d = 0 ∨ d = 1) := by
    intro c hc
    by_cases h0 : c = 0
    · subst h0; rw [t0]; exact ⟨trivial, (fun d hd => by cases hd)⟩
    · by_cases h1 : c = 1
      · subst h1; rw [t1]; exact ⟨trivial, (fun d hd => by cases hd)⟩
      · by_cases h2 : c = 2
        · subst h2
          rw [t2, hd]
          exact ⟨⟨by decide, by decide, by decide⟩, fun d hd => ⟨rfl, by simpa using hd⟩⟩
        · rw [tn c hc h0 h1 h2]; exact ⟨trivial, (fun d hd => by cases hd)⟩
  obtain ⟨_, m, s, h1, h2, h3⟩ := cells_settle (rank := fun c => if c = 2 then 1 else 0) (R := 2)
    (by intro c _; show (if c = 2 then 1 else 0) < 2; split <;> omega)
    (by
      intro c hc d hd _
      obtain ⟨rfl, rfl | rfl⟩ := (hcase c hc).2 d hd <;> decide)
    (fun c hc => (hcase c hc).1) 0 s3 (.nil _)
  have hr := reachable_rounds h1 r3
  have v0 := (cells_idle_partial hr h2 (c := 0) (by omega)).2 (by rw [h3 0 (by omega), t0]; exact List.not_mem_nil)
  have v1 := (cells_idle_partial hr h2 (c := 1) (by omega)).2 (by rw [h3 1 (by omega), t1]; exact List.not_mem_nil)
  have v2 := (cells_idle_partial hr h2 (c := 2) (by omega)).2 (by rw [h3 2 (by omega), t2, hd]; decide)
  rw [h3 0 (by omega), t0] at v0
  rw [h3 1 (by omega), t1] at v1
  rw [h3 2 (by omega), t2] at v2
  refine ⟨s, hr, h2, (h3 2 (by omega)).trans t2, ?_, ?_, ?_⟩
  rotate_left
  · intro c hc d hd
    rw [h3 c hc] at hd
    obtain ⟨rfl, rfl | rfl⟩ := (hcase c hc).2 d hd <;> decide
  · intro c hc
    refine (cells_idle_partial hr h2 hc).2 fun hm => ?_
    rw [h3 c hc] at hm
    obtain ⟨rfl, h | h⟩ := (hcase c hc).2 c hm <;> cases h
  have e0 : (2 : Int) = s.value 0 := Option.some.inj v0
  have e1 : (3 : Int) = s.value 1 := Option.some.inj v1
  have e2 : (0 + s.value 0 + s.value 1 : Int) = s.value 2 := Option.some.inj v2
  omega

/-- `cells_values` applied to that sheet. -/
example : ∃ s : Sheet Int, Reachable demoNumbers s ∧ s.value 2 = 5 ∧
    ∀ s', Reachable demoNumbers s' → Idle s' → s'.formula = s.formula → s'.value 2 = 5 := by
  obtain ⟨s, h1, _, _, h4, h5, h6⟩ := demo_sum
  refine ⟨s, h1, h4, fun s' r i e => ?_⟩
  rw [← h4]
  exact cells_values r i (rank := fun c => if c = 2 then 1 else 0) (by rw [e]; exact h5) (v := s.value) (by rw [e]; exact h6) 2 (by decide)

/-- Two cells that show each other: `=SUM(A1:A1)` in `A0` and `=SUM(A0:A0)` in `A1`. The sheet never comes to rest:
after any number of rounds there is something left to do. -/
theorem demo_circle : ∃ s : Sheet Int, Reachable demoNumbers s ∧ s.formula 0 = .sum ⟨0, 1⟩ ⟨0, 1⟩ ∧
    s.formula 1 = .sum ⟨0, 0⟩ ⟨0, 0⟩ ∧ ∀ n s', Rounds demoNumbers s n s' → ¬ Idle s' := by
  obtain ⟨s0, r0, i0, f0⟩ := blank_sheet demoNumbers
  have hn : numCells = 2600 := rfl
  have p1 : parse demoNumbers "=SUM(A1:A1)".toList = .sum ⟨0, 1⟩ ⟨0, 1⟩ := by decide +kernel
  have p2 : parse demoNumbers "=SUM(A0:A0)".toList = .sum ⟨0, 0⟩ ⟨0, 0⟩ := by decide +kernel
  have r1 := entered_reachable r0 (c := 0) (by omega) (idle_started i0 (by omega)).1 (text := "=SUM(A1:A1)".toList) (v := 0 + s0.value 1)
    (by rw [p1]; rfl) (by rw [p1]; exact ⟨by decide, by decide, by decide⟩)
  have r2 := entered_reachable r1 (c := 1) (by omega)
    (by show set s0.started 0 true 1 = true; rw [set_other _ _ (by decide)]; exact (idle_started i0 (by omega)).1)
    (text := "=SUM(A0:A0)".toList) (v := 0 + (0 + s0.value 1)) (by rw [p2]; rfl)
    (by rw [p2]; exact ⟨by decide, by decide, by decide⟩)
  refine ⟨_, r2, ?_, ?_, ?_⟩
  · exact p1
  · exact p2
  · intro n s' h hi
    have hr := reachable_rounds h r2
    have t0 := rounds_target h 0
    have t1 := rounds_target h 1
    have e0 : s'.formula 0 = .sum ⟨0, 1⟩ ⟨0, 1⟩ := by
      rw [target, (idle_started hi (by omega)).2.1] at t0
      simp only at t0
      rw [t0]
      exact p1
    have e1 : s'.formula 1 = .sum ⟨0, 0⟩ ⟨0, 0⟩ := by
      rw [target, (idle_started hi (by omega)).2.1] at t1
      simp only at t1
      rw [t1]
      exact p2
    refine cells_circle_restless hr (S := [0, 1]) (by simp) ?_ hi
    intro c hc
    simp only [List.mem_cons, List.not_mem_nil, or_false] at hc
    rcases hc with rfl | rfl
    · exact ⟨by omega, 1, by simp, by decide, by rw [e1]; decide⟩
    · exact ⟨by omega, 0, by simp, by decide, by rw [e0]; decide⟩

/-- A reversed range panics. -/
example (N : Numbers Int) (s : Sheet Int) (h : s.typed 0 = some "=SUM(B0:A0)".toList) (hN : parse N "=SUM(B0:A0)".toList = .sum ⟨1, 0⟩ ⟨0, 0⟩) :
    round N s 0 = none := by
  rw [cells_panics]
  simp only [target, h, hN, Valid]
  intro hv
  exact absurd hv.1 (by decide)

end Verif.Cells
