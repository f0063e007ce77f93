import Verif.Lists.ModelProps
import Verif.Lists.DiffedProps
/-! # Lemmas about the calls that ModeledList makes -/
namespace Verif.Lists
open Verif.Dom

/-! ## using the log -/

theorem call_key {ks : List Key} {c : Change} (h : ChangeOk ks c) (n : NodeId × NodeId) :
    keyStep ks (c.call n) = applyChange ks c := by
  cases c with
  | insert k b =>
    have hb : b ≠ some k := fun e => h.1 (h.2 k e)
    simp only [Change.call, keyStep, applyChange, if_neg hb, filter_ne_of_notMem h.1]
  | remove k => rfl
  | swap a b =>
    have : a ∈ ks ∧ b ∈ ks := h
    simp only [Change.call, keyStep, applyChange, if_pos this]
  | move k b => simp only [Change.call, keyStep, applyChange, if_pos h.1]

theorem call_ok {ks : List Key} {c : Change} (h : ChangeOk ks c) (hb : ¬ BadSwap ks c) (n : NodeId × NodeId) :
    KeyOk ks (c.call n) := by
  cases c with
  | insert k b => exact h.2
  | remove k => trivial
  | swap a b => exact ⟨h.1, h.2, hb⟩
  | move k b => exact h

theorem logCalls_keys {mk : Nat → NodeId × NodeId} (cs : List Change) : ∀ {ks : List Key} (i : Nat), ChangesOk ks cs →
    (logCalls mk i cs).foldl keyStep ks = cs.foldl applyChange ks ∧
      (NoBadSwap ks cs → KeysOk ks (logCalls mk i cs)) := by
  induction cs with
  | nil => intro ks i _; exact ⟨rfl, fun _ => trivial⟩
  | cons c cs ih =>
    intro ks i h
    obtain ⟨h1, h2⟩ := ih (i + 1) h.2
    simp only [logCalls, List.foldl_cons, KeysOk, call_key h.1]
    exact ⟨h1, fun hb => ⟨call_ok h.1 hb.1 _, h2 hb.2⟩⟩

theorem logCalls_assertions {mk : Nat → NodeId × NodeId} (cs : List Change) : ∀ {l : List Item} (i : Nat),
    ChangesOk (l.map Item.key) cs → assertions (logCalls mk i cs) (answers l (logCalls mk i cs)) = true := by
  induction cs with
  | nil => intro l i _; rfl
  | cons c cs ih =>
    intro l i h
    have hnext : ChangesOk ((specStep l (c.call (mk i))).map Item.key) cs := by
      rw [keys_step, call_key h.1]; exact h.2
    have := ih (i + 1) hnext
    cases c with
    | insert k b =>
      simp only [logCalls, Change.call, answers, assertions, Bool.and_eq_true, beq_iff_eq] at *
      refine ⟨?_, this⟩
      have : find k l = none := find_none.2 (fun hh => h.1.1 (has_iff.1 hh))
      simp only [specAnswer, this, Option.isSome_none]
    | remove k =>
      simp only [logCalls, Change.call, answers, assertions, Bool.and_eq_true, beq_iff_eq] at *
      refine ⟨?_, this⟩
      cases hf : find k l with
      | none => exact absurd (has_iff.2 h.1) (find_none.1 hf)
      | some x => simp only [specAnswer, hf, Option.isSome_some]
    | swap a b => exact this
    | move k b => exact this

theorem mem_kPlace {x k : Key} {b : Option Key} {l : List Key} (h : ∀ y, b = some y → y ∈ l) :
    x ∈ kPlace k b l ↔ x = k ∨ x ∈ l := by
  rw [(kPlace_perm h).mem_iff, List.mem_cons]

/-- a key that is not removed is not inserted again -/
theorem changes_keep {k : Key} (cs : List Change) : ∀ {ks : List Key}, ChangesOk ks cs → k ∈ ks → .remove k ∉ cs →
    ∀ {mk : Nat → NodeId × NodeId} (i : Nat), ∀ op ∈ logCalls mk i cs, keepsKey k op = true := by
  induction cs with
  | nil => intro ks _ _ _ mk i op hop; cases hop
  | cons c cs ih =>
    intro ks h hk hr mk i op hop
    simp only [List.mem_cons, not_or] at hr
    rcases List.mem_cons.1 hop with rfl | hop
    · cases c with
      | insert k' b =>
        simp only [Change.call, keepsKey, bne_iff_ne, ne_eq]
        rintro rfl
        exact h.1.1 hk
      | remove k' =>
        simp only [Change.call, keepsKey, bne_iff_ne, ne_eq]
        rintro rfl
        exact hr.1 rfl
      | swap => rfl
      | move => rfl
    · refine ih h.2 ?_ hr.2 (i + 1) op hop
      cases c with
      | insert k' b =>
        simp only [applyChange]
        rw [mem_kPlace h.1.2]
        exact Or.inr hk
      | remove k' =>
        simp only [applyChange, List.mem_filter, bne_iff_ne, ne_eq]
        refine ⟨hk, ?_⟩
        rintro rfl
        exact hr.1 rfl
      | swap a b =>
        simp only [applyChange, List.mem_map]
        obtain ⟨ha, hb⟩ := h.1
        by_cases h1 : k = a
        · refine ⟨b, hb, ?_⟩
          by_cases h2 : b = a
          · rw [if_pos h2, h2, h1]
          · rw [if_neg h2, if_pos rfl, h1]
        · by_cases h2 : k = b
          · exact ⟨a, ha, by rw [if_pos rfl, h2]⟩
          · exact ⟨k, hk, by rw [if_neg h1, if_neg h2]⟩
      | move k' b =>
        simp only [applyChange]
        have hb : ∀ y, b = some y → y ∈ ks.filter (· != k') := by
          intro y hy
          obtain ⟨h1, h2⟩ := h.1.2 y hy
          exact List.mem_filter.2 ⟨h1, by simpa using h2⟩
        rw [mem_kPlace hb]
        by_cases h1 : k = k'
        · exact Or.inl h1
        · exact Or.inr (List.mem_filter.2 ⟨hk, by simpa using h1⟩)

/-! ## rebuilding -/

theorem newCalls_keys {mk : Nat → NodeId × NodeId} (N : List Key) : ∀ {ks : List Key} (i : Nat), (ks ++ N).Nodup →
    (newCalls mk i N).foldl keyStep ks = ks ++ N ∧ KeysOk ks (newCalls mk i N) := by
  induction N with
  | nil => intro ks i _; simp [newCalls, KeysOk]
  | cons k N ih =>
    intro ks i hn
    have hk : k ∉ ks := fun h => (List.nodup_append.1 hn).2.2 k h k (by simp) rfl
    have hstep : keyStep ks (.insert k none (mk i).1 (mk i).2) = ks ++ [k] := by
      simp only [keyStep, filter_ne_of_notMem hk, kPlace]
      rw [if_neg (by simp)]
    obtain ⟨h1, h2⟩ := ih (ks := ks ++ [k]) (i + 1) (by simpa using hn)
    simp only [newCalls, List.foldl_cons, KeysOk, hstep]
    refine ⟨by rw [h1]; simp, ?_, h2⟩
    intro x hx
    cases hx

/-- `P` is still to be done, `S` is in order at the end -/
theorem moveCalls_keys {R : List Key} (P : List Key) : ∀ (S K : List Key), (P.reverse ++ S).Nodup → K.Nodup →
    (∀ k, k ∈ K ↔ k ∈ R) →
    (moveCalls R S.head? P).foldl keyStep (K.filter (fun k => decide (k ∉ S)) ++ P.reverse.filter (fun k => decide (k ∉ R)) ++ S) =
      K.filter (fun k => decide (k ∉ P.reverse ++ S)) ++ (P.reverse ++ S) ∧
    KeysOk (K.filter (fun k => decide (k ∉ S)) ++ P.reverse.filter (fun k => decide (k ∉ R)) ++ S)
      (moveCalls R S.head? P) := by
  induction P with
  | nil =>
    intro S K _ _ _
    simp only [moveCalls, List.reverse_nil, List.filter_nil, List.append_nil, List.nil_append, List.foldl_nil, KeysOk]
    exact ⟨rfl, trivial⟩
  | cons k P ih =>
    intro S K hn hK hR
    have hn' : (P.reverse ++ k :: S).Nodup := by simpa using hn
    obtain ⟨h1, h2⟩ := ih (k :: S) K hn' hK hR
    have hkS : k ∉ S := (List.nodup_cons.1 (List.nodup_append.1 hn').2.1).1
    have hkP : k ∉ P.reverse := fun h => (List.nodup_append.1 hn').2.2 k h k (by simp) rfl
    have hrev : (k :: P).reverse ++ S = P.reverse ++ k :: S := by simp
    by_cases hk : k ∈ R
    · have hfil : (k :: P).reverse.filter (fun k => decide (k ∉ R)) = P.reverse.filter (fun k => decide (k ∉ R)) := by
        simp [List.filter_append, hk]
      have hkK := (hR k).2 hk
      rw [hrev, hfil]
      simp only [moveCalls, if_pos hk, List.singleton_append, List.foldl_cons, KeysOk]
      have hF : (K.filter (fun k => decide (k ∉ S)) ++ P.reverse.filter (fun k => decide (k ∉ R)) ++ S).filter (· != k) =
          K.filter (fun x => decide (x ∉ k :: S)) ++ P.reverse.filter (fun k => decide (k ∉ R)) ++ S := by
        rw [List.filter_append, List.filter_append, filter_ne_of_notMem hkS,
          filter_ne_of_notMem (fun h => hkP (List.mem_filter.1 h).1), List.filter_filter]
        congr 2
        apply List.filter_congr
        intro x _
        by_cases hx : x = k <;> simp [hx]
      have hnF : (K.filter (fun x => decide (x ∉ k :: S)) ++ P.reverse.filter (fun k => decide (k ∉ R)) ++ S).Nodup := by
        rw [List.nodup_append, List.nodup_append]
        have hP := (List.nodup_append.1 hn').1
        have hS := (List.nodup_cons.1 (List.nodup_append.1 hn').2.1).2
        refine ⟨⟨hK.filter _, hP.filter _, ?_⟩, hS, ?_⟩
        · rintro a ha b hb rfl
          have := (hR a).1 (List.mem_filter.1 ha).1
          have := (List.mem_filter.1 hb).2
          simp at this
          contradiction
        · rintro a ha b hb rfl
          rcases List.mem_append.1 ha with ha | ha
          · have := (List.mem_filter.1 ha).2
            simp [hb] at this
          · exact (List.nodup_append.1 hn').2.2 a (List.mem_filter.1 ha).1 a (by simp [hb]) rfl
      have hmem : k ∈ K.filter (fun k => decide (k ∉ S)) ++ P.reverse.filter (fun k => decide (k ∉ R)) ++ S := by
        apply List.mem_append_left
        apply List.mem_append_left
        exact List.mem_filter.2 ⟨hkK, by simpa using hkS⟩
      have hstep : keyStep (K.filter (fun k => decide (k ∉ S)) ++ P.reverse.filter (fun k => decide (k ∉ R)) ++ S)
          (.moveBefore k S.head?) = K.filter (fun x => decide (x ∉ k :: S)) ++ P.reverse.filter (fun k => decide (k ∉ R)) ++ k :: S := by
        simp only [keyStep, if_pos hmem, hF]
        exact kPlace_head hnF
      rw [hstep]
      refine ⟨h1, ⟨hmem, ?_⟩, h2⟩
      intro x hx
      have hxS := List.mem_of_head? hx
      exact ⟨List.mem_append_right _ hxS, fun e => hkS (e ▸ hxS)⟩
    · have hfil : (k :: P).reverse.filter (fun k => decide (k ∉ R)) = P.reverse.filter (fun k => decide (k ∉ R)) ++ [k] := by
        simp [List.filter_append, hk]
      have hKf : K.filter (fun x => decide (x ∉ k :: S)) = K.filter (fun x => decide (x ∉ S)) := by
        apply List.filter_congr
        intro x hx
        have : x ≠ k := fun e => hk (e ▸ (hR x).1 hx)
        simp [this]
      rw [hrev, hfil]
      simp only [moveCalls, if_neg hk, List.nil_append]
      rw [hKf] at h1 h2
      have e : ∀ (A B : List Key), A ++ (B ++ [k]) ++ S = A ++ B ++ k :: S := by intro A B; simp
      rw [e]
      exact ⟨h1, h2⟩

theorem rebuild_keys {mk : Nat → NodeId × NodeId} {vec K old : List Key} (hv : vec.Nodup) (hK : K.Nodup)
    (ho : old.Perm K) :
    (rebuildCalls mk vec old).foldl keyStep K = vec ∧ KeysOk K (rebuildCalls mk vec old) := by
  unfold rebuildCalls
  simp only
  have hR : ∀ k, k ∈ K.filter (fun k => decide (k ∈ vec)) ↔ k ∈ old.filter (fun k => decide (k ∈ vec)) :=
    fun k => (ho.filter _).mem_iff.symm
  generalize hr : old.filter (fun k => decide (k ∈ vec)) = R at *
  have hRK : ∀ k, k ∈ R → k ∈ vec := by
    intro k hk
    rw [← hr] at hk
    simpa using (List.mem_filter.1 hk).2
  generalize hk' : K.filter (fun k => decide (k ∈ vec)) = K' at *
  have hK'n : K'.Nodup := hk' ▸ hK.filter _
  have hnn : (K' ++ vec.filter (fun k => decide (k ∉ R))).Nodup := by
    rw [List.nodup_append]
    refine ⟨hK'n, hv.filter _, ?_⟩
    rintro a ha b hb rfl
    have := (List.mem_filter.1 hb).2
    simp at this
    exact this ((hR a).1 ha)
  obtain ⟨n1, n2⟩ := newCalls_keys (mk := mk) _ 0 hnn
  obtain ⟨m1, m2⟩ := moveCalls_keys (R := R) vec.reverse [] K' (by simpa using hv) hK'n hR
  have e0 : K'.filter (fun k => decide (k ∉ ([] : List Key))) = K' := by rw [List.filter_eq_self]; simp
  rw [e0, List.reverse_reverse, List.append_nil] at m1 m2
  have e1 : K'.filter (fun k => decide (k ∉ vec ++ [])) = [] := by
    rw [List.filter_eq_nil_iff]
    intro k hk
    simp only [List.append_nil, decide_eq_true_eq, Decidable.not_not]
    exact hRK k ((hR k).1 hk)
  rw [e1, List.nil_append, List.append_nil] at m1
  rw [List.head?_nil] at m1 m2
  refine ⟨?_, ?_⟩
  · rw [List.foldl_append, List.foldl_append]
    simp only [List.foldl_cons, List.foldl_nil, keyStep]
    rw [hk', n1, m1]
  · rw [keysOk_append, keysOk_append]
    simp only [List.foldl_append, List.foldl_cons, List.foldl_nil, keyStep]
    rw [hk', n1]
    exact ⟨⟨⟨trivial, trivial⟩, n2⟩, m2⟩

theorem newCalls_mem {mk : Nat → NodeId × NodeId} {N : List Key} {op : Op} : ∀ {i : Nat}, op ∈ newCalls mk i N →
    ∃ k ∈ N, ∃ x y, op = .insert k none x y := by
  induction N with
  | nil => intro i h; cases h
  | cons k N ih =>
    intro i h
    rcases List.mem_cons.1 h with rfl | h
    · exact ⟨k, by simp, _, _, rfl⟩
    · obtain ⟨k', hk', x, y, e⟩ := ih h
      exact ⟨k', by simp [hk'], x, y, e⟩

theorem moveCalls_mem {R P : List Key} {op : Op} : ∀ {last : Option Key}, op ∈ moveCalls R last P →
    ∃ k b, op = .moveBefore k b := by
  induction P with
  | nil => intro last h; cases h
  | cons k P ih =>
    intro last h
    rcases List.mem_append.1 h with h | h
    · split at h
      · exact ⟨k, last, List.mem_singleton.1 h⟩
      · cases h
    · exact ih h

theorem rebuild_keep {mk : Nat → NodeId × NodeId} {vec old : List Key} {k : Key} (h1 : k ∈ vec) (h2 : k ∈ old) :
    ∀ op ∈ rebuildCalls mk vec old, keepsKey k op = true := by
  intro op hop
  unfold rebuildCalls at hop
  simp only [List.mem_append, List.mem_singleton] at hop
  rcases hop with (rfl | hop) | hop
  · simpa [keepsKey] using h1
  · obtain ⟨k', hk', x, y, rfl⟩ := newCalls_mem hop
    simp only [keepsKey, bne_iff_ne, ne_eq]
    rintro rfl
    have := (List.mem_filter.1 hk').2
    simp [h1, h2] at this
  · obtain ⟨k', b, rfl⟩ := moveCalls_mem hop
    rfl

end Verif.Lists
