import Verif.Lists.VirtualSpec
import Verif.Lists.DiffedProps
/-! # Lemmas about the calls that VirtualizedList makes -/
namespace Verif.Lists
open Verif.Dom

theorem mem_upTo {a b x : Nat} : x ∈ upTo a b ↔ a ≤ x ∧ x < b := by
  unfold upTo
  rw [List.mem_range'_1]
  omega

theorem nodup_upTo (a b : Nat) : (upTo a b).Nodup := List.nodup_range'

theorem upTo_split {a m b : Nat} (h1 : a ≤ m) (h2 : m ≤ b) : upTo a b = upTo a m ++ upTo m b := by
  unfold upTo
  rw [show b - a = (m - a) + (b - m) by omega, ← List.range'_append_1]
  congr 2
  omega

theorem upTo_nil {a b : Nat} (h : b ≤ a) : upTo a b = [] := by
  unfold upTo
  rw [show b - a = 0 by omega]
  rfl

theorem upTo_cons {a b : Nat} (h : a < b) : upTo a b = a :: upTo (a + 1) b := by
  unfold upTo
  rw [show b - a = (b - (a + 1)) + 1 by omega]
  rfl

theorem filter_upTo (a b s e : Nat) {p : Nat → Bool} (hp : ∀ x, a ≤ x → x < b → (p x = true ↔ s ≤ x ∧ x < e)) :
    (upTo a b).filter p = upTo (max a s) (min b e) := by
  by_cases h : max a s < min b e
  · rw [upTo_split (m := max a s) (by omega) (by omega : max a s ≤ b),
      upTo_split (a := max a s) (m := min b e) (by omega) (by omega : min b e ≤ b), List.filter_append, List.filter_append]
    have h1 : (upTo a (max a s)).filter p = [] := by
      rw [List.filter_eq_nil_iff]
      intro x hx
      rw [mem_upTo] at hx
      rw [hp x hx.1 (by omega)]
      omega
    have h2 : (upTo (max a s) (min b e)).filter p = upTo (max a s) (min b e) := by
      rw [List.filter_eq_self]
      intro x hx
      rw [mem_upTo] at hx
      rw [hp x (by omega) (by omega)]
      omega
    have h3 : (upTo (min b e) b).filter p = [] := by
      rw [List.filter_eq_nil_iff]
      intro x hx
      rw [mem_upTo] at hx
      rw [hp x (by omega) (by omega)]
      omega
    rw [h1, h2, h3, List.nil_append, List.append_nil]
  · rw [upTo_nil (by omega : min b e ≤ max a s), List.filter_eq_nil_iff]
    intro x hx
    rw [mem_upTo] at hx
    rw [hp x hx.1 hx.2]
    omega

theorem indices_eq (w : Window) : w.indices = upTo w.start w.stop := by
  unfold Window.indices
  rw [show List.range w.stop = upTo 0 w.stop by unfold upTo; rw [List.range_eq_range']; rfl,
    filter_upTo 0 w.stop w.start w.stop (by intro x _ h; simp; exact fun _ => h)]
  congr 1 <;> omega

/-- insertions at the end -/
theorem insEnd_keys {mk : Nat → NodeId × NodeId} (N : List Key) : ∀ {K : List Key} (i : Nat), N.Nodup →
    (insCalls mk none i N).foldl keyStep K = K.filter (fun x => decide (x ∉ N)) ++ N ∧
      KeysOk K (insCalls mk none i N) := by
  induction N with
  | nil =>
    intro K i _
    refine ⟨?_, trivial⟩
    simp only [insCalls, List.foldl_nil, List.append_nil]
    symm
    rw [List.filter_eq_self]
    simp
  | cons k N ih =>
    intro K i hn
    rw [List.nodup_cons] at hn
    obtain ⟨h1, h2⟩ := ih (K := K.filter (· != k) ++ [k]) (i + 1) hn.2
    have hstep : keyStep K (.insert k none (mk i).1 (mk i).2) = K.filter (· != k) ++ [k] := by
      simp only [keyStep, kPlace]
      rw [if_neg (by simp)]
    simp only [insCalls, List.foldl_cons, KeysOk, hstep]
    refine ⟨?_, (fun x hx => by cases hx), h2⟩
    rw [h1, List.filter_append, List.filter_filter]
    have e1 : [k].filter (fun x => decide (x ∉ N)) = [k] := by simp [hn.1]
    rw [e1, List.append_assoc]
    congr 1
    apply List.filter_congr
    intro x _
    by_cases hx : x = k <;> simp [hx]

/-- insertions before the first key -/
theorem insBefore_keys {mk : Nat → NodeId × NodeId} {a : Key} {K : List Key} (N : List Key) : ∀ (D : List Key) (i : Nat),
    (D ++ N ++ a :: K).Nodup →
    (insCalls mk (some a) i N).foldl keyStep (D ++ a :: K) = D ++ N ++ a :: K ∧
      KeysOk (D ++ a :: K) (insCalls mk (some a) i N) := by
  induction N with
  | nil => intro D i _; exact ⟨by simp [insCalls], trivial⟩
  | cons k N ih =>
    intro D i hn
    have hn' : (D ++ [k] ++ N ++ a :: K).Nodup := by simpa using hn
    obtain ⟨h1, h2⟩ := ih (D ++ [k]) (i + 1) hn'
    have hn2 : (k :: (D ++ (N ++ a :: K))).Nodup := by
      refine (List.perm_middle (a := k)).nodup_iff.1 ?_
      simpa using hn
    have hka : k ∉ D ++ (N ++ a :: K) := (List.nodup_cons.1 hn2).1
    have hk : k ∉ D ++ a :: K := by
      intro h
      apply hka
      simp only [List.mem_append, List.mem_cons] at h ⊢
      grind
    have haD : a ∉ D := by
      intro h
      exact (List.nodup_append.1 (List.nodup_cons.1 hn2).2).2.2 a h a (by simp) rfl
    have hstep : keyStep (D ++ a :: K) (.insert k (some a) (mk i).1 (mk i).2) = D ++ [k] ++ a :: K := by
      have : some a ≠ some k := by
        intro e
        simp only [Option.some.injEq] at e
        exact hk (by simp [e])
      simp only [keyStep, if_neg this, filter_ne_of_notMem hk, kPlace]
      rw [kBefore_split haD]
      simp
    simp only [insCalls, List.foldl_cons, KeysOk, hstep]
    refine ⟨by rw [h1]; simp, ?_, h2⟩
    intro x hx
    simp only [Option.some.injEq] at hx
    simp [hx]

theorem insCalls_mem {mk : Nat → NodeId × NodeId} {b : Option Key} {N : List Key} {op : Op} : ∀ {i : Nat},
    op ∈ insCalls mk b i N → ∃ k ∈ N, ∃ x y, op = .insert k b x y := by
  induction N with
  | nil => intro i h; cases h
  | cons k N ih =>
    intro i h
    rcases List.mem_cons.1 h with rfl | h
    · exact ⟨k, by simp, _, _, rfl⟩
    · obtain ⟨k', hk', x, y, e⟩ := ih h
      exact ⟨k', by simp [hk'], x, y, e⟩

/-- what is left after the removals -/
theorem removed_keys (a b s e : Nat) :
    (upTo a b).filter (fun x => decide (x ∉ virtualRemoved a b s e)) = upTo (max a s) (min b e) := by
  apply filter_upTo
  intro x h1 h2
  simp only [virtualRemoved, List.mem_append, mem_upTo, decide_eq_true_eq]
  omega

theorem virtualCalls_keys {mk : Nat → NodeId × NodeId} {a b s e : Nat} (h : ¬ (b ≤ a ∧ s < a ∧ a < e)) :
    (virtualCalls mk a b s e).foldl keyStep (upTo a b) = upTo s e ∧ KeysOk (upTo a b) (virtualCalls mk a b s e) := by
  unfold virtualCalls
  simp only
  -- the middle part
  have hmid : (insCalls mk (virtualRemaining a s e) 0 (upTo s (min e a))).foldl keyStep (upTo (max a s) (min b e)) =
        (if b ≤ a then upTo s (min e a) else upTo s (min e b)) ∧
      KeysOk (upTo (max a s) (min b e)) (insCalls mk (virtualRemaining a s e) 0 (upTo s (min e a))) := by
    by_cases hr : s ≤ a ∧ a < e
    · rw [virtualRemaining, if_pos hr]
      by_cases hsa : s = a
      · subst hsa
        rw [Nat.min_eq_right (by omega : s ≤ e), upTo_nil (Nat.le_refl s)]
        simp only [insCalls, List.foldl_nil, KeysOk, Nat.max_self, and_true]
        split
        · rw [upTo_nil (by omega)]
        · rw [Nat.min_comm]
      · have hab : a < b := by omega
        rw [if_neg (by omega), Nat.min_eq_right (by omega : a ≤ e), Nat.max_eq_left hr.1]
        have hc : upTo a (min b e) = a :: upTo (a + 1) (min b e) := upTo_cons (by omega)
        have hsp : upTo s (min e b) = upTo s a ++ a :: upTo (a + 1) (min b e) := by
          rw [← hc, Nat.min_comm, ← upTo_split hr.1 (by omega)]
        have hn : ([] ++ upTo s a ++ a :: upTo (a + 1) (min b e)).Nodup := by
          rw [List.nil_append, ← hsp]; exact nodup_upTo _ _
        obtain ⟨h1, h2⟩ := insBefore_keys (mk := mk) (upTo s a) [] 0 hn
        rw [hc, hsp]
        exact ⟨h1, h2⟩
    · rw [virtualRemaining, if_neg hr]
      obtain ⟨h1, h2⟩ := insEnd_keys (mk := mk) (K := upTo (max a s) (min b e)) (upTo s (min e a)) 0 (nodup_upTo _ _)
      refine ⟨?_, h2⟩
      rw [h1]
      by_cases hse : s < e
      · by_cases has : a < s
        · -- nothing to insert here
          rw [upTo_nil (by omega : min e a ≤ s), List.append_nil]
          have : (upTo (max a s) (min b e)).filter (fun x => decide (x ∉ ([] : List Key))) = upTo (max a s) (min b e) := by
            rw [List.filter_eq_self]; simp
          rw [this]
          split
          · rw [upTo_nil (by omega)]
          · rw [Nat.max_eq_right (by omega), Nat.min_comm]
        · have : upTo (max a s) (min b e) = [] := upTo_nil (by omega)
          rw [this, List.filter_nil, List.nil_append]
          split
          · rfl
          · congr 1; omega
      · rw [upTo_nil (by omega : min e a ≤ s), upTo_nil (by omega : min b e ≤ max a s)]
        simp only [List.filter_nil, List.append_nil]
        split
        · rfl
        · rw [upTo_nil (by omega)]
  have hlast : ∀ (i : Nat), (insCalls mk none i (upTo (max s b) e)).foldl keyStep
        (if b ≤ a then upTo s (min e a) else upTo s (min e b)) = upTo s e := by
    intro i
    rw [(insEnd_keys (mk := mk) (upTo (max s b) e) i (nodup_upTo _ _)).1]
    split
    · rename_i hba
      -- the window was empty
      have hfil : (upTo s (min e a)).filter (fun x => decide (x ∉ upTo (max s b) e)) = upTo s (min (min e a) (max s b)) := by
        have := filter_upTo s (min e a) s (max s b) (p := fun x => decide (x ∉ upTo (max s b) e)) (by
          intro x h1 h2
          simp only [mem_upTo, decide_eq_true_eq]
          omega)
        rw [this, Nat.max_self]
      rw [hfil]
      by_cases hse : s < e
      · by_cases hae : a < e
        · have : a ≤ s := by omega
          rw [upTo_nil (by omega : min (min e a) (max s b) ≤ s), Nat.max_eq_left (by omega)]
          rfl
        · by_cases hm : max s b ≤ e
          · rw [show min (min e a) (max s b) = max s b by omega, ← upTo_split (by omega) hm]
          · rw [upTo_nil (by omega : e ≤ max s b), show min (min e a) (max s b) = e by omega, List.append_nil]
      · rw [upTo_nil (by omega : e ≤ max s b), upTo_nil (by omega : min (min e a) (max s b) ≤ s), upTo_nil (by omega)]
        rfl
    · rename_i hba
      have hfil : (upTo s (min e b)).filter (fun x => decide (x ∉ upTo (max s b) e)) = upTo s (min e b) := by
        rw [List.filter_eq_self]
        intro x hx
        rw [mem_upTo] at hx
        simp only [mem_upTo, decide_eq_true_eq]
        omega
      rw [hfil]
      by_cases hse : s < e
      · by_cases hb : b ≤ s
        · rw [upTo_nil (by omega : min e b ≤ s), Nat.max_eq_left hb]; rfl
        · by_cases hbe : b ≤ e
          · rw [Nat.min_eq_right hbe, Nat.max_eq_right (by omega), ← upTo_split (by omega) hbe]
          · rw [upTo_nil (by omega : e ≤ max s b), Nat.min_eq_left (by omega), List.append_nil]
      · rw [upTo_nil (by omega : min e b ≤ s), upTo_nil (by omega : e ≤ max s b), upTo_nil (by omega)]
        rfl
  refine ⟨?_, ?_⟩
  · rw [List.foldl_append, List.foldl_append, removes_keys, removed_keys, hmid.1, hlast]
  · rw [keysOk_append, keysOk_append, List.foldl_append, removes_keys, removed_keys, hmid.1]
    exact ⟨⟨removes_ok _ _, hmid.2⟩, (insEnd_keys _ _ (nodup_upTo _ _)).2⟩

/-- the items in both windows stay -/
theorem virtualCalls_keep {mk : Nat → NodeId × NodeId} {a b s e k : Nat} (h1 : k ∈ upTo a b) (h2 : k ∈ upTo s e) :
    ∀ op ∈ virtualCalls mk a b s e, keepsKey k op = true := by
  intro op hop
  rw [mem_upTo] at h1 h2
  unfold virtualCalls at hop
  simp only [List.mem_append] at hop
  rcases hop with (hop | hop) | hop
  · obtain ⟨r, hr, rfl⟩ := List.mem_map.1 hop
    simp only [virtualRemoved, List.mem_append, mem_upTo] at hr
    simp only [keepsKey, bne_iff_ne, ne_eq]
    rintro rfl
    omega
  · obtain ⟨r, hr, x, y, rfl⟩ := insCalls_mem hop
    rw [mem_upTo] at hr
    simp only [keepsKey, bne_iff_ne, ne_eq]
    rintro rfl
    omega
  · obtain ⟨r, hr, x, y, rfl⟩ := insCalls_mem hop
    rw [mem_upTo] at hr
    simp only [keepsKey, bne_iff_ne, ne_eq]
    rintro rfl
    omega

end Verif.Lists
