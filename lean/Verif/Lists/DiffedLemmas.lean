import Verif.Lists.DiffedSpec
import Verif.Lists.Keys
/-! # The loop of `DiffedList::update` -/
namespace Verif.Lists
open Verif.Dom

variable {mk : Key → NodeId × NodeId}

theorem head_mem {p : Key} {it : List Key} (h : it.head? = some p) : p ∈ it := List.mem_of_head? h

theorem perm_filter_ne {k : Key} {l : List Key} (hn : l.Nodup) (hk : k ∈ l) : (k :: l.filter (· != k)).Perm l := by
  induction l with
  | nil => cases hk
  | cons a l ih =>
    rw [List.nodup_cons] at hn
    by_cases ha : a = k
    · subst ha
      rw [List.filter_cons_of_neg (by simp), filter_ne_of_notMem hn.1]
    · rw [List.filter_cons_of_pos (by simpa using ha)]
      have hk' : k ∈ l := by
        rcases List.mem_cons.1 hk with h | h
        · exact absurd h.symm ha
        · exact h
      exact (List.Perm.swap ..).trans ((ih hn.2 hk').cons a)

/-- Whatever the order of the list, the calls are fine and lead to the right keys. -/
theorem diffLoop_perm (keys : List Key) : ∀ (set it K A : List Key), K.Nodup → K.Perm (A ++ set) → keys.Nodup →
    (∀ k ∈ keys, k ∉ A) → (∀ p ∈ it, p ∈ A ++ set) →
    KeysOk K (diffLoop mk set it keys).1 ∧
    ((diffLoop mk set it keys).1.foldl keyStep K).Perm (A ++ keys ++ (diffLoop mk set it keys).2) ∧
    (∀ k, k ∈ (diffLoop mk set it keys).2 ↔ k ∈ set ∧ k ∉ keys) := by
  induction keys with
  | nil =>
    intro set it K A _ hp _ _ _
    exact ⟨trivial, by simpa [diffLoop] using hp, by simp [diffLoop]⟩
  | cons k keys ih =>
    intro set it K A hK hp hn hA hit
    rw [List.nodup_cons] at hn
    have hkA : k ∉ A := hA k (by simp)
    have hnd : (A ++ set).Nodup := hp.nodup_iff.1 hK
    have hAs := List.nodup_append.1 hnd
    have hkeys : ∀ x ∈ keys, x ∉ A ++ [k] := by
      intro x hx
      simp only [List.mem_append, List.mem_singleton, not_or]
      exact ⟨hA x (by simp [hx]), fun e => hn.1 (e ▸ hx)⟩
    by_cases hks : k ∈ set
    · have hps : (k :: set.filter (· != k)).Perm set := perm_filter_ne hAs.2.1 hks
      have hp' : K.Perm ((A ++ [k]) ++ set.filter (· != k)) := by
        refine hp.trans ?_
        rw [List.append_assoc]
        exact (hps.symm.append_left A)
      have hmem : ∀ p, p ∈ A ++ set → p ∈ (A ++ [k]) ++ set.filter (· != k) := by
        intro p hpm
        exact (hp.symm.trans hp').mem_iff.1 hpm
      by_cases hh : it.head? = some k
      · have e : diffLoop mk set it (k :: keys) = diffLoop mk (set.filter (· != k)) it.tail keys := by
          simp only [diffLoop, if_pos hks, if_pos hh]
        rw [e]
        obtain ⟨h1, h2, h3⟩ := ih (set.filter (· != k)) it.tail K (A ++ [k]) hK hp' hn.2 hkeys
          (fun p hpi => hmem p (hit p (List.mem_of_mem_tail hpi)))
        refine ⟨h1, ?_, ?_⟩
        · simpa [List.append_assoc] using h2
        · intro x
          rw [h3]
          simp only [List.mem_filter, bne_iff_ne, ne_eq, List.mem_cons, not_or]
          grind
      · have e : diffLoop mk set it (k :: keys) = (.moveBefore k it.head? :: (diffLoop mk (set.filter (· != k)) it keys).1,
            (diffLoop mk (set.filter (· != k)) it keys).2) := by
          simp only [diffLoop, if_pos hks, if_neg hh]
        rw [e]
        have hkK : k ∈ K := hp.mem_iff.2 (List.mem_append_right _ hks)
        have hb : ∀ k', it.head? = some k' → k' ∈ K ∧ k' ≠ k := by
          intro k' hk'
          refine ⟨hp.mem_iff.2 (hit k' (head_mem hk')), ?_⟩
          rintro rfl
          exact hh hk'
        have hstep : (keyStep K (.moveBefore k it.head?)).Perm K := by
          simp only [keyStep, if_pos hkK]
          refine (kPlace_perm ?_).trans (perm_filter_ne hK hkK)
          intro x hx
          obtain ⟨h1, h2⟩ := hb x hx
          exact List.mem_filter.2 ⟨h1, by simpa using h2⟩
        obtain ⟨h1, h2, h3⟩ := ih (set.filter (· != k)) it (keyStep K (.moveBefore k it.head?)) (A ++ [k])
          (hstep.nodup_iff.2 hK) (hstep.trans hp') hn.2 hkeys (fun p hpi => hmem p (hit p hpi))
        refine ⟨⟨⟨hkK, hb⟩, h1⟩, ?_, ?_⟩
        · simpa [List.append_assoc] using h2
        · intro x
          show x ∈ (diffLoop mk (set.filter (· != k)) it keys).2 ↔ _
          rw [h3]
          simp only [List.mem_filter, bne_iff_ne, ne_eq, List.mem_cons, not_or]
          grind
    · have e : diffLoop mk set it (k :: keys) = (.insert k it.head? (mk k).1 (mk k).2 :: (diffLoop mk set it keys).1,
            (diffLoop mk set it keys).2) := by
          simp only [diffLoop, if_neg hks]
      rw [e]
      have hkK : k ∉ K := fun h => by
        rcases List.mem_append.1 (hp.mem_iff.1 h) with h | h
        · exact hkA h
        · exact hks h
      have hb : ∀ k', it.head? = some k' → k' ∈ K := fun k' hk' => hp.mem_iff.2 (hit k' (head_mem hk'))
      have hne : it.head? ≠ some k := fun h => hkK (hb k h)
      have hstep : (keyStep K (.insert k it.head? (mk k).1 (mk k).2)).Perm (k :: K) := by
        simp only [keyStep, if_neg hne, filter_ne_of_notMem hkK]
        exact kPlace_perm hb
      obtain ⟨h1, h2, h3⟩ := ih set it (keyStep K (.insert k it.head? (mk k).1 (mk k).2)) (A ++ [k])
        (hstep.nodup_iff.2 (List.nodup_cons.2 ⟨hkK, hK⟩))
        (hstep.trans (by
          rw [List.append_assoc]
          exact (hp.cons k).trans (List.perm_middle.symm))) hn.2 hkeys
        (fun p hpi => by
          have := hit p hpi
          simp only [List.mem_append, List.mem_singleton] at this ⊢
          grind)
      refine ⟨⟨hb, h1⟩, ?_, ?_⟩
      · simpa [List.append_assoc] using h2
      · intro x
        show x ∈ (diffLoop mk set it keys).2 ↔ _
        rw [h3]
        simp only [List.mem_cons, not_or]
        grind

/-- `Smooth` in the middle of an update: `A` are the new keys already processed. -/
def SmoothFrom (it A keys : List Key) : Prop :=
  ∀ A' B', keys = A' ++ B' → B' ≠ [] → ¬ ∃ p, (leftover it A').head? = some p ∧ p ∈ A ++ A'

theorem smooth_iff (prev keys : List Key) : Smooth prev keys ↔ SmoothFrom prev [] keys := Iff.rfl

theorem leftover_cons (it A : List Key) (k : Key) :
    leftover it (k :: A) = leftover (if it.head? = some k then it.tail else it) A := rfl

theorem smoothFrom_cons {it A keys : List Key} {k : Key} (h : ¬ ∃ p, it.head? = some p ∧ p ∈ A) :
    SmoothFrom it A (k :: keys) ↔ SmoothFrom (if it.head? = some k then it.tail else it) (A ++ [k]) keys := by
  constructor
  · intro hs A' B' e hB
    have := hs (k :: A') B' (by rw [e]; rfl) hB
    rw [leftover_cons] at this
    simpa [List.append_assoc] using this
  · intro hs A' B' e hB
    cases A' with
    | nil => simpa [leftover] using h
    | cons a A' =>
      simp only [List.cons_append, List.cons.injEq] at e
      obtain ⟨rfl, e⟩ := e
      have := hs A' B' e hB
      rw [leftover_cons]
      simpa [List.append_assoc] using this

/-- Once the walk is stuck, all further keys end up in front of the key it waits for. -/
theorem diffLoop_stuck (keys : List Key) : ∀ (set it C A1 A2 R : List Key) (p : Key), it.head? = some p →
    (A1 ++ C ++ p :: (A2 ++ R)).Nodup → keys.Nodup → (∀ k ∈ keys, k ∉ A1 ++ C ++ p :: A2) →
    (∀ k, k ∈ R ↔ k ∈ set) →
    (diffLoop mk set it keys).1.foldl keyStep (A1 ++ C ++ p :: (A2 ++ R)) =
      A1 ++ (C ++ keys) ++ p :: (A2 ++ R.filter (fun x => decide (x ∉ keys))) := by
  induction keys with
  | nil =>
    intro set it C A1 A2 R p _ _ _ _ _
    have : R.filter (fun x => decide (x ∉ ([] : List Key))) = R := by
      rw [List.filter_eq_self]; simp
    rw [this]; simp [diffLoop]
  | cons k keys ih =>
    intro set it C A1 A2 R p hh hnd hn hk hR
    rw [List.nodup_cons] at hn
    have hkp : k ∉ A1 ++ C ++ p :: A2 := hk k (by simp)
    simp only [List.mem_append, List.mem_cons, not_or] at hkp
    obtain ⟨⟨hk1, hkC⟩, hkp, hk2⟩ := hkp
    have hpne : it.head? ≠ some k := by rw [hh]; intro e; exact hkp (Option.some.inj e).symm
    have hpA : p ∉ A1 ++ C := by
      rw [List.nodup_append] at hnd
      intro hm
      exact hnd.2.2 p hm p (by simp) rfl
    have hfil : ∀ (S : List Key), S.filter (fun x => decide (x ∉ k :: keys)) =
        (S.filter (· != k)).filter (fun x => decide (x ∉ keys)) := by
      intro S
      rw [List.filter_filter]
      apply List.filter_congr
      intro x _
      simp only [List.mem_cons, not_or]
      by_cases h1 : x = k <;> by_cases h2 : x ∈ keys <;> simp [h1, h2]
    have hfk : (A1 ++ C ++ p :: (A2 ++ R)).filter (· != k) = A1 ++ C ++ p :: (A2 ++ R.filter (· != k)) := by
      rw [List.filter_append, List.filter_append, List.filter_cons_of_pos (by simpa using fun e => hkp e.symm),
        List.filter_append, filter_ne_of_notMem hk1, filter_ne_of_notMem hkC, filter_ne_of_notMem hk2]
    have hplace : kBefore k p (A1 ++ C ++ p :: (A2 ++ R.filter (· != k))) =
        A1 ++ (C ++ [k]) ++ p :: (A2 ++ R.filter (· != k)) := by
      rw [kBefore_split hpA]; simp
    have hnd' : (A1 ++ (C ++ [k]) ++ p :: (A2 ++ R.filter (· != k))).Nodup := by
      have hpm : (A1 ++ (C ++ [k]) ++ p :: (A2 ++ R.filter (· != k))).Perm
          (k :: (A1 ++ C ++ p :: (A2 ++ R.filter (· != k)))) := by
        rw [show A1 ++ (C ++ [k]) ++ p :: (A2 ++ R.filter (· != k)) =
          (A1 ++ C) ++ k :: (p :: (A2 ++ R.filter (· != k))) by simp]
        exact List.perm_middle
      rw [hpm.nodup_iff, List.nodup_cons]
      rw [← hfk]
      exact ⟨by simp, hnd.filter _⟩
    have hkeys : ∀ x ∈ keys, x ∉ A1 ++ (C ++ [k]) ++ p :: A2 := by
      intro x hx
      have := hk x (by simp [hx])
      have hxk : x ≠ k := fun e => hn.1 (e ▸ hx)
      simp only [List.mem_append, List.mem_cons, not_or, List.not_mem_nil, or_false] at this ⊢
      grind
    by_cases hks : k ∈ set
    · have e : diffLoop mk set it (k :: keys) = (.moveBefore k it.head? :: (diffLoop mk (set.filter (· != k)) it keys).1,
            (diffLoop mk (set.filter (· != k)) it keys).2) := by
        simp only [diffLoop, if_pos hks, if_neg hpne]
      have hkK : k ∈ A1 ++ C ++ p :: (A2 ++ R) := by
        have := (hR k).2 hks
        simp [this]
      rw [e, List.foldl_cons]
      simp only [keyStep, if_pos hkK, hh, kPlace]
      rw [hfk, hplace, ih (set.filter (· != k)) it (C ++ [k]) A1 A2 (R.filter (· != k)) p hh hnd' hn.2 hkeys (by
        intro x; simp only [List.mem_filter, hR]), hfil]
      simp
    · have e : diffLoop mk set it (k :: keys) = (.insert k it.head? (mk k).1 (mk k).2 :: (diffLoop mk set it keys).1,
            (diffLoop mk set it keys).2) := by
        simp only [diffLoop, if_neg hks]
      have hkR : k ∉ R := fun h => hks ((hR k).1 h)
      have hRk : R.filter (· != k) = R := filter_ne_of_notMem hkR
      rw [e, List.foldl_cons]
      simp only [keyStep, if_neg hpne]
      rw [hfk, hh]
      simp only [kPlace]
      rw [hplace, hfil]
      rw [hRk] at hnd' ⊢
      rw [ih set it (C ++ [k]) A1 A2 R p hh hnd' hn.2 hkeys hR]
      simp

/-- What the loop does to a list that is in the order of the old keys. -/
theorem diffLoop_order (keys : List Key) : ∀ (set it A : List Key),
    (A ++ it.filter (fun x => decide (x ∉ A))).Nodup → it.Nodup → keys.Nodup → (∀ k ∈ keys, k ∉ A) →
    (∀ k, k ∈ set ↔ k ∈ it ∧ k ∉ A) →
    ∃ R, (∀ x ∈ R, x ∈ set ∧ x ∉ keys) ∧
      (SmoothFrom it A keys →
        (diffLoop mk set it keys).1.foldl keyStep (A ++ it.filter (fun x => decide (x ∉ A))) = A ++ keys ++ R) ∧
      (¬ SmoothFrom it A keys → ∃ A1 p A2 B, B ≠ [] ∧ p ∉ B ∧ A ++ keys = A1 ++ p :: (A2 ++ B) ∧
        (diffLoop mk set it keys).1.foldl keyStep (A ++ it.filter (fun x => decide (x ∉ A))) =
          A1 ++ B ++ p :: (A2 ++ R)) := by
  induction keys with
  | nil =>
    intro set it A _ _ _ _ hset
    refine ⟨it.filter (fun x => decide (x ∉ A)), ?_, ?_, ?_⟩
    · intro x hx
      rw [List.mem_filter] at hx
      exact ⟨(hset x).2 ⟨hx.1, by simpa using hx.2⟩, by simp⟩
    · intro _; simp [diffLoop]
    · intro h
      refine absurd ?_ h
      intro A' B' e hB
      have := List.append_eq_nil_iff.1 e.symm
      exact absurd this.2 hB
  | cons k keys ih =>
    intro set it A hnd hit hn hA hset
    by_cases hst : ∃ p, it.head? = some p ∧ p ∈ A
    · -- stuck
      obtain ⟨p, hp, hpA⟩ := hst
      obtain ⟨A1, A2, rfl⟩ := List.append_of_mem hpA
      refine ⟨(it.filter (fun x => decide (x ∉ A1 ++ p :: A2))).filter (fun x => decide (x ∉ k :: keys)), ?_, ?_, ?_⟩
      · intro x hx
        simp only [List.mem_filter, decide_eq_true_eq] at hx
        exact ⟨(hset x).2 hx.1, hx.2⟩
      · intro hs
        exact absurd ⟨p, hp, by simp⟩ (hs [] (k :: keys) rfl (by simp))
      · intro _
        refine ⟨A1, p, A2, k :: keys, by simp, ?_, by simp, ?_⟩
        · intro hm; exact hA p hm (by simp)
        · have := diffLoop_stuck (mk := mk) (k :: keys) set it [] A1 A2
            (it.filter (fun x => decide (x ∉ A1 ++ p :: A2))) p hp (by simpa using hnd) hn (by simpa using hA)
            (by intro x; rw [hset, List.mem_filter, decide_eq_true_eq])
          simpa using this
    · rw [smoothFrom_cons hst]
      have hkA : k ∉ A := hA k (by simp)
      rw [List.nodup_cons] at hn
      have hkeys : ∀ x ∈ keys, x ∉ A ++ [k] := by
        intro x hx
        simp only [List.mem_append, List.mem_singleton, not_or]
        exact ⟨hA x (by simp [hx]), fun e => hn.1 (e ▸ hx)⟩
      -- the list after the step
      have hfin : ∀ (it' set' : List Key) (ops : List Op),
          (diffLoop mk set it (k :: keys)).1 = ops ++ (diffLoop mk set' it' keys).1 →
          ops.foldl keyStep (A ++ it.filter (fun x => decide (x ∉ A))) =
            (A ++ [k]) ++ it'.filter (fun x => decide (x ∉ A ++ [k])) →
          (if it.head? = some k then it.tail else it) = it' →
          ((A ++ [k]) ++ it'.filter (fun x => decide (x ∉ A ++ [k]))).Nodup → it'.Nodup →
          (∀ x, x ∈ set' ↔ x ∈ it' ∧ x ∉ A ++ [k]) → (∀ x ∈ set', x ∈ set ∧ x ≠ k) →
          ∃ R, (∀ x ∈ R, x ∈ set ∧ x ∉ k :: keys) ∧
            (SmoothFrom (if it.head? = some k then it.tail else it) (A ++ [k]) keys →
              (diffLoop mk set it (k :: keys)).1.foldl keyStep (A ++ it.filter (fun x => decide (x ∉ A))) =
                A ++ k :: keys ++ R) ∧
            (¬ SmoothFrom (if it.head? = some k then it.tail else it) (A ++ [k]) keys →
              ∃ A1 p A2 B, B ≠ [] ∧ p ∉ B ∧ A ++ k :: keys = A1 ++ p :: (A2 ++ B) ∧
              (diffLoop mk set it (k :: keys)).1.foldl keyStep (A ++ it.filter (fun x => decide (x ∉ A))) =
                A1 ++ B ++ p :: (A2 ++ R)) := by
        intro it' set' ops h1 h2 h3 h4 h5 h6 h7
        obtain ⟨R, r1, r2, r3⟩ := ih set' it' (A ++ [k]) h4 h5 hn.2 hkeys h6
        rw [h3, h1, List.foldl_append, h2]
        refine ⟨R, ?_, ?_, ?_⟩
        · intro x hx
          obtain ⟨q1, q2⟩ := r1 x hx
          obtain ⟨q3, q4⟩ := h7 x q1
          exact ⟨q3, by simp [q4, q2]⟩
        · intro hs; rw [r2 hs]; simp
        · intro hs
          obtain ⟨A1, p, A2, B, g1, g2, g3, g4⟩ := r3 hs
          exact ⟨A1, p, A2, B, g1, g2, by rw [← g3]; simp, g4⟩
      have hfilk : ∀ (S : List Key), S.filter (fun x => decide (x ∉ A ++ [k])) =
          (S.filter (fun x => decide (x ∉ A))).filter (· != k) := by
        intro S
        rw [List.filter_filter]
        apply List.filter_congr
        intro x _
        simp only [List.mem_append, List.mem_singleton, not_or]
        by_cases h1 : x = k <;> by_cases h2 : x ∈ A <;> simp [h1, h2]
      by_cases hh : it.head? = some k
      · -- the key comes up in its turn
        cases it with
        | nil => cases hh
        | cons a t =>
          simp only [List.head?_cons, Option.some.injEq] at hh
          subst hh
          rw [List.nodup_cons] at hit
          have hks : a ∈ set := (hset a).2 ⟨by simp, hkA⟩
          have hta : a ∉ t.filter (fun x => decide (x ∉ A)) := fun h => hit.1 (List.mem_filter.1 h).1
          have heq : A ++ (a :: t).filter (fun x => decide (x ∉ A)) =
              (A ++ [a]) ++ t.filter (fun x => decide (x ∉ A ++ [a])) := by
            rw [hfilk, filter_ne_of_notMem hta, List.filter_cons_of_pos (by simpa using hkA)]
            simp
          refine hfin t (set.filter (· != a)) [] ?_ heq ?_ (heq ▸ hnd) hit.2 ?_ ?_
          · simp only [diffLoop, if_pos hks, List.head?_cons, if_true, List.tail_cons, List.nil_append]
          · simp
          · intro x
            simp only [List.mem_filter, hset, bne_iff_ne, ne_eq, List.mem_cons, List.mem_append, List.not_mem_nil,
              or_false, not_or]
            have := hit.1
            grind
          · intro x hx
            simp only [List.mem_filter, bne_iff_ne, ne_eq] at hx
            exact hx
      · by_cases hks : k ∈ set
        · -- the key is moved
          obtain ⟨hkit, -⟩ := (hset k).1 hks
          cases it with
          | nil => cases hkit
          | cons p t =>
            have hpk : p ≠ k := by simpa using hh
            have hpA : p ∉ A := fun h => hst ⟨p, rfl, h⟩
            have hKeq : A ++ (p :: t).filter (fun x => decide (x ∉ A)) = A ++ p :: t.filter (fun x => decide (x ∉ A)) := by
              rw [List.filter_cons_of_pos (by simpa using hpA)]
            have heq : [Op.moveBefore k (p :: t).head?].foldl keyStep (A ++ (p :: t).filter (fun x => decide (x ∉ A))) =
                (A ++ [k]) ++ (p :: t).filter (fun x => decide (x ∉ A ++ [k])) := by
              have hkK : k ∈ A ++ (p :: t).filter (fun x => decide (x ∉ A)) :=
                List.mem_append_right _ (List.mem_filter.2 ⟨hkit, by simpa using hkA⟩)
              simp only [List.foldl_cons, List.foldl_nil, keyStep, if_pos hkK, List.head?_cons, kPlace]
              rw [hKeq, List.filter_append, filter_ne_of_notMem hkA, List.filter_cons_of_pos (by simpa using hpk),
                kBefore_split hpA, hfilk, List.filter_cons_of_pos (by simpa using hpA),
                List.filter_cons_of_pos (by simpa using hpk)]
              simp
            refine hfin (p :: t) (set.filter (· != k)) [.moveBefore k (p :: t).head?] ?_ heq ?_ ?_ hit ?_ ?_
            · simp only [diffLoop, if_pos hks, if_neg hh, List.cons_append, List.nil_append]
            · rw [if_neg hh]
            · have hp2 : ((A ++ [k]) ++ (p :: t).filter (fun x => decide (x ∉ A ++ [k]))).Perm
                  (A ++ (p :: t).filter (fun x => decide (x ∉ A))) := by
                rw [hfilk, List.append_assoc]
                refine List.Perm.append_left A ?_
                refine perm_filter_ne (List.nodup_append.1 hnd).2.1 ?_
                exact List.mem_filter.2 ⟨hkit, by simpa using hkA⟩
              exact hp2.nodup_iff.2 hnd
            · intro x
              simp only [List.mem_filter, hset, bne_iff_ne, ne_eq, List.mem_append, List.mem_singleton, not_or]
              grind
            · intro x hx
              simp only [List.mem_filter, bne_iff_ne, ne_eq] at hx
              exact hx
        · -- the key is new
          have hkit : k ∉ it := fun h => hks ((hset k).2 ⟨h, hkA⟩)
          have hkf : k ∉ it.filter (fun x => decide (x ∉ A)) := fun h => hkit (List.mem_filter.1 h).1
          have hKk : k ∉ A ++ it.filter (fun x => decide (x ∉ A)) := by
            simp only [List.mem_append, not_or]; exact ⟨hkA, hkf⟩
          have heq : [Op.insert k it.head? (mk k).1 (mk k).2].foldl keyStep (A ++ it.filter (fun x => decide (x ∉ A))) =
              (A ++ [k]) ++ it.filter (fun x => decide (x ∉ A ++ [k])) := by
            simp only [List.foldl_cons, List.foldl_nil, keyStep, if_neg hh]
            rw [filter_ne_of_notMem hKk, hfilk, filter_ne_of_notMem hkf]
            cases it with
            | nil => simp [kPlace]
            | cons p t =>
              have hpA : p ∉ A := fun h => hst ⟨p, rfl, h⟩
              rw [List.filter_cons_of_pos (by simpa using hpA)]
              simp only [List.head?_cons, kPlace]
              rw [kBefore_split hpA]
              simp
          refine hfin it set [.insert k it.head? (mk k).1 (mk k).2] ?_ heq (by rw [if_neg hh]) ?_ hit ?_ ?_
          · simp only [diffLoop, if_neg hks, List.cons_append, List.nil_append]
          · have hp2 : ((A ++ [k]) ++ it.filter (fun x => decide (x ∉ A ++ [k]))).Perm
                (k :: (A ++ it.filter (fun x => decide (x ∉ A)))) := by
              rw [hfilk, filter_ne_of_notMem hkf, List.append_assoc]
              exact List.perm_middle
            exact hp2.nodup_iff.2 (List.nodup_cons.2 ⟨hKk, hnd⟩)
          · intro x
            rw [hset]
            simp only [List.mem_append, List.mem_singleton, not_or]
            grind
          · intro x hx
            exact ⟨hx, fun e => hks (e ▸ hx)⟩

end Verif.Lists
