import Verif.XBow.Bytes
/-!
# C47: different places of a store write different bytes to the hasher
-/
namespace Verif.XBow.Data

theorem leBytes_length : ∀ w n, (leBytes w n).length = w
  | 0, _ => rfl
  | w + 1, n => by simp [leBytes, leBytes_length w]

theorem leBytes_inj : ∀ w m n, m < 256 ^ w → n < 256 ^ w → leBytes w m = leBytes w n → m = n
  | 0, m, n, hm, hn, _ => by simp at hm hn; omega
  | w + 1, m, n, hm, hn, h => by
    simp only [leBytes, List.cons.injEq] at h
    have hm' : m / 256 < 256 ^ w := by
      rw [Nat.div_lt_iff_lt_mul (by decide), ← Nat.pow_succ]; exact hm
    have hn' : n / 256 < 256 ^ w := by
      rw [Nat.div_lt_iff_lt_mul (by decide), ← Nat.pow_succ]; exact hn
    have := leBytes_inj w _ _ hm' hn' h.2
    omega

theorem leBytes_prefix {w m n : Nat} (hm : m < 256 ^ w) (hn : n < 256 ^ w)
    (h : leBytes w m <+: leBytes w n) : m = n :=
  leBytes_inj w m n hm hn (h.eq_of_length (by simp [leBytes_length]))

theorem number_inj {skip : Ty → Nat → Nat → Bool} {t : Ty} {v i v' i' : Nat}
    (h : (v, i) ∈ slots skip t) (h' : (v', i') ∈ slots skip t)
    (he : number skip t v i = number skip t v' i') : (v, i) = (v', i') := by
  have h1 := List.getElem_idxOf (List.idxOf_lt_length_iff.2 h)
  have h2 := List.getElem_idxOf (List.idxOf_lt_length_iff.2 h')
  simp only [number] at he
  rw [← h1, ← h2]
  simp only [he]

theorem number_lt {skip : Ty → Nat → Nat → Bool} {t : Ty} {v i w : Nat}
    (h : (v, i) ∈ slots skip t) (hl : (slots skip t).length ≤ 256 ^ w) :
    number skip t v i < 256 ^ w :=
  Nat.lt_of_lt_of_le (List.idxOf_lt_length_iff.2 h) hl

/-- The layers above one type write a prefix code. -/
theorem writes_prefix {w : Nat} {enc : Nat → List Nat} {skip : Ty → Nat → Nat → Bool} {t u u' : Ty}
    {l m : Layer} (henc : KeysTellApart enc) (hl : Exists1 w skip t l) (hm : Exists1 w skip t m)
    (ho : out1 l t = some u) (ho' : out1 m t = some u')
    (h : writes w enc skip t l <+: writes w enc skip t m) : l = m := by
  cases t with
  | leaf => cases l <;> simp [out1] at ho
  | struct ts =>
    cases l <;> simp only [out1, reduceCtorEq] at ho
    cases m <;> simp only [out1, reduceCtorEq] at ho'
    have := number_inj hl.1 hm.1 (leBytes_prefix (number_lt hl.1 hl.2) (number_lt hm.1 hm.2) h)
    simp at this; rw [this]
  | enum vs =>
    cases l <;> simp only [out1, reduceCtorEq] at ho
    cases m <;> simp only [out1, reduceCtorEq] at ho'
    have := number_inj hl.1 hm.1 (leBytes_prefix (number_lt hl.1 hl.2) (number_lt hm.1 hm.2) h)
    simp at this; rw [this.1, this.2]
  | vec t =>
    cases l <;> simp only [out1, reduceCtorEq] at ho
    cases m <;> simp only [out1, reduceCtorEq] at ho'
    rw [leBytes_prefix hl hm h]
  | map t =>
    cases l <;> simp only [out1, reduceCtorEq] at ho
    cases m <;> simp only [out1, reduceCtorEq] at ho'
    rw [henc.prefixFree _ _ h]
  | box t =>
    cases l <;> simp only [out1, reduceCtorEq] at ho
    cases m <;> simp only [out1, reduceCtorEq] at ho'
    rfl
  | rc t =>
    cases l <;> simp only [out1, reduceCtorEq] at ho
    cases m <;> simp only [out1, reduceCtorEq] at ho'
    rfl

theorem writes_ne_nil {w : Nat} {enc : Nat → List Nat} {skip : Ty → Nat → Nat → Bool} (t : Ty)
    (l : Layer) (hw : 0 < w) (henc : KeysTellApart enc) : writes w enc skip t l ≠ [] := by
  have hle : ∀ n, leBytes w n ≠ [] := by
    intro n h
    have := leBytes_length w n
    rw [h] at this; simp at this; omega
  cases l <;> simp only [writes, ne_eq, reduceCtorEq, not_false_eq_true]
  · exact hle _
  · exact hle _
  · exact hle _
  · exact henc.something _

/-- **C47.** In a store of any type, what one path writes to the hasher is the beginning of what another
one writes exactly if the first path leads to a place around the other. -/
theorem bytes_prefix_iff {w : Nat} {enc : Nat → List Nat} {skip : Ty → Nat → Nat → Bool} {t : Ty}
    {p q : List Layer} (hw : 0 < w) (henc : KeysTellApart enc) (hp : Valid w skip t p)
    (hq : Valid w skip t q) : bytes w enc skip t p <+: bytes w enc skip t q ↔ p <+: q := by
  induction p generalizing t q with
  | nil => simp [bytes]
  | cons l p ih =>
    obtain ⟨hl, u, ho, hp⟩ := hp
    cases q with
    | nil => simp [bytes, writes_ne_nil t l hw henc]
    | cons m q =>
      obtain ⟨hm, u', ho', hq⟩ := hq
      simp only [bytes, ho, ho']
      constructor
      · intro h
        have hlm : l = m := by
          rcases List.prefix_or_prefix_of_prefix ((List.prefix_append _ _).trans h)
            (List.prefix_append _ _) with h1 | h1
          · exact writes_prefix henc hl hm ho ho' h1
          · exact (writes_prefix henc hm hl ho' ho h1).symm
        subst hlm
        rw [ho] at ho'
        cases ho'
        rw [List.prefix_append_right_inj, ih hp hq] at h
        exact (List.prefix_cons_inj l).2 h
      · intro h
        obtain ⟨rfl, h2⟩ := List.cons_prefix_cons.1 h
        rw [ho] at ho'
        cases ho'
        rw [List.prefix_append_right_inj, ih hp hq]
        exact h2

/-- **C47, consequence.** Different places write different bytes. -/
theorem bytes_inj {w : Nat} {enc : Nat → List Nat} {skip : Ty → Nat → Nat → Bool} {t : Ty}
    {p q : List Layer} (hw : 0 < w) (henc : KeysTellApart enc) (hp : Valid w skip t p)
    (hq : Valid w skip t q) (h : bytes w enc skip t p = bytes w enc skip t q) : p = q := by
  have h1 := (bytes_prefix_iff hw henc hp hq).1 (h ▸ List.prefix_refl _)
  have h2 := (bytes_prefix_iff hw henc hq hp).1 (h ▸ List.prefix_refl _)
  exact h1.eq_of_length (Nat.le_antisymm h1.length_le h2.length_le)

/-! Key types that meet the requirement: numbers, and strings (a `str` writes its bytes and `0xFF`, which
does not occur in UTF-8). Here a string stands for the number of its bytes' list in some enumeration. -/

theorem number_keys (w : Nat) (hw : 0 < w) (k k' : Nat) (hk : k < 256 ^ w) (hk' : k' < 256 ^ w) :
    leBytes w k ≠ [] ∧ (leBytes w k <+: leBytes w k' → k = k') := by
  refine ⟨?_, leBytes_prefix hk hk'⟩
  intro h
  have := leBytes_length w k
  rw [h] at this; simp at this; omega

theorem string_keys {s s' : List Nat} (hs : 255 ∉ s) (hs' : 255 ∉ s')
    (h : s ++ [255] <+: s' ++ [255]) : s = s' := by
  induction s generalizing s' with
  | nil =>
    cases s' with
    | nil => rfl
    | cons b s' =>
      simp at h hs'
      exact absurd h hs'.1
  | cons a s ih =>
    cases s' with
    | nil => simp at h
    | cons b s' =>
      simp only [List.cons_append] at h
      obtain ⟨rfl, h2⟩ := List.cons_prefix_cons.1 h
      simp only [List.mem_cons, not_or] at hs hs'
      rw [ih hs.2 hs'.2 h2]

/-- A unary encoding is prefix free: used in the examples. -/
def exEnc (k : Nat) : List Nat := List.replicate k 1 ++ [0]

theorem exEnc_ok : KeysTellApart exEnc := by
  refine ⟨?_, by simp [exEnc]⟩
  intro k
  induction k with
  | zero =>
    intro k' h
    cases k' with
    | zero => rfl
    | succ k' => simp [exEnc, List.replicate_succ] at h
  | succ k ih =>
    intro k' h
    cases k' with
    | zero => simp [exEnc, List.replicate_succ] at h
    | succ k' =>
      simp only [exEnc, List.replicate_succ, List.cons_append] at h
      rw [ih k' (List.cons_prefix_cons.1 h).2]

/-- A struct with a skipped field, a vector of enums, and a map. -/
def exTy : Ty := .struct [.leaf, .vec (.enum [[.leaf, .leaf], [.leaf]]), .map (.box .leaf)]

def exSkip (t : Ty) (_v i : Nat) : Bool :=
  match t with
  | .struct _ => i == 0
  | _ => false

example : Valid 4 exSkip exTy [.field 1, .index 300, .variant 1 0] ∧
    Valid 4 exSkip exTy [.field 2, .key 2, .deref] ∧ 0 < 4 ∧ KeysTellApart exEnc := by
  simp [Valid, Exists1, slots, exTy, exSkip, out1, exEnc_ok, List.range, List.range.loop]

example : bytes 4 exEnc exSkip exTy [.field 1, .index 300, .variant 1 0] =
    [0, 0, 0, 0, 44, 1, 0, 0, 2, 0, 0, 0] ∧
    bytes 4 exEnc exSkip exTy [.field 2, .key 2, .deref] = [1, 0, 0, 0, 1, 1, 0, 0] := by
  decide +kernel

/-- **C47 fails without the requirement**: for a map whose keys write nothing (`()`), the place of an
entry writes the same as the place of the whole map, in every store and for every such map. -/
theorem unit_key_same_bytes (w : Nat) (enc : Nat → List Nat) (skip : Ty → Nat → Nat → Bool) (k : Nat)
    (hk : enc k = []) : ∀ (p : List Layer) (t v : Ty), outTy p t = some (.map v) →
    bytes w enc skip t (p ++ [.key k]) = bytes w enc skip t p
  | [], t, v, h => by
    simp only [outTy, Option.some.injEq] at h
    subst h
    simp [bytes, writes, out1, hk]
  | l :: p, t, v, h => by
    simp only [outTy, Option.bind_eq_some_iff] at h
    obtain ⟨u, ho, h⟩ := h
    simp only [List.cons_append, bytes, ho, unit_key_same_bytes w enc skip k hk p u v h]

end Verif.XBow.Data
