import Verif.Css.Props
/-!
# Exactly which sheets reach the browser unchanged
-/
namespace Verif.Css

/-- `\x..` and `\u..` stand for one character and take more than one. -/
def Shortens (special : Text → Option (Char × Text)) : Prop :=
  ∀ t x es, special t = some (x, es) → es.length < t.length

theorem cook_length {special : Text → Option (Char × Text)} (hsp : Shortens special) :
    ∀ (n : Nat) (t u : Text), cook special n t = some u →
      u.length ≤ t.length ∧ ('\\' ∈ t → u.length < t.length) ∧ '`' ∉ t.take (if '\\' ∈ t then 0 else t.length) ∧
        ('\\' ∉ t → u = t ∧ ¬ ['$', '{'] <:+: t) := by
  intro n
  induction n with
  | zero =>
    intro t u h
    cases t with
    | nil => simp only [cook, Option.some.injEq] at h; subst h; simp
    | cons c cs => simp [cook] at h
  | succ n ih =>
    intro t u h
    cases t with
    | nil => simp only [cook, Option.some.injEq] at h; subst h; simp
    | cons c cs =>
      rw [cook.eq_def] at h
      simp only [] at h
      by_cases h1 : c = '`'
      · rw [if_pos h1] at h; cases h
      rw [if_neg h1] at h
      by_cases h2 : c = '$' ∧ cs.head? = some '{'
      · rw [if_pos h2] at h; cases h
      rw [if_neg h2] at h
      by_cases h3 : c = '\\'
      · subst h3
        rw [if_neg (by simp)] at h
        have key : u.length < ('\\' :: cs).length → u.length ≤ ('\\' :: cs).length ∧
            ('\\' ∈ '\\' :: cs → u.length < ('\\' :: cs).length) ∧
            '`' ∉ ('\\' :: cs).take (if '\\' ∈ '\\' :: cs then 0 else ('\\' :: cs).length) ∧
            ('\\' ∉ '\\' :: cs → u = '\\' :: cs ∧ ¬ ['$', '{'] <:+: '\\' :: cs) := by
          intro hl
          exact ⟨Nat.le_of_lt hl, fun _ => hl, by simp, by simp⟩
        apply key
        have one : ∀ (x : Char) (es : Text), (cook special n es).map (x :: ·) = some u → u.length ≤ es.length + 1 := by
          intro x es hm
          rw [Option.map_eq_some_iff] at hm
          obtain ⟨v, hv, rfl⟩ := hm
          have := (ih es v hv).1
          simpa using this
        cases cs with
        | nil => cases h
        | cons e es =>
          simp only [] at h
          have goal : u.length ≤ es.length + 1 → u.length < ('\\' :: e :: es).length := by
            intro hl; simp only [List.length_cons]; omega
          split at h
          · have := (ih es u h).1
            simp only [List.length_cons]; omega
          split at h
          · exact goal (one _ _ h)
          split at h
          · exact goal (one _ _ h)
          split at h
          · exact goal (one _ _ h)
          split at h
          · exact goal (one _ _ h)
          split at h
          · exact goal (one _ _ h)
          split at h
          · exact goal (one _ _ h)
          split at h
          · split at h
            · cases h
            · exact goal (one _ _ h)
          split at h
          · cases h
          split at h
          · simp only [Option.bind_eq_bind, Option.bind_eq_some_iff] at h
            obtain ⟨⟨x, rs⟩, hs, hm⟩ := h
            have h4 := hsp _ _ _ hs
            have h5 : u.length ≤ rs.length + 1 := one _ _ hm
            simp only [List.length_cons] at h4 ⊢
            omega
          · exact goal (one _ _ h)
      · rw [if_pos h3] at h
        rw [Option.map_eq_some_iff] at h
        obtain ⟨v, hv, rfl⟩ := h
        obtain ⟨i1, i2, i3, i4⟩ := ih cs v hv
        have hm : '\\' ∈ c :: cs ↔ '\\' ∈ cs := by simp [Ne.symm h3]
        refine ⟨by simpa using i1, fun h => by simpa using i2 (hm.1 h), ?_, ?_⟩
        · by_cases hb : '\\' ∈ cs
          · rw [if_pos (hm.2 hb)]; simp
          · rw [if_neg (fun h => hb (hm.1 h))]
            rw [if_neg hb] at i3
            simp only [List.take_length, List.mem_cons, not_or] at i3 ⊢
            exact ⟨fun e => h1 e.symm, i3⟩
        · intro hb
          obtain ⟨rfl, i5⟩ := i4 (fun h => hb (hm.2 h))
          refine ⟨rfl, ?_⟩
          intro hi
          rw [List.infix_cons_iff] at hi
          rcases hi with hi | hi
          · rw [List.cons_prefix_cons] at hi
            refine h2 ⟨hi.1.symm, ?_⟩
            obtain ⟨r, hr⟩ := hi.2
            rw [← hr]; rfl
          · exact i5 hi

theorem toLf_length (t : Text) : (toLf t).length ≤ t.length := by
  induction t using toLf.induct with
  | case1 cs ih => rw [toLf]; simp only [List.length_cons]; omega
  | case2 cs h ih => rw [toLf]; simp only [List.length_cons]; omega; exact h
  | case3 c cs h1 h2 ih => rw [toLf]; simp only [List.length_cons]; omega; exact h1; exact h2
  | case4 => simp [toLf]

theorem toLf_cr (t : Text) : '\r' ∉ toLf t := by
  induction t using toLf.induct with
  | case1 cs ih => rw [toLf]; simp [ih]
  | case2 cs h ih => rw [toLf]; simp [ih]; exact h
  | case3 c cs h1 h2 ih =>
    rw [toLf]
    · simp only [List.mem_cons, not_or]
      exact ⟨fun e => h2 e.symm, ih⟩
    · exact h1
    · exact h2
  | case4 => simp [toLf]

theorem cook_plain (special : Text → Option (Char × Text)) {t : Text} : ∀ {n}, t.length ≤ n →
    '`' ∉ t → '\\' ∉ t → ¬ ['$', '{'] <:+: t → cook special n t = some t := by
  induction t with
  | nil => intro n _ _ _ _; cases n <;> rfl
  | cons c cs ih =>
    intro n hn h1 h2 h3
    cases n with
    | zero => simp at hn
    | succ n =>
      have c1 : c ≠ '`' := fun e => h1 (by simp [e])
      have c2 : c ≠ '\\' := fun e => h2 (by simp [e])
      have c3 : ¬ (c = '$' ∧ cs.head? = some '{') := by
        rintro ⟨rfl, hh⟩
        cases cs with
        | nil => cases hh
        | cons d ds =>
          simp only [List.head?_cons, Option.some.injEq] at hh
          subst hh
          exact h3 ⟨[], ds, rfl⟩
      rw [cook.eq_def]
      simp only []
      rw [if_neg c1, if_neg c3, if_pos c2,
        ih (by simpa using hn) (fun hm => h1 (by simp [hm])) (fun hm => h2 (by simp [hm]))
          (fun hm => h3 (List.infix_cons hm))]
      rfl

/-- C43. The browser is given a text unchanged if and only if it contains no backtick, no backslash, no
carriage return and no `${`. -/
theorem css_shipped_iff {special : Text → Option (Char × Text)} (hsp : Shortens special) (t : Text) :
    shipped special t = some t ↔ '`' ∉ t ∧ '\\' ∉ t ∧ '\r' ∉ t ∧ ¬ ['$', '{'] <:+: t := by
  constructor
  · intro h
    obtain ⟨h1, h2, h3, h4⟩ := cook_length hsp _ _ _ h
    have hl := toLf_length t
    have hb : '\\' ∉ toLf t := by
      intro hb
      have := h2 hb
      omega
    obtain ⟨h5, h6⟩ := h4 hb
    rw [if_neg hb, List.take_length] at h3
    refine ⟨?_, ?_, ?_, ?_⟩
    · rw [h5]; exact h3
    · rw [h5]; exact hb
    · rw [h5]; exact toLf_cr t
    · rw [h5]; exact h6
  · rintro ⟨h1, h2, h3, h4⟩
    rw [shipped, toLf_eq h3]
    exact cook_plain special (Nat.le_refl _) h1 h2 h4

/-- `\xHH` with two digits, nothing else: one way to satisfy `Shortens`. -/
example : Shortens fun t => match t with
    | 'x' :: _ :: _ :: es => some ('?', es)
    | _ => none := by
  intro t x es h
  simp only [] at h
  split at h
  · cases h; simp only [List.length_cons]; omega
  · cases h

/-- A dollar sign alone does no harm, `[href$="x"]`, and an escape does. -/
example : shipped (fun _ => none) "[href$=\"x\"]".toList = some "[href$=\"x\"]".toList ∧
    shipped (fun _ => none) "a{b:\"\\n\"}".toList ≠ some "a{b:\"\\n\"}".toList := by
  have hsp : Shortens fun _ => none := by intro t x es h; cases h
  exact ⟨(css_shipped_iff hsp _).2 (by decide +kernel), fun h => absurd ((css_shipped_iff hsp _).1 h).2.1 (by decide +kernel)⟩

end Verif.Css
