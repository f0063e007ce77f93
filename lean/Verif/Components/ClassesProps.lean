import Verif.Components.Classes
/-!
# C55: the class shortcuts
-/
namespace Verif.Classes

/-! ### Specification -/

/-- A class name: not empty, no whitespace. -/
def ClassName (c : List Char) : Prop := c ≠ [] ∧ ∀ x ∈ c, isSpace x = false

/-- `c` is written somewhere in `s`, with whitespace or an end of `s` on either side. -/
def Written (c s : List Char) : Prop :=
  ∃ pre post, s = pre ++ c ++ post ∧ (pre = [] ∨ ∃ p x, pre = p ++ [x] ∧ isSpace x = true) ∧
    (post = [] ∨ ∃ x q, post = x :: q ∧ isSpace x = true)

/-- The element has the class. -/
def HasClass (attr : Option (List Char)) (c : List Char) : Prop := ClassName c ∧ ∃ s, attr = some s ∧ Written c s

/-- The class names given to a call. -/
def Call.names : Call → List (List Char)
  | .addClass c => [c]
  | .addClasses cs => cs
  | .delClass c => [c]
  | .delClasses cs => cs
  | .setClass c _ => [c]

/-- Whether the call asks for the classes to be there afterwards. -/
def Call.wants : Call → Bool
  | .addClass _ => true
  | .addClasses _ => true
  | .delClass _ => false
  | .delClasses _ => false
  | .setClass _ included => included

/-- All names given are class names. -/
def Call.Valid (c : Call) : Prop := ∀ n ∈ c.names, ClassName n

/-! ### Tokens -/

theorem validToken_iff (t : List Char) : validToken t = true ↔ ClassName t := by
  simp [validToken, ClassName]

theorem written_nil {c : List Char} (hc : ClassName c) : ¬ Written c [] := by
  rintro ⟨pre, post, h, -⟩
  have h := congrArg List.length h
  simp only [List.length_nil, List.length_append] at h
  exact hc.1 (List.eq_nil_of_length_eq_zero (by omega))

theorem written_self {c a : List Char} (ha : ∀ x ∈ a, isSpace x = false) :
    Written c a ↔ c = a := by
  constructor
  · rintro ⟨pre, post, rfl, hp, hq⟩
    rcases hp with rfl | ⟨p, x, rfl, hx⟩
    · rcases hq with rfl | ⟨x, q, rfl, hx⟩
      · simp
      · have := ha x (by simp)
        rw [this] at hx; cases hx
    · have := ha x (by simp)
      rw [this] at hx; cases hx
  · rintro rfl
    exact ⟨[], [], by simp, .inl rfl, .inl rfl⟩

theorem written_split {c a s : List Char} {x : Char} (hc : ClassName c) (hx : isSpace x = true) :
    Written c (a ++ x :: s) ↔ Written c a ∨ Written c s := by
  constructor
  · rintro ⟨pre, post, h, hp, hq⟩
    rcases List.append_eq_append_iff.1 h with ⟨a', h1, h2⟩ | ⟨c', h1, h2⟩
    · rcases a' with _ | ⟨y, a''⟩
      · simp only [List.append_nil] at h1
        exact .inl ⟨pre, [], by simp [h1], hp, .inl rfl⟩
      · simp only [List.cons_append, List.cons.injEq] at h2
        obtain ⟨rfl, h2⟩ := h2
        rcases List.append_eq_append_iff.1 h1 with ⟨b, h3, h4⟩ | ⟨b, h3, h4⟩
        · have := hc.2 x (by rw [h4]; simp)
          rw [this] at hx; cases hx
        · rcases b with _ | ⟨z, b⟩
          · simp only [List.nil_append] at h4
            have := hc.2 x (by rw [← h4]; simp)
            rw [this] at hx; cases hx
          · simp only [List.cons_append, List.cons.injEq] at h4
            obtain ⟨rfl, h4⟩ := h4
            refine .inr ⟨b, post, by rw [h2, h4], ?_, hq⟩
            rcases hp with rfl | ⟨p, y, hp, hy⟩
            · simp at h3
            · rcases List.eq_nil_or_concat b with rfl | ⟨b', w, rfl⟩
              · exact .inl rfl
              · right
                refine ⟨b', w, List.concat_eq_append, ?_⟩
                rw [hp, List.concat_eq_append, ← List.cons_append, ← List.append_assoc] at h3
                have := (List.append_inj' h3 rfl).2
                cases this
                exact hy
    · subst h1
      refine .inl ⟨pre, c', by simp, hp, ?_⟩
      rcases c' with _ | ⟨y, c'⟩
      · exact .inl rfl
      · rcases hq with rfl | ⟨z, q, rfl, hz⟩
        · simp at h2
        · simp only [List.cons_append, List.cons.injEq] at h2
          exact .inr ⟨y, c', rfl, by rw [← h2.1]; exact hz⟩
  · rintro (⟨pre, post, rfl, hp, hq⟩ | ⟨pre, post, rfl, hp, hq⟩)
    · refine ⟨pre, post ++ x :: s, by simp, hp, .inr ?_⟩
      rcases hq with rfl | ⟨y, q, rfl, hy⟩
      · exact ⟨x, s, by simp, hx⟩
      · exact ⟨y, _, by simp; rfl, hy⟩
    · refine ⟨a ++ x :: pre, post, by simp, .inr ?_, hq⟩
      rcases hp with rfl | ⟨p, y, rfl, hy⟩
      · exact ⟨a, x, by simp, hx⟩
      · exact ⟨a ++ x :: p, y, by simp, hy⟩

theorem splitAux_mem (c : List Char) (hc : ClassName c) (s : List Char) : ∀ cur, (∀ x ∈ cur, isSpace x = false) →
    (c ∈ splitAux cur s ↔ Written c (cur.reverse ++ s)) := by
  induction s with
  | nil =>
    intro cur hcur
    rw [List.append_nil, written_self (by simpa using hcur)]
    simp only [splitAux]
    split
    · next h =>
      have : cur = [] := by simpa using h
      subst this
      simp [hc.1]
    · simp
  | cons x s ih =>
    intro cur hcur
    cases hx : isSpace x with
    | true =>
      rw [written_split hc hx, written_self (by simpa using hcur)]
      have := ih [] (by simp)
      simp only [List.reverse_nil, List.nil_append] at this
      rw [← this]
      simp only [splitAux, hx, if_true]
      split
      · next h =>
        have : cur = [] := by simpa using h
        subst this
        simp [hc.1]
      · simp
    | false =>
      have := ih (x :: cur) (by simpa [hx] using hcur)
      simp only [List.reverse_cons, List.append_assoc, List.cons_append, List.nil_append] at this
      rw [← this]
      simp [splitAux, hx]

theorem splitAux_valid (s : List Char) : ∀ cur, (∀ x ∈ cur, isSpace x = false) →
    ∀ c ∈ splitAux cur s, ClassName c := by
  induction s with
  | nil =>
    intro cur hcur c hc
    simp only [splitAux] at hc
    split at hc
    · cases hc
    · next h =>
      simp only [List.mem_singleton] at hc
      subst hc
      exact ⟨by simpa using h, by simpa using hcur⟩
  | cons x s ih =>
    intro cur hcur c hc
    simp only [splitAux] at hc
    split at hc
    · split at hc
      · exact ih [] (by simp) c hc
      · next h =>
        rcases List.mem_cons.1 hc with rfl | hc
        · exact ⟨by simpa using h, by simpa using hcur⟩
        · exact ih [] (by simp) c hc
    · next h => exact ih (x :: cur) (by simpa [h] using hcur) c hc

theorem append_mem (t : List Char) (ts : List (List Char)) (x : List Char) : x ∈ append t ts ↔ x ∈ ts ∨ x = t := by
  simp only [append]
  split
  · next h =>
    constructor
    · exact .inl
    · rintro (h1 | rfl)
      · exact h1
      · exact h
  · simp

theorem append_nodup {t : List Char} {ts : List (List Char)} (h : ts.Nodup) : (append t ts).Nodup := by
  simp only [append]
  split
  · exact h
  · next h1 =>
    rw [List.nodup_append]
    refine ⟨h, by simp, ?_⟩
    intro a ha b hb
    simp only [List.mem_singleton] at hb
    rintro rfl
    exact h1 (hb ▸ ha)

theorem foldl_append_mem (l : List (List Char)) : ∀ (ts : List (List Char)) (x : List Char),
    x ∈ l.foldl (fun ts t => append t ts) ts ↔ x ∈ ts ∨ x ∈ l := by
  induction l with
  | nil => simp
  | cons t l ih =>
    intro ts x
    rw [List.foldl_cons, ih, append_mem]
    simp only [List.mem_cons, or_assoc]

theorem foldl_append_nodup (l : List (List Char)) : ∀ (ts : List (List Char)), ts.Nodup →
    (l.foldl (fun ts t => append t ts) ts).Nodup := by
  induction l with
  | nil => exact fun _ h => h
  | cons t l ih => exact fun ts h => ih _ (append_nodup h)

theorem tokens_nodup (attr : Option (List Char)) : (tokens attr).Nodup := foldl_append_nodup _ _ List.nodup_nil

theorem tokens_valid (attr : Option (List Char)) : ∀ t ∈ tokens attr, ClassName t := by
  intro t ht
  rw [tokens, foldl_append_mem] at ht
  rcases ht with ht | ht
  · cases ht
  · exact splitAux_valid _ [] (by simp) t ht

/-- The token set is what the attribute says. -/
theorem tokens_mem (attr : Option (List Char)) (c : List Char) : c ∈ tokens attr ↔ HasClass attr c := by
  constructor
  · intro h
    have hc := tokens_valid attr c h
    rw [tokens, foldl_append_mem, splitAux_mem c hc _ [] (by simp)] at h
    rcases h with h | h
    · cases h
    · cases attr with
      | none => exact absurd h (written_nil hc)
      | some s => exact ⟨hc, s, rfl, h⟩
  · rintro ⟨hc, s, rfl, h⟩
    rw [tokens, foldl_append_mem, splitAux_mem c hc _ [] (by simp)]
    exact .inr h

theorem serialize_eq (ts : List (List Char)) : serialize ts = List.intercalate [' '] ts := by
  induction ts with
  | nil => rfl
  | cons t ts ih =>
    cases ts with
    | nil => simp [serialize]
    | cons u us =>
      rw [serialize, ih]
      · simp [List.intercalate, List.intersperse]
      · simp

theorem serialize_written (c : List Char) (hc : ClassName c) : ∀ ts : List (List Char), (∀ t ∈ ts, ClassName t) →
    (Written c (serialize ts) ↔ c ∈ ts) := by
  intro ts
  induction ts with
  | nil => intro _; simpa [serialize] using written_nil hc
  | cons t ts ih =>
    intro h
    have ht := h t (by simp)
    cases ts with
    | nil =>
      rw [show serialize [t] = t from rfl, written_self ht.2]
      simp
    | cons u us =>
      rw [show serialize (t :: u :: us) = t ++ ' ' :: serialize (u :: us) from rfl, written_split hc (by decide),
        written_self ht.2, ih fun x hx => h x (by simp [hx])]
      simp

theorem update_has (attr : Option (List Char)) {ts : List (List Char)} (h : ∀ t ∈ ts, ClassName t) (c : List Char) :
    HasClass (update attr ts) c ↔ c ∈ ts := by
  simp only [update]
  split
  · next h1 =>
    obtain ⟨rfl, rfl⟩ := h1
    simp [HasClass]
  · constructor
    · rintro ⟨hc, s, hs, hw⟩
      cases hs
      exact (serialize_written c hc ts h).1 hw
    · intro hc
      exact ⟨h c hc, _, rfl, (serialize_written c (h c hc) ts h).2 hc⟩

/-! ### C55 -/

theorem all_valid (ts : List (List Char)) : ts.all validToken = true ↔ ∀ t ∈ ts, ClassName t := by
  simp [List.all_eq_true, validToken_iff]

/-- A call panics exactly if it is given something that is not a class name. -/
theorem class_call_panics_iff (attr : Option (List Char)) (c : Call) : step attr c = none ↔ ¬ c.Valid := by
  cases c with
  | addClass n => simp only [step, domAdd, Call.Valid, Call.names, ← all_valid]; split <;> simp_all
  | addClasses ns => simp only [step, domAdd, Call.Valid, Call.names, ← all_valid]; split <;> simp_all
  | delClass n => simp only [step, domRemove, Call.Valid, Call.names, ← all_valid]; split <;> simp_all
  | delClasses ns => simp only [step, domRemove, Call.Valid, Call.names, ← all_valid]; split <;> simp_all
  | setClass n b =>
    simp only [step, domToggle, Call.Valid, Call.names, List.mem_singleton, forall_eq, ← validToken_iff]
    split
    · next h => split <;> split <;> simp [h]
    · next h => simp [h]

/-- A call changes only the classes it names: they are there afterwards if that was asked for, and not otherwise. -/
theorem class_call {attr attr' : Option (List Char)} {c : Call} (h : step attr c = some attr') (x : List Char) :
    HasClass attr' x ↔ if x ∈ c.names then c.wants = true else HasClass attr x := by
  have hadd : ∀ ts, domAdd attr ts = some attr' → (HasClass attr' x ↔ if x ∈ ts then True else HasClass attr x) := by
    intro ts h
    simp only [domAdd] at h
    split at h
    · next hv =>
      cases h
      rw [update_has, foldl_append_mem, tokens_mem]
      · split <;> simp_all
      · intro t ht
        rw [foldl_append_mem] at ht
        rcases ht with ht | ht
        · exact tokens_valid attr t ht
        · exact (all_valid ts).1 hv t ht
    · cases h
  have hrem : ∀ ts, domRemove attr ts = some attr' → (HasClass attr' x ↔ if x ∈ ts then False else HasClass attr x) := by
    intro ts h
    simp only [domRemove] at h
    split at h
    · next hv =>
      cases h
      rw [update_has]
      · simp only [List.mem_filter, tokens_mem, List.contains_eq_mem, Bool.not_eq_true', decide_eq_false_iff_not]
        split <;> simp_all
      · intro t ht
        exact tokens_valid attr t (List.mem_filter.1 ht).1
    · cases h
  cases c with
  | addClass n => simpa [Call.names, Call.wants] using hadd [n] h
  | addClasses ns => simpa [Call.names, Call.wants] using hadd ns h
  | delClass n => simpa [Call.names, Call.wants] using hrem [n] h
  | delClasses ns => simpa [Call.names, Call.wants] using hrem ns h
  | setClass n b =>
    simp only [step, domToggle] at h
    simp only [Call.names, Call.wants, List.mem_singleton]
    split at h
    · next hv =>
      have hv := (validToken_iff n).1 hv
      split at h
      · next hm =>
        have hm : HasClass attr n := by rw [← tokens_mem]; simpa using hm
        cases b with
        | true =>
          cases h
          split
          · next h1 => subst h1; simp [hm]
          · rfl
        | false =>
          cases h
          rw [update_has]
          · simp only [List.mem_filter, tokens_mem, bne_iff_ne]
            split <;> simp_all
          · intro t ht
            exact tokens_valid attr t (List.mem_filter.1 ht).1
      · next hm =>
        have hm : ¬ HasClass attr n := by rw [← tokens_mem]; simpa using hm
        cases b with
        | true =>
          cases h
          rw [update_has]
          · rw [append_mem, tokens_mem]
            split <;> simp_all
          · intro t ht
            rw [append_mem] at ht
            rcases ht with ht | rfl
            · exact tokens_valid attr t ht
            · exact hv
        | false =>
          cases h
          split
          · next h1 => subst h1; simp [hm]
          · rfl
    · cases h

/-- Afterwards the attribute consists of the classes, each once, with one space between them, unless the call was a
`set_class` that had nothing to do, or there are no classes and no attribute. -/
theorem class_attribute {attr attr' : Option (List Char)} {c : Call} (h : step attr c = some attr') :
    (attr' = attr ∧ ((attr = none ∧ ∀ x, ¬ HasClass attr x) ∨ ∃ n b, c = .setClass n b ∧ (HasClass attr n ↔ b = true))) ∨
    ∃ ts : List (List Char), ts.Nodup ∧ (∀ x, x ∈ ts ↔ HasClass attr' x) ∧ attr' = some (List.intercalate [' '] ts) := by
  have hup : ∀ ts : List (List Char), ts.Nodup → (∀ t ∈ ts, ClassName t) → update attr ts = attr' →
      (attr' = attr ∧ attr = none ∧ ∀ x, ¬ HasClass attr x) ∨
      ∃ ts : List (List Char), ts.Nodup ∧ (∀ x, x ∈ ts ↔ HasClass attr' x) ∧ attr' = some (List.intercalate [' '] ts) := by
    intro ts hn hv hu
    by_cases h1 : attr = none ∧ ts = []
    · obtain ⟨rfl, rfl⟩ := h1
      left
      simp only [update] at hu
      refine ⟨by simpa using hu.symm, rfl, ?_⟩
      rintro x ⟨-, s, hs, -⟩; cases hs
    · right
      refine ⟨ts, hn, fun x => ?_, ?_⟩
      · rw [← hu, update_has attr hv]
      · rw [← hu, update, if_neg h1, serialize_eq]
  have hadd : ∀ ts, domAdd attr ts = some attr' → (attr' = attr ∧ attr = none ∧ ∀ x, ¬ HasClass attr x) ∨
      ∃ ts : List (List Char), ts.Nodup ∧ (∀ x, x ∈ ts ↔ HasClass attr' x) ∧ attr' = some (List.intercalate [' '] ts) := by
    intro ts h
    simp only [domAdd] at h
    split at h
    · next hv =>
      refine hup _ (foldl_append_nodup ts _ (tokens_nodup attr)) ?_ (Option.some.inj h)
      intro t ht
      rw [foldl_append_mem] at ht
      rcases ht with ht | ht
      · exact tokens_valid attr t ht
      · exact (all_valid ts).1 hv t ht
    · cases h
  have hrem : ∀ ts, domRemove attr ts = some attr' → (attr' = attr ∧ attr = none ∧ ∀ x, ¬ HasClass attr x) ∨
      ∃ ts : List (List Char), ts.Nodup ∧ (∀ x, x ∈ ts ↔ HasClass attr' x) ∧ attr' = some (List.intercalate [' '] ts) := by
    intro ts h
    simp only [domRemove] at h
    split at h
    · exact hup _ ((tokens_nodup attr).filter _) (fun t ht => tokens_valid attr t (List.mem_filter.1 ht).1)
        (Option.some.inj h)
    · cases h
  have hw : ∀ {p q : Prop}, (attr' = attr ∧ attr = none ∧ ∀ x, ¬ HasClass attr x) ∨ p →
      (attr' = attr ∧ ((attr = none ∧ ∀ x, ¬ HasClass attr x) ∨ q)) ∨ p := by
    rintro p q (⟨h1, h2⟩ | h1)
    · exact .inl ⟨h1, .inl h2⟩
    · exact .inr h1
  cases c with
  | addClass n => exact hw (hadd [n] h)
  | addClasses ns => exact hw (hadd ns h)
  | delClass n => exact hw (hrem [n] h)
  | delClasses ns => exact hw (hrem ns h)
  | setClass n b =>
    simp only [step, domToggle] at h
    split at h
    · next hv =>
      have hv := (validToken_iff n).1 hv
      split at h
      · next hm =>
        have hm : HasClass attr n := by rw [← tokens_mem]; simpa using hm
        cases b with
        | true =>
          cases h
          exact .inl ⟨rfl, .inr ⟨n, true, rfl, by simp [hm]⟩⟩
        | false =>
          exact hw (hup _ ((tokens_nodup attr).filter _) (fun t ht => tokens_valid attr t (List.mem_filter.1 ht).1)
            (Option.some.inj h))
      · next hm =>
        have hm : ¬ HasClass attr n := by rw [← tokens_mem]; simpa using hm
        cases b with
        | true =>
          refine hw (hup _ (append_nodup (tokens_nodup attr)) ?_ (Option.some.inj h))
          intro t ht
          rw [append_mem] at ht
          rcases ht with ht | rfl
          · exact tokens_valid attr t ht
          · exact hv
        | false =>
          cases h
          exact .inl ⟨rfl, .inr ⟨n, false, rfl, by simp [hm]⟩⟩
    · cases h

/-- No valid call names the class. -/
def Unnamed (x : List Char) (cs : List Call) : Prop := ∀ d ∈ cs, d.Valid → x ∉ d.names

/-- Whether a class is wanted after some calls: what the last valid call that names it says, or else what was there
before. -/
def Wanted (before : Prop) (x : List Char) (cs : List Call) : Prop :=
  (∃ pre c post, cs = pre ++ c :: post ∧ c.Valid ∧ x ∈ c.names ∧ Unnamed x post ∧ c.wants = true) ∨
    (Unnamed x cs ∧ before)

theorem wanted_unnamed {p : Prop} {x : List Char} {cs : List Call} (h : Unnamed x cs) : Wanted p x cs ↔ p := by
  constructor
  · rintro (⟨pre, c, post, rfl, h1, h2, -⟩ | ⟨-, h1⟩)
    · exact absurd h2 (h c (by simp) h1)
    · exact h1
  · exact fun h1 => .inr ⟨h, h1⟩

theorem wanted_later {p q : Prop} {x : List Char} {c : Call} {cs : List Call} (h : ¬ Unnamed x cs) :
    Wanted p x (c :: cs) ↔ Wanted q x cs := by
  constructor
  · rintro (⟨pre, d, post, h1, h2, h3, h4, h5⟩ | ⟨h1, -⟩)
    · rcases pre with _ | ⟨e, pre⟩
      · cases h1; exact absurd h4 h
      · cases h1; exact .inl ⟨pre, d, post, rfl, h2, h3, h4, h5⟩
    · exact absurd (fun d hd => h1 d (by simp [hd])) h
  · rintro (⟨pre, d, post, rfl, h1⟩ | ⟨h1, -⟩)
    · exact .inl ⟨c :: pre, d, post, rfl, h1⟩
    · exact absurd h1 h

theorem wanted_last {p : Prop} {x : List Char} {c : Call} {cs : List Call} (h : Unnamed x cs) (hv : c.Valid)
    (hx : x ∈ c.names) : Wanted p x (c :: cs) ↔ c.wants = true := by
  constructor
  · rintro (⟨pre, d, post, h1, h2, h3, h4, h5⟩ | ⟨h1, -⟩)
    · rcases pre with _ | ⟨e, pre⟩
      · cases h1; exact h5
      · cases h1; exact absurd h3 (h d (by simp) h2)
    · exact absurd hx (h1 c (by simp) hv)
  · exact fun h1 => .inl ⟨[], c, cs, rfl, hv, hx, h, h1⟩

theorem wanted_skip {p : Prop} {x : List Char} {c : Call} {cs : List Call} (hc : c.Valid → x ∉ c.names) :
    Wanted p x (c :: cs) ↔ Wanted p x cs := by
  by_cases h : Unnamed x cs
  · have h1 : Unnamed x (c :: cs) := by
      intro d hd
      rcases List.mem_cons.1 hd with rfl | hd
      · exact hc
      · exact h d hd
    rw [wanted_unnamed h, wanted_unnamed h1]
  · exact wanted_later h

/-- After any calls (those that panic being caught), an element has a class if and only if the last call that named
it asked for it, or no call named it and it had it before. -/
theorem class_last_call_wins (attr : Option (List Char)) (cs : List Call) (x : List Char) :
    HasClass (run attr cs).1 x ↔ Wanted (HasClass attr x) x cs := by
  induction cs generalizing attr with
  | nil => exact (wanted_unnamed (fun d hd => by cases hd)).symm
  | cons c cs ih =>
    simp only [run]
    cases hs : step attr c with
    | none =>
      have hv := (class_call_panics_iff attr c).1 hs
      rw [wanted_skip (fun h => absurd h hv)]
      exact ih attr
    | some a =>
      have hv : c.Valid := by
        apply Classical.byContradiction
        intro hv
        rw [(class_call_panics_iff attr c).2 hv] at hs; cases hs
      have hc := class_call hs x
      refine (ih a).trans ?_
      by_cases hx : x ∈ c.names
      · rw [if_pos hx] at hc
        by_cases h1 : Unnamed x cs
        · rw [wanted_last h1 hv hx, wanted_unnamed h1, hc]
        · rw [wanted_later (q := HasClass a x) h1]
      · rw [if_neg hx] at hc
        rw [wanted_skip (fun _ => hx), show (HasClass a x) = HasClass attr x from propext hc]

/-- An attribute with superfluous whitespace and a class written twice; `b` is removed, `c` added, and a call with an
empty name panics. -/
example : run (some " a b\ta ".toList) [.delClass "b".toList, .addClasses ["c".toList, [], "d".toList],
    .addClasses ["c".toList, "a".toList]] = (some "a c".toList, [true, false, true]) := by decide

example : Call.Valid (.addClasses ["c".toList, "a".toList]) := by
  intro n hn
  simp only [Call.names, List.mem_cons, List.not_mem_nil, or_false] at hn
  rcases hn with rfl | rfl <;> exact ⟨by decide, by decide⟩

end Verif.Classes
