import Verif.Css.Lemmas3

/-!
# C43: `css!`

The full statement is `css_partial` without the hypothesis `Supported`; it is false, see below.
-/

namespace Verif.Css

/-- The pieces of a style sheet make up its text. -/
theorem css_pieces (sheet : List Rule) : texts (toks sheet) = (pieces sheet).flatMap Piece.text :=
  (ptext_pieces sheet).symm

/-- For supported sheets whose classes make valid Rust identifiers the macro succeeds; the style sheet
it emits is the given one with the postfix appended to every class selector, and there is exactly one
constant for each class, whose value is the class as it appears in the emitted sheet.
Missing: sheets that are not supported. -/
theorem css_partial (isIdent : Text → Bool) (pf : Text) {sheet : List Rule} (hw : WF .top sheet)
    (hs : Supported sheet) (hi : ∀ c ∈ names (pieces sheet), isIdent (constName c) = true) :
    ∃ out, generate isIdent pf (toks sheet) = some out ∧
      out.sheet = (pieces sheet).flatMap (Piece.emitted pf) ∧
      (∀ p, p ∈ out.consts ↔ ∃ c ∈ names (pieces sheet), p = (constName c, c ++ '-' :: pf)) ∧
      (out.consts.map Prod.snd).Nodup := by
  have h1 : findClasses (toks sheet) = positions 0 (pieces sheet) :=
    walk_rules .top (by simp) 0 sheet hw hs
  have h2 := emit_eq pf (pieces sheet) [] [] [] (dotted_rules sheet hs [])
  simp only [List.nil_append, show bytes [] = 0 from rfl, Nat.add_zero] at h2
  rw [← h1, ptext_pieces] at h2
  have h3 : (distinct (names (pieces sheet))).all (fun c => isIdent (constName c)) = true := by
    rw [List.all_eq_true]
    intro c hc
    exact hi c (mem_distinct.1 hc)
  refine ⟨⟨(pieces sheet).flatMap (Piece.emitted pf),
    (distinct (names (pieces sheet))).map fun c => (constName c, c ++ '-' :: pf)⟩,
    by simp only [generate, h2, bind, Option.bind, h3, if_true], rfl, ?_, ?_⟩
  · intro p
    simp only [List.mem_map, mem_distinct]
    constructor
    · rintro ⟨c, hc, rfl⟩; exact ⟨c, hc, rfl⟩
    · rintro ⟨c, hc, rfl⟩; exact ⟨c, hc, rfl⟩
  · simp only [List.map_map]
    have := nodup_distinct (names (pieces sheet))
    rw [List.nodup_iff_pairwise_ne] at this ⊢
    rw [List.pairwise_map]
    refine this.imp ?_
    intro a b hab h
    exact hab (List.append_cancel_right (bs := '-' :: pf) h)

/-- In particular, every class selector of a supported sheet is emitted as the value of a constant. -/
theorem css_classes_match (isIdent : Text → Bool) (pf : Text) {sheet : List Rule}
    (hw : WF .top sheet) (hs : Supported sheet) {out : Output}
    (hg : generate isIdent pf (toks sheet) = some out) {raw val : Text}
    (hm : .cls raw val ∈ pieces sheet) :
    (constName val, Piece.emitted pf (.cls raw val)) ∈ out.consts := by
  have hd : ∀ (ps : List Piece) M, Dotted M ps → ∀ raw val, Piece.cls raw val ∈ ps → raw = val := by
    intro ps
    induction ps with
    | nil => simp
    | cons p ps ih =>
      intro M h raw val hm
      cases p with
      | plain t =>
        simp only [List.mem_cons, reduceCtorEq, false_or] at hm
        exact ih _ h raw val hm
      | cls r v =>
        simp only [List.mem_cons, Piece.cls.injEq] at hm
        rcases hm with ⟨rfl, rfl⟩ | hm
        · exact h.2.1
        · exact ih _ h.2.2 raw val hm
  have hrv := hd _ [] (dotted_rules sheet hs []) raw val hm
  have hi : ∀ c ∈ names (pieces sheet), isIdent (constName c) = true := by
    have h1 : findClasses (toks sheet) = positions 0 (pieces sheet) :=
      walk_rules .top (by simp) 0 sheet hw hs
    have h2 := emit_eq pf (pieces sheet) [] [] [] (dotted_rules sheet hs [])
    simp only [List.nil_append, show bytes [] = 0 from rfl, Nat.add_zero] at h2
    rw [← h1, ptext_pieces] at h2
    simp only [generate, h2, bind, Option.bind] at hg
    split at hg
    · rename_i h; rw [List.all_eq_true] at h; exact fun c hc => h c (mem_distinct.2 hc)
    · cases hg
  obtain ⟨out', e, -, hc, -⟩ := css_partial isIdent pf hw hs hi
  rw [hg] at e; cases e
  rw [hc]
  exact ⟨val, List.mem_filterMap.2 ⟨_, hm, rfl⟩, by simp [Piece.emitted, hrv]⟩

/-! ## The postfix -/

/-- The postfix has as many characters as the hash has bytes, all of them letters or digits. -/
theorem css_postfix (hash : List Nat) : (generatePostfix hash).length = hash.length ∧
    ∀ c ∈ generatePostfix hash, c.isAlphanum = true := by
  constructor
  · simp [generatePostfix]
  · intro c hc
    simp only [generatePostfix, List.mem_map] at hc
    obtain ⟨n, -, rfl⟩ := hc
    have : ∀ m < 32, (digit32 m).isAlphanum = true := by decide
    exact this _ (Nat.mod_lt _ (by decide))

/-! ## The JavaScript -/

theorem toLf_eq {t : Text} (h : '\r' ∉ t) : toLf t = t := by
  induction t with
  | nil => rfl
  | cons c cs ih =>
    have hc : c ≠ '\r' := fun e => h (by simp [e])
    rw [toLf]
    · rw [ih (fun hm => h (by simp [hm]))]
    · rintro _ rfl; exact absurd rfl hc
    · rintro rfl; exact absurd rfl hc

theorem cook_eq (special : Text → Option (Char × Text)) {t : Text} : ∀ {n}, t.length ≤ n →
    '`' ∉ t → '\\' ∉ t → '$' ∉ t → cook special n t = some t := by
  induction t with
  | nil => intro n _ _ _ _; cases n <;> rfl
  | cons c cs ih =>
    intro n hn h1 h2 h3
    cases n with
    | zero => simp at hn
    | succ n =>
      have c1 : c ≠ '`' := fun e => h1 (by simp [e])
      have c2 : c ≠ '\\' := fun e => h2 (by simp [e])
      have c3 : c ≠ '$' := fun e => h3 (by simp [e])
      rw [cook.eq_def]
      simp only []
      rw [if_neg c1, if_neg (fun h => c3 h.1), if_pos c2,
        ih (by simpa using hn) (fun hm => h1 (by simp [hm])) (fun hm => h2 (by simp [hm]))
          (fun hm => h3 (by simp [hm]))]
      rfl

theorem mem_emitted {pf : Text} {ps : List Piece} {c : Char}
    (h : c ∈ ps.flatMap (Piece.emitted pf)) : c ∈ ptext ps ∨ c = '-' ∨ c ∈ pf := by
  rw [List.mem_flatMap] at h
  obtain ⟨p, hp, hc⟩ := h
  cases p with
  | plain t => exact Or.inl (List.mem_flatMap.2 ⟨_, hp, hc⟩)
  | cls raw val =>
    simp only [Piece.emitted, List.mem_append, List.mem_cons] at hc
    rcases hc with hc | hc | hc
    · exact Or.inl (List.mem_flatMap.2 ⟨_, hp, hc⟩)
    · exact Or.inr (Or.inl hc)
    · exact Or.inr (Or.inr hc)

/-- The browser gets the emitted sheet if the sheet contains no backslash, backtick, dollar sign or
carriage return.  Missing: sheets with such characters, which are not escaped. -/
theorem css_shipped_partial (special : Text → Option (Char × Text)) (isIdent : Text → Bool)
    (hash : List Nat) {sheet : List Rule} (hw : WF .top sheet) (hs : Supported sheet)
    (hc : ∀ c ∈ texts (toks sheet), c ≠ '`' ∧ c ≠ '\\' ∧ c ≠ '$' ∧ c ≠ '\r') {out : Output}
    (hg : generate isIdent (generatePostfix hash) (toks sheet) = some out) :
    shipped special out.sheet = some out.sheet := by
  have hsheet : out.sheet = (pieces sheet).flatMap (Piece.emitted (generatePostfix hash)) := by
    have h1 : findClasses (toks sheet) = positions 0 (pieces sheet) :=
      walk_rules .top (by simp) 0 sheet hw hs
    have h2 := emit_eq (generatePostfix hash) (pieces sheet) [] [] [] (dotted_rules sheet hs [])
    simp only [List.nil_append, show bytes [] = 0 from rfl, Nat.add_zero] at h2
    rw [← h1, ptext_pieces] at h2
    simp only [generate, h2, bind, Option.bind] at hg
    split at hg
    · cases hg; rfl
    · cases hg
  have hall : ∀ c ∈ out.sheet, c ≠ '`' ∧ c ≠ '\\' ∧ c ≠ '$' ∧ c ≠ '\r' := by
    intro c hm
    rw [hsheet] at hm
    rcases mem_emitted hm with h | rfl | h
    · rw [ptext_pieces] at h; exact hc c h
    · decide
    · have := (css_postfix hash).2 c h
      refine ⟨?_, ?_, ?_, ?_⟩ <;> rintro rfl <;> revert this <;> decide
  have hr : toLf out.sheet = out.sheet := toLf_eq (fun h => (hall _ h).2.2.2 rfl)
  rw [shipped, hr]
  exact cook_eq special (Nat.le_refl _) (fun h => (hall _ h).1 rfl) (fun h => (hall _ h).2.1 rfl)
    (fun h => (hall _ h).2.2.1 rfl)

/-! ## Concrete cases -/

/-- ASCII identifiers. -/
private def ascii (t : Text) : Bool :=
  t.all (fun c => c.isAlphanum || c == '_') && ((t.head?.map fun c => !c.isDigit).getD false)

private def a : Tok := .ident ['a'] ['a']
private def b : Tok := .ident ['b'] ['b']
private def dot : Tok := .delim '.'

/-- `@media print{a.b:not(.a){}}` -/
private def good : List Rule :=
  [.group "media".toList [.space [' '], .other "print".toList]
    [.style [a, dot, b, .other [':'], .func "not(".toList [dot, a] [')']] [.decls [.other ['c']]] ['}']] ['}']]

example : WF .top good ∧ Supported good := by
  simp [good, WF, Rule.WF, Supported, Rule.Supported, isCurly, isSemicolon, isSpace, isCd, isAt, a, b, dot,
    Tight, TightTok, Unescaped, mark, markTok, pieces, Rule.pieces, names, Piece.name, texts, Tok.text,
    isGroup]
  rintro raw val (⟨rfl, rfl⟩ | ⟨rfl, rfl⟩) <;> rfl

example : generate ascii ['x'] (toks good) =
    some ⟨"@media print{a.b-x:not(.a-x){c}}".toList,
      [(['b'], "b-x".toList), (['a'], "a-x".toList)]⟩ := by decide +kernel

/-! ## Counterexamples -/

/-- A class in a rule nested in another style rule is not renamed: `.a{.b{}}`. -/
theorem css_nested : ∃ sheet, WF .top sheet ∧ names (pieces sheet) = [['a'], ['b']] ∧
    generate ascii ['x'] (toks sheet) = some ⟨".a-x{.b{}}".toList, [(['a'], "a-x".toList)]⟩ :=
  ⟨[.style [dot, a] [.style [dot, b] [] ['}']] ['}']],
    by simp [WF, Rule.WF, isCurly, isSpace, isCd, isAt, a, b, dot], by decide +kernel,
    by decide +kernel⟩

/-- Nor one in an at-rule whose name the macro does not know, or that is written in upper case:
`@MEDIA{.a{}}`. -/
theorem css_other_group : ∃ sheet, WF .top sheet ∧ names (pieces sheet) = [['a']] ∧
    generate ascii ['x'] (toks sheet) = some ⟨"@MEDIA{.a{}}".toList, []⟩ :=
  ⟨[.group "MEDIA".toList [] [.style [dot, a] [] ['}']] ['}']],
    by simp [WF, Rule.WF, isCurly, isSpace, isCd, isAt, a, dot], by decide +kernel,
    by decide +kernel⟩

/-- The macro panics if there is a comment between the dot and the class: `./**/a{}`. -/
theorem css_comment : ∃ sheet, WF .top sheet ∧ names (pieces sheet) = [['a']] ∧
    ascii ['a'] = true ∧ generate ascii ['x'] (toks sheet) = none :=
  ⟨[.style [dot, .comment "/**/".toList, a] [] ['}']],
    by simp [WF, Rule.WF, isCurly, isSpace, isCd, isAt, a, dot], by decide +kernel, by decide +kernel,
    by decide +kernel⟩

/-- And if the class is written with escapes: `.a\62{}` is the class `ab`. -/
theorem css_escape : ∃ sheet, WF .top sheet ∧ names (pieces sheet) = [['a', 'b']] ∧
    ascii ['a', 'b'] = true ∧ generate ascii ['x'] (toks sheet) = none :=
  ⟨[.style [dot, .ident "a\\62".toList ['a', 'b']] [] ['}']],
    by simp [WF, Rule.WF, isCurly, isSpace, isCd, isAt, dot], by decide +kernel, by decide +kernel,
    by decide +kernel⟩

/-- Two classes that differ only in `-` and `_` get constants of the same name, which does not
compile: `.a-b{}.a_b{}`. -/
theorem css_clash : ∃ sheet out, WF .top sheet ∧ Supported sheet ∧
    generate ascii ['x'] (toks sheet) = some out ∧ ¬ (out.consts.map Prod.fst).Nodup :=
  ⟨[.style [dot, .ident "a-b".toList "a-b".toList] [] ['}'],
    .style [dot, .ident "a_b".toList "a_b".toList] [] ['}']],
    ⟨".a-b-x{}.a_b-x{}".toList, [("a_b".toList, "a-b-x".toList), ("a_b".toList, "a_b-x".toList)]⟩,
    by simp [WF, Rule.WF, isCurly, isSpace, isCd, isAt, dot],
    by simp [Supported, Rule.Supported, dot, Tight, TightTok, Unescaped, mark, names, pieces],
    by decide +kernel, by decide⟩

/-- Escapes in strings are not escaped for JavaScript: `.a{c:"\201C"}` makes a template literal that
is a syntax error. -/
theorem css_backslash (special : Text → Option (Char × Text)) : ∃ sheet out, WF .top sheet ∧
    Supported sheet ∧ generate ascii ['x'] (toks sheet) = some out ∧
    shipped special out.sheet = none :=
  ⟨[.style [dot, a] [.decls [.ident ['c'] ['c'], .other [':'], .other "\"\\201C\"".toList]] ['}']],
    ⟨".a-x{c:\"\\201C\"}".toList, [(['a'], "a-x".toList)]⟩,
    by simp [WF, Rule.WF, isCurly, isSpace, isCd, isAt, a, dot],
    by simp [Supported, Rule.Supported, a, dot, Tight, TightTok, Unescaped, mark, names, pieces,
      Rule.pieces, Piece.name],
    by decide +kernel, by simp [shipped, toLf, cook]⟩

end Verif.Css
