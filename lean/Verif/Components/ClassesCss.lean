import Verif.Components.ClassesProps
import Verif.Css.Props
/-!
# C55: classes of `css!` on elements
-/
namespace Verif.Classes
open Verif.Css (Text constName generate generatePostfix toks pieces Rule Piece Output WF Supported emit findClasses
  texts distinct)

theorem constName_className {c : Text} (h : ClassName (constName c)) : ClassName c := by
  refine ⟨?_, ?_⟩
  · rintro rfl; exact h.1 rfl
  · intro x hx
    have := h.2 (if x = '-' then '_' else x) (List.mem_map.2 ⟨x, hx, rfl⟩)
    split at this
    · next h1 => subst h1; decide
    · exact this

theorem isSpace_alphanum {x : Char} (h : x.isAlphanum = true) : isSpace x = false := by
  cases hs : isSpace x with
  | false => rfl
  | true =>
    simp only [isSpace, Bool.or_eq_true, beq_iff_eq] at hs
    rcases hs with (((rfl | rfl) | rfl) | rfl) | rfl <;> revert h <;> decide

/-- Every constant that `css!` declares is the name of a class: `add_class` takes it, and the element then has that
class and otherwise the classes it had. (Identifiers of Rust are not empty and contain no whitespace.) -/
theorem css_constant_usable (isIdent : Text → Bool) (hid : ∀ t, isIdent t = true → ClassName t) (hash : List Nat)
    {sheet : List Css.Tok} {out : Output} (hg : generate isIdent (generatePostfix hash) sheet = some out)
    {k v : Text} (hm : (k, v) ∈ out.consts) (attr : Option (List Char)) :
    ∃ attr', step attr (.addClass v) = some attr' ∧ ∀ x, HasClass attr' x ↔ HasClass attr x ∨ x = v := by
  have hv : ClassName v := by
    simp only [generate, Option.bind_eq_bind, Option.bind_eq_some_iff] at hg
    obtain ⟨r, hr, hg⟩ := hg
    · split at hg
      · next h1 =>
        cases hg
        obtain ⟨c, hc, h2⟩ := List.mem_map.1 hm
        cases h2
        have := constName_className (hid _ (List.all_eq_true.1 h1 c hc))
        refine ⟨by simp, ?_⟩
        intro x hx
        simp only [List.mem_append, List.mem_cons] at hx
        rcases hx with hx | rfl | hx
        · exact this.2 x hx
        · decide
        · exact isSpace_alphanum ((Css.css_postfix hash).2 x hx)
      · cases hg
  cases hs : step attr (.addClass v) with
  | none =>
    refine absurd ?_ ((class_call_panics_iff attr _).1 hs)
    intro n hn
    simp only [Call.names, List.mem_singleton] at hn
    rw [hn]; exact hv
  | some attr' =>
    refine ⟨attr', rfl, fun x => ?_⟩
    rw [class_call hs x]
    simp only [Call.names, Call.wants, List.mem_singleton]
    split <;> simp_all

/-- For a sheet that `css!` supports, adding the constant of a class gives the element the class that the emitted
sheet has at every selector of that class. -/
theorem css_class_applies (isIdent : Text → Bool) (hid : ∀ t, isIdent t = true → ClassName t) (hash : List Nat)
    {sheet : List Rule} (hw : WF .top sheet) (hs : Supported sheet) {out : Output}
    (hg : generate isIdent (generatePostfix hash) (toks sheet) = some out) {raw val : Text}
    (hm : .cls raw val ∈ pieces sheet) (attr : Option (List Char)) :
    ∃ v attr', (constName val, v) ∈ out.consts ∧ step attr (.addClass v) = some attr' ∧
      HasClass attr' (Piece.emitted (generatePostfix hash) (.cls raw val)) := by
  have h1 := Css.css_classes_match isIdent _ hw hs hg hm
  obtain ⟨attr', h2, h3⟩ := css_constant_usable isIdent hid hash hg h1 attr
  exact ⟨_, attr', h1, h2, (h3 _).2 (.inr rfl)⟩

/-! ## A sheet with a class inside a group rule -/

private def ascii (t : Text) : Bool := t.all Char.isAlphanum && !t.isEmpty

private theorem ascii_className (t : Text) (h : ascii t = true) : ClassName t := by
  simp only [ascii, Bool.and_eq_true, Bool.not_eq_true', List.all_eq_true] at h
  exact ⟨(by rintro rfl; exact absurd h.2 (by decide)), fun x hx => isSpace_alphanum (h.1 x hx)⟩

/-- `@media print{.b{}}` -/
private def sheet : List Rule :=
  [.group "media".toList [.space [' '], .other "print".toList]
    [.style [.delim '.', .ident ['b'] ['b']] [.decls [.other ['c']]] ['}']] ['}']]

example : WF .top sheet ∧ Supported sheet ∧ .cls ['b'] ['b'] ∈ pieces sheet := by
  simp [sheet, WF, Rule.WF, Supported, Rule.Supported, Css.isCurly, Css.isSemicolon, Css.isSpace, Css.isCd,
    Css.isAt, Css.Tight, Css.TightTok, Css.Unescaped, Css.mark, pieces, Rule.pieces, Css.names,
    Piece.name, texts, Css.Tok.text, Css.isGroup]

example : generate ascii (generatePostfix [10, 33]) (toks sheet) =
    some ⟨"@media print{.b-a1{c}}".toList, [(['b'], "b-a1".toList)]⟩ := by decide +kernel

example : step (some "x y".toList) (.addClass "b-a1".toList) = some (some "x y b-a1".toList) := by decide +kernel

example : ∀ t, ascii t = true → ClassName t := ascii_className

end Verif.Classes
