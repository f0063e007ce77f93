import Verif.Css.Lemmas

/-! # The rule list parser finds the classes -/

namespace Verif.Css

theorem tight_cons {dot : Bool} {t : Tok} {ts : List Tok} (hc : ∀ raw, t ≠ .comment raw)
    (h : Tight dot (t :: ts)) : TightTok t ∧ Tight (isDot t) ts := by
  cases t with
  | comment raw => exact absurd rfl (hc raw)
  | delim c =>
    by_cases hcd : c = '.'
    · subst hcd; simp only [Tight] at h; exact ⟨by simp [TightTok], by simpa [isDot] using h⟩
    · have h2 : Tight false ts := by
        unfold Tight at h; split at h <;> simp_all
      exact ⟨by simp [TightTok], by rw [show isDot (.delim c) = false by simp [isDot, hcd]]; exact h2⟩
  | _ => simp only [Tight] at h; exact ⟨h.1, by simpa [isDot] using h.2⟩

theorem mark_cons {dot : Bool} {t : Tok} {ts : List Tok} (hc : ∀ raw, t ≠ .comment raw) :
    mark dot (t :: ts) = mark dot [t] ++ mark (isDot t) ts := by
  cases t with
  | comment raw => exact absurd rfl (hc raw)
  | delim c =>
    by_cases hcd : c = '.'
    · subst hcd; simp [mark, isDot]
    · have e : isDot (.delim c) = false := by simp [isDot, hcd]
      rw [e, mark, mark] <;> simp_all [mark]
  | _ => simp [mark, isDot]

theorem walkTok_prelude {t : Tok} (hc : isCurly t = false) (hn : ∀ raw, t ≠ .comment raw)
    {s pos : Nat} {d : Bool} (h : TightTok t) (hs : d = true → s = pos) :
    walkTok (.prelude s d) pos t = positions pos (mark d [t]) := by
  have h1 : walkTok (.prelude s d) pos t = scan s pos d [t] := by
    cases t with
    | comment raw => exact absurd rfl (hn raw)
    | block k i c => cases k <;> simp_all [walkTok, scan, scanTok, isCurly]
    | ident raw val => cases d <;> simp [walkTok, scan, scanTok]
    | _ => simp [walkTok, scan, scanTok]
  rw [h1]
  apply scan_eq
  · cases t with
    | comment raw => exact absurd rfl (hn raw)
    | delim c =>
      by_cases hcd : c = '.'
      · subst hcd; simp [Tight]
      · rw [Tight] <;> simp_all [Tight]
    | _ => simp_all [Tight, TightTok]
  · exact hs

theorem nextMode_prelude {t : Tok} (hc : isCurly t = false) (hn : ∀ raw, t ≠ .comment raw)
    {top : Bool} {s pos : Nat} {d : Bool} :
    nextMode top (.prelude s d) pos t = .prelude pos (isDot t) := by
  cases t with
  | comment raw => exact absurd rfl (hn raw)
  | block k i c => cases k <;> simp_all [nextMode, isCurly]
  | _ => simp [nextMode]

theorem walk_prelude (top : Bool) (rest : List Tok) : ∀ (sel : List Tok) (s pos : Nat) (d : Bool),
    (∀ t ∈ sel, isCurly t = false) → Tight d sel → (d = true → s = pos) →
    ∃ s' d', walk top (.prelude s d) pos (sel ++ rest) =
      positions pos (mark d sel) ++ walk top (.prelude s' d') (pos + bytes (texts sel)) rest := by
  intro sel
  induction sel with
  | nil => intro s pos d _ _ _; exact ⟨s, d, by simp [mark, positions, texts, bytes]⟩
  | cons t ts ih =>
    intro s pos d hc ht hs
    have hct := hc t (by simp)
    have hcs : ∀ t ∈ ts, isCurly t = false := fun x hx => hc x (by simp [hx])
    by_cases hn : ∃ raw, t = .comment raw
    · obtain ⟨raw, rfl⟩ := hn
      simp only [Tight] at ht
      obtain ⟨rfl, ht⟩ := ht
      obtain ⟨s', d', e⟩ := ih s (pos + bytes raw) false hcs ht (by simp)
      refine ⟨s', d', ?_⟩
      simp only [List.cons_append, walk, walkTok, nextMode, Tok.text, e, mark, positions, texts,
        bytes_append, List.nil_append, Nat.add_assoc]
    · have hn' : ∀ raw, t ≠ .comment raw := fun raw h => hn ⟨raw, h⟩
      obtain ⟨ht1, ht2⟩ := tight_cons hn' ht
      obtain ⟨s', d', e⟩ := ih (pos + bytes t.text) (pos + bytes t.text) (isDot t) hcs ht2 (by simp)
      refine ⟨s', d', ?_⟩
      have e2 : ptext (mark d [t]) = t.text := by
        rw [ptext_mark]; simp [texts]
      rw [mark_cons hn', positions_append, e2]
      simp only [List.cons_append, walk, walkTok_prelude hct hn' ht1 hs, nextMode_prelude hct hn', e,
        texts, bytes_append, List.append_assoc, Nat.add_assoc]

theorem walk_at (top : Bool) (g : Bool) (rest : List Tok) : ∀ (pre : List Tok) (pos : Nat),
    (∀ t ∈ pre, isCurly t = false ∧ isSemicolon t = false) →
    walk top (.at g) pos (pre ++ rest) = walk top (.at g) (pos + bytes (texts pre)) rest := by
  intro pre
  induction pre with
  | nil => intro pos _; simp [texts, bytes]
  | cons t ts ih =>
    intro pos h
    have ⟨h1, h2⟩ := h t (by simp)
    have ih := ih (pos + bytes t.text) (fun x hx => h x (by simp [hx]))
    have e1 : walkTok (.at g) pos t = [] := by
      cases t with
      | block k i c => cases k <;> simp_all [walkTok, isCurly]
      | _ => simp [walkTok]
    have e2 : nextMode top (.at g) (pos + bytes t.text) t = .at g := by
      cases t with
      | block k i c => cases k <;> simp_all [nextMode, isCurly]
      | _ => simp_all [nextMode, isSemicolon]
    simp only [List.cons_append, walk, e1, e2, ih, texts, bytes_append, List.nil_append, Nat.add_assoc]

theorem walk_between {top : Bool} {t : Tok} {ts : List Tok} {pos : Nat}
    (h : isSpace t = false ∧ isCd t = false ∧ isAt t = false) (hc : isCurly t = false) :
    walk top .between pos (t :: ts) = walk top (.prelude pos false) pos (t :: ts) := by
  have e1 : walkTok .between pos t = walkTok (.prelude pos false) pos t := by
    cases t with
    | block k i c => cases k <;> simp_all [walkTok, isCurly]
    | _ => simp [walkTok]
  have e2 : ∀ p, nextMode top .between p t = nextMode top (.prelude pos false) p t := by
    intro p
    cases t with
    | block k i c => cases k <;> simp_all [nextMode, isCurly]
    | _ => simp_all [nextMode, isSpace, isCd, isAt]
  simp only [walk, e1, e2]

theorem bytes_open (close : Text) (ts : List Tok) :
    bytes (Tok.block .curly ts close).text = 1 + bytes (texts ts) + bytes close := by
  simp only [Tok.text, Kind.opening, bytes_cons, bytes_append, Nat.add_assoc]
  rfl

theorem bytes_brace : bytes ['{'] = 1 := rfl

/-- Is this place the top of the sheet? -/
def isTop : Place → Bool
  | .top => true
  | _ => false

mutual
theorem walk_rule (p : Place) (hp : p ≠ .body) (rest : List Tok) (pos : Nat) :
    ∀ r : Rule, r.WF p → r.Supported →
    walk (isTop p) .between pos (r.toks ++ rest) =
      positions pos r.pieces ++ walk (isTop p) .between (pos + bytes (texts r.toks)) rest
  | .gap t, hw, _ => by
    simp only [Rule.WF] at hw
    have e1 : walkTok .between pos t = [] := by
      cases t <;> simp_all [walkTok, isSpace, isCd]
    have e2 : nextMode (isTop p) .between (pos + bytes t.text) t = .between := by
      cases t <;> simp_all [nextMode, isSpace, isCd, isTop]
    simp [Rule.toks, Rule.pieces, walk, e1, e2, positions, texts]
  | .style sel body close, hw, hs => by
    simp only [Rule.WF] at hw
    simp only [Rule.Supported] at hs
    obtain ⟨hc, hh, -⟩ := hw
    obtain ⟨ht, -, hn⟩ := hs
    have e0 : walk (isTop p) .between pos (sel ++ (Tok.block .curly (toks body) close :: rest)) =
        positions pos (mark false sel) ++ walk (isTop p) .between
          (pos + bytes (texts sel) + bytes (Tok.block .curly (toks body) close).text) rest := by
      cases sel with
      | nil => simp [walk, walkTok, nextMode, mark, positions, texts, bytes]
      | cons t ts =>
        obtain ⟨s', d', e⟩ := walk_prelude (isTop p) (Tok.block .curly (toks body) close :: rest) (t :: ts)
          pos pos false hc ht (by simp)
        rw [List.cons_append, walk_between (hh t rfl) (hc t (by simp)), ← List.cons_append, e]
        simp [walk, walkTok, nextMode]
    have e1 : ∀ q, positions q (pieces body) = [] := positions_nil hn
    simp only [Rule.toks, Rule.pieces, List.append_assoc, List.cons_append, List.nil_append, e0,
      positions_append, positions, e1, List.append_nil, texts_append, texts, bytes_append,
      Nat.add_assoc]
  | .group name pre body close, hw, hs => by
    simp only [Rule.WF] at hw
    simp only [Rule.Supported] at hs
    have e0 := fun q => walk_at (isTop p) (isGroup name) (Tok.block .curly (toks body) close :: rest) pre q
      hw.1
    have e3 : bytes (Tok.atKeyword name).text = bytes ('@' :: name) := rfl
    have e4 : bytes ('@' :: (name ++ (texts pre ++ ['{']))) =
        bytes ('@' :: name) + bytes (texts pre) + 1 := by
      simp only [bytes_cons, bytes_append, Nat.add_assoc]; rfl
    have e5 : bytes (texts (Rule.group name pre body close).toks) =
        bytes ('@' :: name) + bytes (texts pre) + bytes (Tok.block .curly (toks body) close).text := by
      simp only [Rule.toks, texts, texts_append, bytes_append, e3, Nat.add_assoc, List.append_nil]
    rcases hs with ⟨hg, hs⟩ | ⟨hg, hn⟩
    · have ih := walk_rules .group (by simp) (pos + bytes ('@' :: name) + bytes (texts pre) + 1) body hw.2 hs
      simp only [isTop, Nat.add_assoc] at ih
      rw [hg] at e0
      rw [e5]
      simp only [Rule.toks, Rule.pieces, List.append_assoc, List.cons_append, List.nil_append, walk,
        walkTok, nextMode, e0, e3, hg, positions, positions_append, e4, ih, List.append_nil,
        Nat.add_assoc]
    · have e1 : ∀ q, positions q (pieces body) = [] := positions_nil hn
      rw [hg] at e0
      rw [e5]
      simp only [Rule.toks, Rule.pieces, List.append_assoc, List.cons_append, List.nil_append, walk,
        walkTok, nextMode, e0, e3, hg, positions, positions_append, e1, List.append_nil, Nat.add_assoc]
  | .atBlock name pre body close, hw, _ => by
    simp only [Rule.WF] at hw
    have e0 := fun q => walk_at (isTop p) (isGroup name) (Tok.block .curly body close :: rest) pre q
      hw.2
    rw [hw.1] at e0
    simp only [Rule.toks, Rule.pieces, List.append_assoc, List.cons_append, List.nil_append, walk,
      walkTok, nextMode, e0, hw.1, positions, texts, texts_append, bytes_append, List.append_nil,
      Nat.add_assoc]
  | .statement name pre, hw, _ => by
    simp only [Rule.WF] at hw
    have e0 := fun q => walk_at (isTop p) (isGroup name) (Tok.semicolon :: rest) pre q hw
    simp only [Rule.toks, Rule.pieces, List.append_assoc, List.cons_append, List.nil_append, walk,
      walkTok, nextMode, e0, positions, texts, texts_append, bytes_append, List.append_nil,
      Nat.add_assoc]
  | .decls ts, hw, _ => by
    simp only [Rule.WF] at hw
    exact absurd hw hp

theorem walk_rules (p : Place) (hp : p ≠ .body) (pos : Nat) : ∀ rs : List Rule,
    WF p rs → Supported rs → walk (isTop p) .between pos (toks rs) = positions pos (pieces rs)
  | [], _, _ => rfl
  | r :: rs, hw, hs => by
    simp only [WF] at hw
    simp only [Supported] at hs
    have h1 := walk_rule p hp (toks rs) pos r hw.1 hs.1
    have h2 := walk_rules p hp (pos + bytes (texts r.toks)) rs hw.2 hs.2
    simp only [toks, pieces, positions_append, ptext_rule, h1, h2]
end

end Verif.Css
