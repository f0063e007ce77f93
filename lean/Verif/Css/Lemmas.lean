import Verif.Css.Spec

/-! # Lemmas for C43 -/

namespace Verif.Css

theorem bytes_append (a b : Text) : bytes (a ++ b) = bytes a + bytes b := by
  simp [bytes]

theorem bytes_cons (c : Char) (b : Text) : bytes (c :: b) = c.utf8Size + bytes b := by
  simp [bytes]

theorem texts_append (a b : List Tok) : texts (a ++ b) = texts a ++ texts b := by
  induction a with
  | nil => rfl
  | cons t ts ih => simp [texts, ih]

/-! ## Pieces and positions -/

/-- The text of pieces. -/
def ptext (ps : List Piece) : Text := ps.flatMap Piece.text

theorem ptext_append (a b : List Piece) : ptext (a ++ b) = ptext a ++ ptext b := by
  simp [ptext]

theorem ptext_cons (a : Piece) (b : List Piece) : ptext (a :: b) = a.text ++ ptext b := by
  simp [ptext]

theorem ptext_nil : ptext [] = [] := rfl

mutual
theorem ptext_mark (dot : Bool) : ∀ ts : List Tok, ptext (mark dot ts) = texts ts
  | [] => rfl
  | t :: ts => by
    have h1 := ptext_markTok t
    have h2 := ptext_mark dot ts
    have h3 := ptext_mark true ts
    have h4 := ptext_mark false ts
    cases dot <;> unfold mark <;> split <;>
      simp_all [ptext_cons, ptext_append, Piece.text, texts, Tok.text]

theorem ptext_markTok : ∀ t : Tok, ptext (markTok t) = t.text
  | .func raw inside close => by
    have := ptext_mark false inside
    simp [markTok, ptext_cons, ptext_append, Piece.text, this, Tok.text, ptext_nil]
  | .ident .. | .delim .. | .space .. | .comment .. | .semicolon | .atKeyword .. | .cd .. | .other ..
  | .block .. => by simp [markTok, ptext, Piece.text]
end

mutual
theorem ptext_rule : ∀ r : Rule, ptext r.pieces = texts r.toks
  | .gap t => by simp [Rule.pieces, Rule.toks, texts, ptext, Piece.text]
  | .style sel body close => by
    have := ptext_pieces body
    simp [Rule.pieces, Rule.toks, texts, ptext_append, ptext_cons, Piece.text, texts_append,
      Tok.text, Kind.opening, ptext_mark, this, ptext_nil]
  | .group name pre body close => by
    have := ptext_pieces body
    simp [Rule.pieces, Rule.toks, texts, ptext_append, ptext_cons, Piece.text, texts_append,
      Tok.text, Kind.opening, this, ptext_nil]
  | .atBlock name pre body close => by
    simp [Rule.pieces, Rule.toks, texts, ptext_cons, Piece.text, texts_append,
      Tok.text, Kind.opening, ptext_nil]
  | .statement name pre => by
    simp [Rule.pieces, Rule.toks, texts, ptext_cons, Piece.text, texts_append, Tok.text, ptext_nil]
  | .decls ts => by simp [Rule.pieces, Rule.toks, ptext, Piece.text]

theorem ptext_pieces : ∀ rs : List Rule, ptext (pieces rs) = texts (toks rs)
  | [] => rfl
  | r :: rs => by
    have h1 := ptext_rule r
    have h2 := ptext_pieces rs
    simp [pieces, toks, ptext_append, texts_append, h1, h2]
end

/-- The positions and lengths of the classes. -/
def positions (pos : Nat) : List Piece → List (Nat × Nat)
  | [] => []
  | .plain t :: ps => positions (pos + bytes t) ps
  | .cls raw val :: ps => (pos, bytes val) :: positions (pos + bytes raw) ps

theorem positions_append (pos : Nat) (a b : List Piece) :
    positions pos (a ++ b) = positions pos a ++ positions (pos + bytes (ptext a)) b := by
  induction a generalizing pos with
  | nil => rfl
  | cons p a ih =>
    cases p with
    | plain t =>
      simp only [List.cons_append, positions, ih, ptext_cons, Piece.text, bytes_append]
      rw [Nat.add_assoc]
    | cls raw val =>
      simp only [List.cons_append, positions, ih, ptext_cons, Piece.text, bytes_append]
      rw [Nat.add_assoc]

theorem positions_nil {ps : List Piece} (h : names ps = []) (pos : Nat) : positions pos ps = [] := by
  induction ps generalizing pos with
  | nil => rfl
  | cons p ps ih =>
    cases p with
    | plain t => exact ih (by simpa [names, Piece.name] using h) _
    | cls raw val => simp [names, Piece.name] at h

/-! ## Finding the classes -/

mutual
theorem scan_eq : ∀ (ts : List Tok) (start pos : Nat) (dot : Bool), Tight dot ts →
    (dot = true → start = pos) → scan start pos dot ts = positions pos (mark dot ts)
  | [], _, _, _, _, _ => rfl
  | .comment raw :: ts, start, pos, dot, h, hs => by
    simp only [Tight] at h
    rw [h.1]
    simp only [scan, mark, positions]
    exact scan_eq ts _ _ _ h.2 (by simp)
  | .ident raw val :: ts, start, pos, dot, h, hs => by
    simp only [Tight] at h
    have ih := scan_eq ts (pos + bytes raw) (pos + bytes raw) false h.2 (by simp)
    cases dot with
    | true => simp [scan, mark, positions, scanTok, isDot, Tok.text, ih, hs]
    | false => simp [scan, mark, positions, scanTok, isDot, Tok.text, ih]
  | .delim c :: ts, start, pos, dot, h, hs => by
    by_cases hc : c = '.'
    · subst hc
      simp only [Tight] at h
      have ih := scan_eq ts (pos + bytes ['.']) (pos + bytes ['.']) true h (by simp)
      simp [scan, mark, positions, scanTok, isDot, Tok.text, ih]
    · have e1 : mark dot (.delim c :: ts) = .plain [c] :: mark false ts := by
        rw [mark] <;> simp_all [markTok, Tok.text]
      have h2 : Tight false ts := by
        unfold Tight at h; split at h <;> simp_all
      have ih := scan_eq ts (pos + bytes [c]) (pos + bytes [c]) false h2 (by simp)
      have e3 : isDot (.delim c) = false := by simp [isDot, hc]
      rw [e1]
      simp [scan, positions, scanTok, e3, Tok.text, ih]
  | .func raw inside close :: ts, start, pos, dot, h, hs => by
    simp only [Tight, TightTok] at h
    have ih1 := scan_eq inside (pos + bytes raw) (pos + bytes raw) false h.1 (by simp)
    have ih2 := fun p => scan_eq ts p p false h.2 (by simp)
    simp only [scan, mark, scanTok, isDot, Tok.text, ih1, ih2, markTok, List.cons_append, positions,
      List.append_assoc, positions_append, ptext_mark, bytes_append, List.nil_append, Nat.add_assoc]
  | .space raw :: ts, start, pos, dot, h, hs => by
    simp only [Tight] at h
    simp [scan, mark, positions, scanTok, isDot, Tok.text, markTok, scan_eq ts _ _ false h.2 (by simp)]
  | .semicolon :: ts, start, pos, dot, h, hs => by
    simp only [Tight] at h
    simp [scan, mark, positions, scanTok, isDot, Tok.text, markTok, scan_eq ts _ _ false h.2 (by simp)]
  | .atKeyword n :: ts, start, pos, dot, h, hs => by
    simp only [Tight] at h
    simp [scan, mark, positions, scanTok, isDot, Tok.text, markTok, scan_eq ts _ _ false h.2 (by simp)]
  | .cd raw :: ts, start, pos, dot, h, hs => by
    simp only [Tight] at h
    simp [scan, mark, positions, scanTok, isDot, Tok.text, markTok, scan_eq ts _ _ false h.2 (by simp)]
  | .other raw :: ts, start, pos, dot, h, hs => by
    simp only [Tight] at h
    simp [scan, mark, positions, scanTok, isDot, Tok.text, markTok, scan_eq ts _ _ false h.2 (by simp)]
  | .block k i c :: ts, start, pos, dot, h, hs => by
    simp only [Tight] at h
    simp [scan, mark, positions, scanTok, isDot, Tok.text, markTok, scan_eq ts _ _ false h.2 (by simp)]
end

end Verif.Css
