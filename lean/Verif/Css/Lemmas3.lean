import Verif.Css.Lemmas2

/-! # The output -/

namespace Verif.Css

theorem splitBytes_append (a b : Text) : splitBytes (bytes a) (a ++ b) = some (a, b) := by
  induction a with
  | nil => cases b <;> rfl
  | cons c a ih =>
    have hp : 0 < c.utf8Size := c.utf8Size_pos
    rw [bytes_cons]
    obtain ⟨n, hn⟩ : ∃ n, c.utf8Size + bytes a = n + 1 := ⟨c.utf8Size + bytes a - 1, by omega⟩
    rw [hn, List.cons_append, splitBytes, if_pos (by omega)]
    rw [show n + 1 - c.utf8Size = bytes a by omega, ih]
    rfl

theorem slice_append (a b c : Text) : slice (a ++ b ++ c) (bytes a) (bytes a + bytes b) = some b := by
  simp only [slice, Nat.le_add_right, if_true]
  rw [List.append_assoc, splitBytes_append]
  simp only [bind, Option.bind]
  rw [show bytes a + bytes b - bytes a = bytes b by omega, splitBytes_append]

theorem dotAt_append (a n : Text) :
    dotAt (a ++ '.' :: n) (bytes (a ++ '.' :: n) - bytes n - 1) = true := by
  have h : bytes (a ++ '.' :: n) - bytes n - 1 = bytes a := by
    rw [bytes_append, bytes_cons, show ('.' : Char).utf8Size = 1 from rfl]; omega
  rw [h, dotAt, splitBytes_append]
  rfl

/-- Every class follows a dot and has no escapes; `M` is the text since the last class. -/
def Dotted (M : Text) : List Piece → Prop
  | [] => True
  | .plain t :: ps => Dotted (M ++ t) ps
  | .cls raw val :: ps => M.getLast? = some '.' ∧ raw = val ∧ Dotted [] ps

theorem emit_eq (pf : Text) : ∀ (ps : List Piece) (L M out : Text), Dotted M ps →
    emit (L ++ M ++ ptext ps) pf out (bytes L) (positions (bytes L + bytes M) ps) =
      some (out ++ M ++ ps.flatMap (Piece.emitted pf), names ps) := by
  intro ps
  induction ps with
  | nil =>
    intro L M out _
    simp [emit, positions, sliceFrom, ptext_nil, splitBytes_append, names]
  | cons p ps ih =>
    intro L M out h
    cases p with
    | plain t =>
      have := ih L (M ++ t) out h
      simp only [positions, ptext_cons, Piece.text]
      rw [bytes_append, ← Nat.add_assoc] at this
      simp only [← List.append_assoc] at this ⊢
      rw [this]
      simp [names, List.filterMap_cons, Piece.name, Piece.emitted]
    | cls raw val =>
      obtain ⟨hM, rfl, hd⟩ := h
      obtain ⟨M0, rfl⟩ : ∃ M0, M = M0 ++ ['.'] := by
        rw [List.getLast?_eq_some_iff] at hM; exact hM
      have ih := ih (L ++ (M0 ++ ['.']) ++ raw) [] (out ++ ((M0 ++ ['.']) ++ raw) ++ '-' :: pf) hd
      have e1 : slice (L ++ (M0 ++ ['.']) ++ (raw ++ ptext ps)) (bytes L)
          (bytes L + bytes (M0 ++ ['.']) + bytes raw) = some ((M0 ++ ['.']) ++ raw) := by
        have := slice_append L ((M0 ++ ['.']) ++ raw) (ptext ps)
        rw [bytes_append (M0 ++ ['.']) raw, ← Nat.add_assoc] at this
        simp only [List.append_assoc] at this ⊢
        exact this
      have e2 : slice (L ++ (M0 ++ ['.']) ++ (raw ++ ptext ps)) (bytes L + bytes (M0 ++ ['.']))
          (bytes L + bytes (M0 ++ ['.']) + bytes raw) = some raw := by
        have := slice_append (L ++ (M0 ++ ['.'])) raw (ptext ps)
        rw [bytes_append L] at this
        simp only [List.append_assoc] at this ⊢
        exact this
      have e3 : dotAt (out ++ (M0 ++ ['.'] ++ raw)) (bytes (out ++ (M0 ++ ['.'] ++ raw)) - bytes raw - 1)
          = true := by
        have := dotAt_append (out ++ M0) raw
        simpa only [List.append_assoc, List.cons_append, List.nil_append] using this
      have e4 : bytes raw + 1 ≤ bytes (out ++ (M0 ++ ['.'] ++ raw)) := by
        simp only [bytes_append, bytes_cons, show ('.' : Char).utf8Size = 1 from rfl]; omega
      simp only [positions, ptext_cons, Piece.text, emit, e1, bind, Option.bind, e2]
      rw [if_pos ⟨e4, e3⟩]
      have e5 : bytes L + bytes (M0 ++ ['.']) + bytes raw = bytes (L ++ (M0 ++ ['.']) ++ raw) := by
        simp only [bytes_append]
      rw [e5]
      simp only [List.append_nil, show bytes [] = 0 from rfl, Nat.add_zero, List.append_assoc] at ih ⊢
      rw [ih]
      simp [names, Piece.name, Piece.emitted]

/-! ## The pieces of a supported sheet -/

theorem dotted_append {ps qs : List Piece} : ∀ {M}, Dotted M ps → (∀ M, Dotted M qs) →
    Dotted M (ps ++ qs) := by
  induction ps with
  | nil => intro M _ h; exact h M
  | cons p ps ih =>
    intro M h hq
    cases p with
    | plain t => exact ih (M := M ++ t) h hq
    | cls raw val => exact ⟨h.1, h.2.1, ih (M := []) h.2.2 hq⟩

theorem dotted_nil {ps : List Piece} (h : names ps = []) : ∀ M, Dotted M ps := by
  induction ps with
  | nil => intro M; trivial
  | cons p ps ih =>
    intro M
    cases p with
    | plain t => exact ih (by simpa [names, Piece.name] using h) _
    | cls raw val => simp [names, Piece.name] at h

theorem unescaped_append {a b : List Piece} (h : Unescaped (a ++ b)) : Unescaped a ∧ Unescaped b :=
  ⟨fun r v hm => h r v (by simp [hm]), fun r v hm => h r v (by simp [hm])⟩

theorem unescaped_cons {a : Piece} {b : List Piece} (h : Unescaped (a :: b)) : Unescaped b :=
  fun r v hm => h r v (by simp [hm])

theorem dotted_mark : ∀ (ts : List Tok) (dot : Bool) (M : Text), Tight dot ts → Unescaped (mark dot ts) →
    (dot = true → M.getLast? = some '.') → Dotted M (mark dot ts)
  | [], _, _, _, _, _ => trivial
  | .comment raw :: ts, dot, M, ht, hu, hM => by
    simp only [Tight] at ht
    simp only [mark] at hu ⊢
    rw [ht.1] at hu ⊢
    exact dotted_mark ts false (M ++ raw) ht.2 (unescaped_cons hu) (by simp)
  | .ident raw val :: ts, dot, M, ht, hu, hM => by
    simp only [Tight] at ht
    simp only [mark] at hu ⊢
    cases dot with
    | true =>
      exact ⟨hM rfl, hu _ _ (by simp), dotted_mark ts false [] ht.2 (unescaped_cons hu) (by simp)⟩
    | false => exact dotted_mark ts false (M ++ raw) ht.2 (unescaped_cons hu) (by simp)
  | .delim c :: ts, dot, M, ht, hu, hM => by
    by_cases hc : c = '.'
    · subst hc
      simp only [Tight] at ht
      simp only [mark] at hu ⊢
      exact dotted_mark ts true (M ++ ['.']) ht (unescaped_cons hu) (by simp)
    · have e : mark dot (.delim c :: ts) = .plain [c] :: mark false ts := by
        rw [mark] <;> simp_all [markTok, Tok.text]
      have h2 : Tight false ts := by
        unfold Tight at ht; split at ht <;> simp_all
      rw [e] at hu ⊢
      exact dotted_mark ts false (M ++ [c]) h2 (unescaped_cons hu) (by simp)
  | .func raw inside close :: ts, dot, M, ht, hu, hM => by
    simp only [Tight, TightTok] at ht
    simp only [mark, markTok, List.cons_append, List.append_assoc] at hu ⊢
    obtain ⟨u1, u2⟩ := unescaped_append (unescaped_cons hu)
    refine dotted_append (M := M ++ raw) ?_ ?_
    · exact dotted_mark inside false (M ++ raw) ht.1 u1 (by simp)
    · intro N
      exact dotted_mark ts false (N ++ close) ht.2 (unescaped_cons u2) (by simp)
  | .space raw :: ts, dot, M, ht, hu, hM => by
    simp only [Tight] at ht
    simp only [mark, markTok, List.cons_append, List.nil_append] at hu ⊢
    exact dotted_mark ts false _ ht.2 (unescaped_cons hu) (by simp)
  | .semicolon :: ts, dot, M, ht, hu, hM => by
    simp only [Tight] at ht
    simp only [mark, markTok, List.cons_append, List.nil_append] at hu ⊢
    exact dotted_mark ts false _ ht.2 (unescaped_cons hu) (by simp)
  | .atKeyword n :: ts, dot, M, ht, hu, hM => by
    simp only [Tight] at ht
    simp only [mark, markTok, List.cons_append, List.nil_append] at hu ⊢
    exact dotted_mark ts false _ ht.2 (unescaped_cons hu) (by simp)
  | .cd raw :: ts, dot, M, ht, hu, hM => by
    simp only [Tight] at ht
    simp only [mark, markTok, List.cons_append, List.nil_append] at hu ⊢
    exact dotted_mark ts false _ ht.2 (unescaped_cons hu) (by simp)
  | .other raw :: ts, dot, M, ht, hu, hM => by
    simp only [Tight] at ht
    simp only [mark, markTok, List.cons_append, List.nil_append] at hu ⊢
    exact dotted_mark ts false _ ht.2 (unescaped_cons hu) (by simp)
  | .block k i c :: ts, dot, M, ht, hu, hM => by
    simp only [Tight] at ht
    simp only [mark, markTok, List.cons_append, List.nil_append] at hu ⊢
    exact dotted_mark ts false _ ht.2 (unescaped_cons hu) (by simp)

mutual
theorem dotted_rule : ∀ (r : Rule), r.Supported → ∀ M, Dotted M r.pieces
  | .gap t, _, M => by simp [Rule.pieces, Dotted]
  | .style sel body close, hs, M => by
    simp only [Rule.Supported] at hs
    obtain ⟨h1, h2, h3⟩ := hs
    simp only [Rule.pieces]
    refine dotted_append (dotted_mark sel false M h1 h2 (by simp)) ?_
    intro N
    exact dotted_append (M := N ++ ['{']) (dotted_nil h3 _) (fun _ => trivial)
  | .group name pre body close, hs, M => by
    simp only [Rule.Supported] at hs
    simp only [Rule.pieces]
    refine dotted_append (M := M ++ _) ?_ (fun _ => trivial)
    rcases hs with ⟨-, hs⟩ | ⟨-, hs⟩
    · exact dotted_rules body hs _
    · exact dotted_nil hs _
  | .atBlock .., _, M => by simp [Rule.pieces, Dotted]
  | .statement .., _, M => by simp [Rule.pieces, Dotted]
  | .decls .., _, M => by simp [Rule.pieces, Dotted]

theorem dotted_rules : ∀ (rs : List Rule), Supported rs → ∀ M, Dotted M (pieces rs)
  | [], _, _ => trivial
  | r :: rs, hs, M => by
    simp only [Supported] at hs
    simp only [pieces]
    exact dotted_append (dotted_rule r hs.1 M) (dotted_rules rs hs.2)
end

theorem mem_distinct {x : Text} : ∀ {l : List Text}, x ∈ distinct l ↔ x ∈ l
  | [] => by simp [distinct]
  | y :: l => by
    have := mem_distinct (x := x) (l := l)
    simp only [distinct, List.mem_cons, List.mem_filter, this, bne_iff_ne]
    by_cases h : x = y <;> simp [h]

theorem nodup_distinct : ∀ l : List Text, (distinct l).Nodup
  | [] => by simp [distinct]
  | y :: l => by
    have := nodup_distinct l
    simp only [distinct, List.nodup_cons, List.mem_filter]
    exact ⟨by simp, this.filter _⟩

end Verif.Css
