import Verif.Lists.ModeledLemmas
/-!
# C42: ListModel is a faithful vector with a bounded log
-/
namespace Verif.Lists
open Verif.Dom

/-- One by one, every change is what the two assertions and the calls ask for. -/
def ChangesOk (ks : List Key) : List Change → Prop
  | [] => True
  | c :: cs => ChangeOk ks c ∧ ChangesOk (applyChange ks c) cs

theorem changesOk_append {cs ds : List Change} : ∀ {ks : List Key},
    ChangesOk ks (cs ++ ds) ↔ ChangesOk ks cs ∧ ChangesOk (cs.foldl applyChange ks) ds := by
  induction cs with
  | nil => intro ks; simp [ChangesOk]
  | cons c cs ih => intro ks; simp only [List.cons_append, ChangesOk, List.foldl_cons, ih, and_assoc]

/-- No change swaps neighbours. -/
def NoBadSwap (ks : List Key) : List Change → Prop
  | [] => True
  | c :: cs => ¬ BadSwap ks c ∧ NoBadSwap (applyChange ks c) cs

theorem noBadSwap_append {cs ds : List Change} : ∀ {ks : List Key},
    NoBadSwap ks (cs ++ ds) ↔ NoBadSwap ks cs ∧ NoBadSwap (cs.foldl applyChange ks) ds := by
  induction cs with
  | nil => intro ks; simp [NoBadSwap]
  | cons c cs ih => intro ks; simp only [List.cons_append, NoBadSwap, List.foldl_cons, ih, and_assoc]

/-- the changes since the version `ver`, if the log goes back that far -/
def Model.since (m : Model) (ver : Nat) : List Change := m.changes.drop (ver - m.logStart)

/-- The log leads from the keys `old` at the version `ver` to the contents. -/
structure Covers (m : Model) (ver : Nat) (old : List Key) (dirty : Bool) (gone : List Key) : Prop where
  le : ver ≤ m.version
  len : m.changes.length ≤ m.version
  nodup : m.vec.Nodup
  ok : m.logStart ≤ ver → ChangesOk old (m.since ver)
  apply : m.logStart ≤ ver → (m.since ver).foldl applyChange old = m.vec
  clean : m.logStart ≤ ver → dirty = false → NoBadSwap old (m.since ver)
  gone : m.logStart ≤ ver → ∀ k, .remove k ∈ m.since ver → k ∈ gone

theorem since_logged {m m' : Model} {c : Change} {n : Nat} {ver : Nat} (hlen : m.changes.length ≤ m.version)
    (hle : ver ≤ m.version)
    (h1 : m'.changes = if (m.changes ++ [c]).length > n / 2 then (m.changes ++ [c]).tail else m.changes ++ [c])
    (h2 : m'.version = m.version + 1) (hs : m'.logStart ≤ ver) :
    m.logStart ≤ ver ∧ m'.since ver = m.since ver ++ [c] := by
  unfold Model.since Model.logStart at *
  split at h1
  · have hl : m'.changes.length = m.changes.length := by rw [h1]; simp
    rw [hl, h2] at hs
    refine ⟨by omega, ?_⟩
    rw [hl, h1, h2, ← List.drop_one, List.drop_drop, ← List.drop_append_of_le_length (by omega)]
    congr 1
    omega
  · have hl : m'.changes.length = m.changes.length + 1 := by rw [h1]; simp
    rw [hl, h2] at hs
    refine ⟨by omega, ?_⟩
    rw [hl, h1, h2, ← List.drop_append_of_le_length (by omega)]
    congr 1
    omega

theorem covers_self {m : Model} (hl : m.changes.length ≤ m.version) (hn : m.vec.Nodup) :
    Covers m m.version m.vec false [] := by
  have h : m.since m.version = [] := by
    unfold Model.since Model.logStart
    rw [List.drop_eq_nil_iff]
    omega
  refine ⟨Nat.le_refl _, hl, hn, ?_, ?_, ?_, ?_⟩ <;> intro _ <;> rw [h]
  · trivial
  · rfl
  · intro _; trivial
  · intro k hk; cases hk

theorem covers_edit {m m' : Model} {ver : Nat} {old : List Key} {dirty : Bool} {gone : List Key} {e : Edit}
    (h : Covers m ver old dirty gone) (hn : m'.vec.Nodup) (hl : Logs m e m') :
    Covers m' ver old (dirtied dirty e) (removed m.vec e ++ gone) := by
  obtain ⟨g1, g2, g3, g4, g5, g6, g7⟩ := h
  cases hl with
  | cleared h1 h2 h3 =>
    have hs : ¬ m'.logStart ≤ ver := by unfold Model.logStart; rw [h1, h2]; simp; omega
    exact ⟨by omega, by rw [h1, h2]; simp, hn, fun h => absurd h hs, fun h => absurd h hs, fun h => absurd h hs,
      fun h => absurd h hs⟩
  | nothing h1 h2 h3 =>
    subst h1 h2
    exact ⟨g1, g2, g3, g4, g5, g6, fun h k hk => List.mem_append_right _ (g7 h k hk)⟩
  | logged c n h1 h2 h3 h4 h5 h6 h7 h8 =>
    have hlen : m'.changes.length ≤ m'.version := by
      rw [h1, h2]
      split <;> simp <;> omega
    refine ⟨by omega, hlen, hn, ?_, ?_, ?_, ?_⟩ <;> intro hs <;>
      obtain ⟨hs', e'⟩ := since_logged g2 g1 h1 h2 hs <;> rw [e']
    · rw [changesOk_append, g5 hs']
      exact ⟨g4 hs', h4, trivial⟩
    · rw [List.foldl_append, g5 hs']
      exact h5
    · intro hd
      rw [noBadSwap_append, g5 hs']
      have hd' : dirty = false := by
        cases e <;> simp only [dirtied, Bool.or_eq_false_iff] at hd <;> first | exact hd | exact hd.1 | skip
        exact absurd rfl (h8 _)
      refine ⟨g6 hs' hd', ?_, trivial⟩
      intro hb
      obtain ⟨a, rfl⟩ := h6 hb
      simp [dirtied] at hd
    · intro k hk
      rcases List.mem_append.1 hk with hk | hk
      · exact List.mem_append_right _ (g7 hs' k hk)
      · rw [List.mem_singleton] at hk
        exact List.mem_append_left _ (h7 k hk.symm)

theorem version_edit {m m' : Model} {e : Edit} (hl : Logs m e m') (he : effective m.vec e) : m.version < m'.version := by
  cases hl with
  | cleared _ h2 _ => omega
  | nothing _ h2 h3 => subst h2; exact absurd h3 he
  | logged _ _ _ h2 => omega

/-- **C42, contents.** Edits in range never panic, and the contents are those of a plain vector. -/
theorem listModel_contents {v : List Key} (hn : v.Nodup) (es : List Edit) (hok : EditsOk v es) :
    ∃ m, (Model.fromVec v).edits es = some m ∧ m.vec = es.foldl vecEdit v ∧ m.vec.Nodup := by
  suffices ∀ (es : List Edit) (m : Model), m.vec.Nodup → EditsOk m.vec es →
      ∃ m', m.edits es = some m' ∧ m'.vec = es.foldl vecEdit m.vec ∧ m'.vec.Nodup from
    this es (Model.fromVec v) hn hok
  intro es
  induction es with
  | nil => intro m hm _; exact ⟨m, rfl, rfl, hm⟩
  | cons e es ih =>
    intro m hm ho
    obtain ⟨m1, e1, v1, n1, -⟩ := edit_ok hm ho.1
    obtain ⟨m2, e2, v2, n2⟩ := ih m1 n1 (v1 ▸ ho.2)
    exact ⟨m2, by simp only [Model.edits, e1, bind, Option.bind, e2], by rw [v2, v1]; rfl, n2⟩

/-- Every edit is in range when it is made. -/
def EditsInRange (v : List Key) : List Edit → Prop
  | [] => True
  | e :: es => inRange v e ∧ EditsInRange (vecEdit v e) es

/-- **C42, contents, also with equal keys.** A history of edits ends without a panic exactly if every edit is in range
when it is made, and then the contents are those of a plain vector. -/
theorem listModel_edits_iff (v : List Key) (es : List Edit) :
    ((Model.fromVec v).edits es ≠ none ↔ EditsInRange v es) ∧
      ∀ m, (Model.fromVec v).edits es = some m → m.vec = es.foldl vecEdit v := by
  suffices ∀ (es : List Edit) (m : Model), (m.edits es ≠ none ↔ EditsInRange m.vec es) ∧
      ∀ m', m.edits es = some m' → m'.vec = es.foldl vecEdit m.vec from this es (Model.fromVec v)
  intro es
  induction es with
  | nil => intro m; exact ⟨by simp [Model.edits, EditsInRange], fun m' h => by cases h; rfl⟩
  | cons e es ih =>
    intro m
    by_cases h : inRange m.vec e
    · obtain ⟨m1, e1, v1⟩ := edit_vec h
      have := ih m1
      simp only [Model.edits, e1, bind, Option.bind, EditsInRange, List.foldl_cons, ← v1]
      exact ⟨⟨fun h' => ⟨h, this.1.1 h'⟩, fun h' => this.1.2 h'.2⟩, this.2⟩
    · simp only [Model.edits, edit_none h, bind, Option.bind, EditsInRange]
      exact ⟨⟨fun h' => absurd rfl h', fun h' => absurd h'.1 h⟩, fun m' h => by cases h⟩

/-- the whole history of one model -/
theorem edits_covers (es : List Edit) : ∀ {m : Model} {ver : Nat} {old : List Key} {d : Bool} {g : List Key},
    Covers m ver old d g → EditsOk m.vec es →
    ∃ m', m.edits es = some m' ∧ m'.vec = es.foldl vecEdit m.vec ∧ m.version ≤ m'.version ∧
      ∃ d' g', Covers m' ver old d' g' := by
  induction es with
  | nil => intro m ver old d g h _; exact ⟨m, rfl, rfl, Nat.le_refl _, d, g, h⟩
  | cons e es ih =>
    intro m ver old d g h ho
    obtain ⟨m1, e1, v1, n1, l1⟩ := edit_ok h.nodup ho.1
    obtain ⟨m2, e2, v2, w2, d', g', c2⟩ := ih (covers_edit h n1 l1) (v1 ▸ ho.2)
    refine ⟨m2, by simp only [Model.edits, e1, bind, Option.bind, e2], by rw [v2, v1]; rfl, ?_, d', g', c2⟩
    have : m.version ≤ m1.version := by
      cases l1 with
      | cleared _ h2 _ => omega
      | nothing h1 => rw [h1]; exact Nat.le_refl _
      | logged _ _ _ h2 => omega
    omega

theorem editsOk_append {es fs : List Edit} : ∀ {v : List Key},
    EditsOk v (es ++ fs) ↔ EditsOk v es ∧ EditsOk (es.foldl vecEdit v) fs := by
  induction es with
  | nil => intro v; simp [EditsOk]
  | cons e es ih => intro v; simp only [List.cons_append, EditsOk, List.foldl_cons, ih, and_assoc]

/-- **C42, log.** Take the model at any moment of its history (`m1`) and at any later moment (`m2`).
If the log of `m2` goes back to the version of `m1`, the changes since then, applied to the contents
of `m1`, give the contents of `m2`. The log is never longer than the version number says. -/
theorem listModel_log {v : List Key} (hn : v.Nodup) (es fs : List Edit) (hok : EditsOk v (es ++ fs)) :
    ∃ m1 m2, (Model.fromVec v).edits es = some m1 ∧ m1.edits fs = some m2 ∧ m2.changes.length ≤ m2.version ∧
      m1.version ≤ m2.version ∧
      (m2.version - m2.changes.length ≤ m1.version →
        (m2.changes.drop (m1.version - (m2.version - m2.changes.length))).foldl applyChange m1.vec = m2.vec) := by
  rw [editsOk_append] at hok
  obtain ⟨m1, e1, v1, -, d, g, c1⟩ := edits_covers es (covers_self (m := Model.fromVec v) (by simp [Model.fromVec]) hn) hok.1
  have hok2 : EditsOk m1.vec fs := by rw [v1]; exact hok.2
  obtain ⟨m2, e2, -, w2, d', g', c2⟩ := edits_covers fs (covers_self c1.len c1.nodup) hok2
  exact ⟨m1, m2, e1, e2, c2.len, w2, c2.apply⟩

/-- **C42, version.** Every edit that does something makes the version larger. -/
theorem listModel_version {v : List Key} (hn : v.Nodup) (es : List Edit) (e : Edit) (hok : EditsOk v (es ++ [e]))
    (he : effective (es.foldl vecEdit v) e) :
    ∃ m1 m2, (Model.fromVec v).edits es = some m1 ∧ m1.edit e = some m2 ∧ m1.version < m2.version := by
  rw [editsOk_append] at hok
  obtain ⟨m1, e1, v1, n1⟩ := listModel_contents hn es hok.1
  obtain ⟨m2, e2, -, -, l2⟩ := edit_ok n1 (e := e) (v1 ▸ hok.2.1)
  exact ⟨m1, m2, e1, e2, version_edit l2 (v1 ▸ he)⟩

/-- **C42, size of the log.** The log has at most half as many entries as the vector had keys at its
longest. -/
theorem listModel_log_bounded {v : List Key} (hn : v.Nodup) (es : List Edit) (hok : EditsOk v es) :
    ∃ m, (Model.fromVec v).edits es = some m ∧ m.changes.length ≤ peak v es / 2 := by
  have hpk : ∀ (es : List Edit) (v : List Key), v.length ≤ peak v es := by
    intro es v; cases es <;> simp only [peak] <;> omega
  suffices ∀ (es : List Edit) (m : Model) (n : Nat), m.vec.Nodup → EditsOk m.vec es → m.changes.length ≤ n / 2 →
      ∃ m', m.edits es = some m' ∧ m'.changes.length ≤ max n (peak m.vec es) / 2 by
    obtain ⟨m', h1, h2⟩ := this es (Model.fromVec v) 0 hn hok (by simp [Model.fromVec])
    refine ⟨m', h1, ?_⟩
    have : max 0 (peak (Model.fromVec v).vec es) = peak v es := by simp [Model.fromVec]
    rw [this] at h2
    exact h2
  intro es
  induction es with
  | nil =>
    intro m n hm _ hl
    refine ⟨m, rfl, Nat.le_trans hl (Nat.div_le_div_right (Nat.le_max_left ..))⟩
  | cons e es ih =>
    intro m n hm ho hl
    obtain ⟨m1, e1, v1, n1, l1⟩ := edit_ok hm ho.1
    have hb : m1.changes.length ≤ max n (max m.vec.length m1.vec.length) / 2 := by
      cases l1 with
      | cleared h1 => rw [h1]; simp
      | nothing h1 => rw [h1]; exact Nat.le_trans hl (Nat.div_le_div_right (Nat.le_max_left ..))
      | logged c k h1 h2 h3 =>
        rw [h1]
        split
        · rw [List.length_tail, List.length_append]
          simp only [List.length_singleton, Nat.add_sub_cancel]
          exact Nat.le_trans hl (Nat.div_le_div_right (Nat.le_max_left ..))
        · have : k ≤ max n (max m.vec.length m1.vec.length) := by omega
          have := Nat.div_le_div_right (c := 2) this
          omega
    obtain ⟨m2, e2, b2⟩ := ih m1 _ n1 (v1 ▸ ho.2) hb
    refine ⟨m2, by simp only [Model.edits, e1, bind, Option.bind, e2], Nat.le_trans b2 (Nat.div_le_div_right ?_)⟩
    simp only [peak]
    have := hpk es m1.vec
    rw [v1] at this ⊢
    omega

/-! ## a concrete history -/

/-- edits with every operation, in which the log is cut -/
def modelDemo : List Edit :=
  [.push 7, .insert 0 8, .swap 1 3, .moveItem 0 4, .moveItem 5 2, .remove 1, .pop, .modifyVec [9, 5, 6, 4], .push 1]

instance (v : List Key) (e : Edit) : Decidable (EditOk v e) := by
  cases e <;> simp only [EditOk, inRange] <;> infer_instance

def editsOkB (v : List Key) : List Edit → Bool
  | [] => true
  | e :: es => decide (EditOk v e) && editsOkB (vecEdit v e) es

theorem editsOk_of {es : List Edit} : ∀ {v : List Key}, editsOkB v es = true → EditsOk v es := by
  induction es with
  | nil => intro v _; trivial
  | cons e es ih =>
    intro v h
    simp only [editsOkB, Bool.and_eq_true, decide_eq_true_eq] at h
    exact ⟨h.1, ih h.2⟩

/-- the hypotheses are met -/
example : EditsOk [1, 2, 3, 4] modelDemo := editsOk_of (by decide)

example : modelDemo.foldl vecEdit [1, 2, 3, 4] = [9, 5, 6, 4, 1] := by decide

/-- the log covers an older version: two changes after the first four edits -/
example : ∃ m1 m2, (Model.fromVec [1, 2, 3, 4]).edits (modelDemo.take 4) = some m1 ∧
    m1.edits ((modelDemo.drop 4).take 2) = some m2 ∧ m2.version - m2.changes.length ≤ m1.version ∧
    m1.vec = [3, 2, 1, 4, 8, 7] ∧ m2.vec = [3, 7, 1, 4, 8] := by
  refine ⟨_, _, rfl, rfl, by decide, by decide, by decide⟩

/-- `listModel_edits_iff` with equal keys, and with an index past the end. -/
example : ∃ m, (Model.fromVec [1, 1, 2]).edits [.push 2, .moveItem 3 0, .swap 0 1, .remove 2] = some m ∧
    m.vec = [1, 2, 2] := ⟨_, rfl, rfl⟩

example : (Model.fromVec [1, 1, 2]).edits [.push 2, .moveItem 4 0] = none := by
  have h := (listModel_edits_iff [1, 1, 2] [.push 2, .moveItem 4 0]).1
  cases he : (Model.fromVec [1, 1, 2]).edits [.push 2, .moveItem 4 0] with
  | none => rfl
  | some m =>
    have := (h.1 (by rw [he]; simp)).2.1.1
    exact absurd this (by decide)

end Verif.Lists
