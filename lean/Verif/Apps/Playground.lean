import Verif.Apps.PlaygroundSpec
import Verif.Live.Since
/-!
# C72: the colours of the boxes
-/
namespace Verif.Apps
open Verif.Live
open XBow.Data (Data Layer)

section
variable {V S O : Type} {hash : XBow.Path → BitVec 64} {enc : Layer → XBow.Seg} {B : Box}

/-- What every entry of a history is like. -/
def Genuine (e : Entry Nums hash enc) : Prop :=
  (∃ j op out, e = (⟨j, op⟩, ⟨j, op, out⟩)) ∧
  ∀ (n : Nat) (op : XBow.WOp) (ev : XBow.Event), e.2 = ⟨.store n, op, ev⟩ →
    ev.op = op ∧ ∀ o, op = .sub o → ∃ out, ev.trace = [(o, out)]

theorem genuine_hist {s0 s : (fullSource Nums hash enc).σ} {h : List (Entry Nums hash enc)}
    (hh : Hist (fullSource Nums hash enc) s0 h s) : ∀ e ∈ h, Genuine e := by
  intro e he
  obtain ⟨j, op, out, rfl⟩ := (part_hist hh (.cell 0)).2 e he
  refine ⟨⟨j, op, out, rfl⟩, ?_⟩
  intro n op' ev heq
  cases heq
  obtain ⟨a, b, rfl⟩ := List.append_of_mem he
  obtain ⟨m, -, h1⟩ := hist_append hh
  obtain ⟨m', h2, -⟩ := hist_cons h1
  simp only [] at h2
  split at h2
  · next t out' hz =>
    simp only [Option.some.injEq, Prod.mk.injEq] at h2
    obtain ⟨-, h2⟩ := h2
    cases h2
    obtain ⟨r, h3, -, -, rfl⟩ := store_step hz
    refine ⟨rfl, ?_⟩
    rintro o rfl
    simp only [XBow.wstep] at h3
    cases e2 : XBow.step hash (m (.store n) : XBow.World).sys o with
    | none => rw [e2] at h3; cases h3
    | some x => obtain ⟨sys, o⟩ := x; rw [e2] at h3; cases h3; exact ⟨o, rfl⟩
  · cases h2

theorem versionAt_write {h : List (Entry Nums hash enc)} {e : Entry Nums hash enc} {v : Nat}
    (he : e.1 = ⟨.cell 0, .write v⟩) : versionAt (h ++ [e]) = v := by
  rw [versionAt, valuesAt_append]
  simp only [List.map_cons, List.map_nil, he, lastWrite, List.filterMap_cons, wrote, List.filterMap_nil]
  rfl

theorem wrote_version {o : FOp Nums hash enc} (he : ∀ v, o ≠ ⟨.cell 0, .write v⟩) : wrote (.cell 0) o = none := by
  obtain ⟨j, op⟩ := o
  cases j with
  | cell m =>
    cases op with
    | write v =>
      have : m ≠ 0 := by rintro rfl; exact he v rfl
      simp [wrote, this]
    | _ => rfl
  | _ => rfl

theorem versionAt_same {h b : List (Entry Nums hash enc)} (he : ∀ e ∈ b, ∀ v, e.1 ≠ ⟨.cell 0, .write v⟩) :
    versionAt (h ++ b) = versionAt h := by
  rw [versionAt, valuesAt_append, lastWrite_none]
  · rfl
  · intro o ho
    obtain ⟨e, hm, rfl⟩ := List.mem_map.1 ho
    exact wrote_version (he e hm)

/-- What the closure does. -/
def Box.Act (B : Box) (o : FOp Nums hash enc) : Prop :=
  o = ⟨.cell 0, .borrow⟩ ∨ o = ⟨.cell 0, .dropRef⟩ ∨ (∃ x, o = ⟨.page 0, .set B.red x⟩) ∨ ∃ x, o = ⟨.page 0, .set B.green x⟩

theorem closure_acts {ch : Change} {prev ver : Nat} {o : FOp Nums hash enc} (h : o ∈ B.closure ch prev ver) : B.Act o := by
  simp only [Box.closure, List.mem_append] at h
  rcases h with (h | h) | h
  · simp only [List.mem_cons, List.not_mem_nil, or_false] at h
    rcases h with rfl | rfl
    · exact .inl rfl
    · exact .inr (.inl rfl)
  · split at h
    · simp only [List.mem_cons, List.not_mem_nil, or_false] at h
      rcases h with rfl | rfl
      · exact .inr (.inr (.inl ⟨_, rfl⟩))
      · exact .inr (.inr (.inr ⟨_, rfl⟩))
    · cases h
  · split at h
    · simp only [List.mem_singleton] at h
      subst h; exact .inr (.inr (.inl ⟨_, rfl⟩))
    · simp only [List.mem_singleton] at h
      subst h; exact .inr (.inr (.inr ⟨_, rfl⟩))
    · cases h

theorem act_version {o : FOp Nums hash enc} (h : B.Act o) (v : Nat) : o ≠ ⟨.cell 0, .write v⟩ := by
  rcases h with rfl | rfl | ⟨_, rfl⟩ | ⟨_, rfl⟩ <;> intro h <;> cases h

theorem polled_version {ch : Change} {r : Bool} {e : Entry Nums hash enc} (h : B.Polled ch r e) (v : Nat) :
    e.1 ≠ ⟨.cell 0, .write v⟩ := by
  cases h <;> intro h <;> cases h

theorem wrote_polled {x : Item} {ch : Change} {r : Bool} {e : Entry Nums hash enc} (h : B.Polled ch r e) :
    wrote x e.1 = none := by
  cases h <;> cases x <;> rfl

theorem other_not_polled {h : List (Entry Nums hash enc)} {e : Entry Nums hash enc} (ho : B.Other h e) (ch : Change) (r : Bool) :
    ¬ B.Polled ch r e := by
  intro hp
  cases hp with
  | regular htr =>
    have := (ho.1 _ _ rfl).1 _ (by rw [htr]; exact .head _)
    simp [XBow.Op.touches] at this
  | bubbling htr =>
    have := (ho.1 _ _ rfl).2 _ (by rw [htr]; exact .head _)
    simp [XBow.Op.touches] at this
  | version =>
    have := ho.2.1 _ _ rfl
    simp [Cell.Op.touches] at this

theorem act_not_polled {e : Entry Nums hash enc} (ho : B.Act e.1) (ch : Change) (r : Bool) : ¬ B.Polled ch r e := by
  intro hp
  cases hp <;> rcases ho with h | h | ⟨_, h⟩ | ⟨_, h⟩ <;> cases h

theorem runs_snoc {h : List (Entry Nums hash enc)} {e : Entry Nums hash enc} {st' : BoxState hash enc}
    (hr : B.Runs (h ++ [e]) st') : ∃ st, B.Runs h st ∧ B.Step h st e st' := by
  generalize hx : h ++ [e] = x at hr
  cases hr with
  | start => simp at hx
  | step hr hs =>
    obtain ⟨rfl, h1⟩ := List.append_inj' hx rfl
    cases h1
    exact ⟨_, hr, hs⟩

theorem runs_prefix {h b : List (Entry Nums hash enc)} {st' : BoxState hash enc} (hr : B.Runs (h ++ b) st') :
    ∃ st, B.Runs h st := by
  induction b using List.reverseRecOn generalizing st' with
  | nil => rw [List.append_nil] at hr; exact ⟨_, hr⟩
  | append_singleton b e ih =>
    rw [← List.append_assoc] at hr
    obtain ⟨st, h1, -⟩ := runs_snoc hr
    exact ih h1

/-- What is left to do of the closure. -/
theorem runs_rest {h : List (Entry Nums hash enc)} {rest : List (FOp Nums hash enc)} {prev : Nat}
    (hr : B.Runs h (.running rest prev)) : (∀ o ∈ rest, B.Act o) ∧ prev ≤ versionAt h := by
  generalize hst : BoxState.running rest prev = st at hr
  induction hr generalizing rest prev with
  | start => cases hst
  | @step h st e st' _ hs ih =>
    cases hs with
    | before _ => cases hst
    | regular _ _ => cases hst
    | bubbling _ _ => cases hst
    | version he => cases hst; exact ⟨by simp, Nat.zero_le _⟩
    | other ho =>
      cases hst
      obtain ⟨h1, h2⟩ := ih rfl
      refine ⟨h1, Nat.le_trans h2 ?_⟩
      by_cases hw : ∃ v, e.1 = ⟨.cell 0, .write v⟩
      · obtain ⟨v, hv⟩ := hw
        rw [versionAt_write hv, ho.2.2.2.2 v hv]; omega
      · rw [versionAt_same (by simpa using hw)]; exact Nat.le_refl _
    | pending hp =>
      cases hst
      rw [versionAt_same (by simpa using polled_version hp)]
      exact ih rfl
    | ready hp =>
      cases hst
      rw [versionAt_same (by simpa using polled_version hp)]
      exact ⟨fun o ho => closure_acts ho, Nat.le_refl _⟩
    | acts he =>
      cases hst
      obtain ⟨h1, h2⟩ := ih rfl
      have := h1 _ (.head _)
      rw [← he] at this
      rw [versionAt_same (by simpa using act_version this)]
      exact ⟨fun o ho => h1 o (.tail _ ho), h2⟩

/-- The box runs once it has polled. -/
theorem runs_polled {h : List (Entry Nums hash enc)} {st : BoxState hash enc} (hr : B.Runs h st) {ch : Change} {r : Bool}
    {e : Entry Nums hash enc} (he : e ∈ h) (hp : B.Polled ch r e) : ∃ rest prev, st = .running rest prev := by
  induction hr with
  | start => cases he
  | @step h st e' st' _ hs ih =>
    rcases List.mem_append.1 he with he | he
    · obtain ⟨rest, prev, rfl⟩ := ih he
      cases hs <;> exact ⟨_, _, rfl⟩
    · simp only [List.mem_singleton] at he
      subst he
      cases hs with
      | before ho => exact (other_not_polled ho _ _ hp).elim
      | regular h1 _ => cases hp <;> cases h1
      | bubbling h1 _ => cases hp <;> cases h1
      | version h1 => cases hp <;> cases h1
      | other _ => exact ⟨_, _, rfl⟩
      | pending _ => exact ⟨_, _, rfl⟩
      | ready _ => exact ⟨_, _, rfl⟩
      | acts _ => exact ⟨_, _, rfl⟩

/-- What happened to the store. -/
abbrev stored (h : List (Entry Nums hash enc)) : List XBow.Event := (part (things Nums hash enc) (.store 0) h).map (·.2)

/-- The listener `i` was made by `create`. -/
def Located (h : List (Entry Nums hash enc)) (create : XBow.Op) (i : Nat) : Prop :=
  ∃ pre e0 post, stored h = pre ++ e0 :: post ∧ e0.op = .sub create ∧ i = (pre.filter makes).length

theorem listeners_eq (h : List (Entry Nums hash enc)) : listeners h = ((stored h).filter makes).length := by
  rw [listeners, stored, List.filter_map, List.length_map]
  rfl

theorem stored_append (h b : List (Entry Nums hash enc)) : stored (h ++ b) = stored h ++ stored b := by
  rw [stored, part_append, List.map_append]

theorem Located.append {h : List (Entry Nums hash enc)} {create : XBow.Op} {i : Nat} (hl : Located h create i)
    (b : List (Entry Nums hash enc)) : Located (h ++ b) create i := by
  obtain ⟨pre, e0, post, h1, h2⟩ := hl
  exact ⟨pre, e0, post ++ stored b, by rw [stored_append, h1]; simp, h2⟩

theorem located_new {h : List (Entry Nums hash enc)} {e : Entry Nums hash enc} {create : XBow.Op} (hg : Genuine e)
    (he : e.1 = ⟨.store 0, .sub create⟩) (hm : opMakes create = 1) :
    Located (h ++ [e]) create (listeners h) ∧ listeners (h ++ [e]) = listeners h + 1 := by
  obtain ⟨⟨j, op, out, rfl⟩, hg⟩ := hg
  cases he
  obtain ⟨h1, -⟩ := hg 0 _ _ rfl
  have hs : stored [((⟨.store 0, .sub create⟩, ⟨.store 0, .sub create, out⟩) : Entry Nums hash enc)] = [out] := by
    rw [stored, part_cons_self]; rfl
  refine ⟨⟨stored h, out, [], by rw [stored_append, hs], h1, listeners_eq h⟩, ?_⟩
  rw [listeners_eq, listeners_eq, stored_append, hs, List.filter_append, List.length_append]
  have : makes out = true := by
    simp only [makes, h1]
    cases create <;> first | rfl | (simp [opMakes] at hm)
  simp [this]

theorem runs_located {h : List (Entry Nums hash enc)} {st : BoxState hash enc} (hr : B.Runs h st) (hg : ∀ e ∈ h, Genuine e) :
    match st with
    | .absent => True
    | .one => Located h (.listen B.path) B.regular ∧ B.regular < listeners h
    | _ => Located h (.listen B.path) B.regular ∧ Located h (.listenBubbling B.path) B.bubbling ∧ B.regular < B.bubbling := by
  induction hr with
  | start => trivial
  | @step h st e st' _ hs ih =>
    have ih := ih fun e he => hg e (List.mem_append_left _ he)
    have hge := hg e (List.mem_append_right _ (.head _))
    cases hs with
    | before _ => trivial
    | regular he hi =>
      obtain ⟨h1, h2⟩ := located_new (h := h) hge he rfl
      exact ⟨hi ▸ h1, by omega⟩
    | bubbling he hi =>
      obtain ⟨h1, h2⟩ := located_new (h := h) hge he rfl
      obtain ⟨h3, h4⟩ := ih
      exact ⟨h3.append _, hi ▸ h1, by omega⟩
    | version _ => exact ⟨ih.1.append _, ih.2.1.append _, ih.2.2⟩
    | other _ => exact ⟨ih.1.append _, ih.2.1.append _, ih.2.2⟩
    | pending _ => exact ⟨ih.1.append _, ih.2.1.append _, ih.2.2⟩
    | ready _ => exact ⟨ih.1.append _, ih.2.1.append _, ih.2.2⟩
    | acts _ => exact ⟨ih.1.append _, ih.2.1.append _, ih.2.2⟩

/-- Every entry of the history is a poll of one of the listeners or leaves them all alone. -/
theorem runs_entries {h : List (Entry Nums hash enc)} {st : BoxState hash enc} (hr : B.Runs h st) (hg : ∀ e ∈ h, Genuine e) :
    ∀ e ∈ h, (∃ ch r, B.Polled ch r e) ∨
      (∀ (op : XBow.WOp) (ev : XBow.Event), e.2 = ⟨.store 0, op, ev⟩ → XBow.Leaves B.regular ev ∧ XBow.Leaves B.bubbling ev) ∧
      ∀ (op : Cell.Op Nat) (o : Cell.Out), e.2 = ⟨.cell 0, op, o⟩ → op.touches B.version = false := by
  induction hr with
  | start => intro e he; cases he
  | @step h st e st' hr hs ih =>
    intro e' he'
    rcases List.mem_append.1 he' with he' | he'
    · exact ih (fun e he => hg e (List.mem_append_left _ he)) e' he'
    simp only [List.mem_singleton] at he'
    subst he'
    have hge := hg e' (List.mem_append_right _ (.head _))
    cases hs with
    | before ho => exact .inr ⟨ho.1, ho.2.1⟩
    | other ho => exact .inr ⟨ho.1, ho.2.1⟩
    | pending hp => exact .inl ⟨_, _, hp⟩
    | ready hp => exact .inl ⟨_, _, hp⟩
    | regular he hi =>
      obtain ⟨⟨j, op, out, rfl⟩, hge⟩ := hge
      cases he
      refine .inr ⟨fun op ev h1 => ?_, fun op o h1 => by cases h1⟩
      cases h1
      obtain ⟨o', htr⟩ := (hge 0 _ _ rfl).2 _ rfl
      simp [XBow.Leaves, htr, XBow.Op.touches]
    | bubbling he hi =>
      obtain ⟨⟨j, op, out, rfl⟩, hge⟩ := hge
      cases he
      refine .inr ⟨fun op ev h1 => ?_, fun op o h1 => by cases h1⟩
      cases h1
      obtain ⟨o', htr⟩ := (hge 0 _ _ rfl).2 _ rfl
      simp [XBow.Leaves, htr, XBow.Op.touches]
    | version he =>
      obtain ⟨⟨j, op, out, rfl⟩, hge⟩ := hge
      cases he
      exact .inr ⟨fun op ev h1 => (by cases h1), fun op o h1 => (by cases h1; rfl)⟩
    | acts he =>
      have ha := (runs_rest hr).1 _ (.head _)
      rw [← he] at ha
      obtain ⟨⟨j, op, out, rfl⟩, hge⟩ := hge
      rcases ha with h | h | ⟨_, h⟩ | ⟨_, h⟩ <;> cases h <;>
        exact .inr ⟨fun op ev h1 => (by cases h1), fun op o h1 => (by cases h1; try rfl)⟩

theorem lastWrite_cons (x : Item) (o : FOp Nums hash enc) (l : List (FOp Nums hash enc)) :
    lastWrite x (o :: l) = (lastWrite x l).or (wrote x o) := by
  rw [show o :: l = [o] ++ l from rfl, lastWrite_append]
  congr 1
  simp only [lastWrite, List.filterMap_cons, List.filterMap_nil]
  cases wrote x o <;> rfl

/-- The classes after the closure. -/
theorem closure_red (hne : B.red ≠ B.green) (ch : Change) (prev ver : Nat) :
    lastWrite (.input 0 B.red) (B.closure ch prev ver : List (FOp Nums hash enc)) =
      if ch = .regular then some (flag true) else if prev ≠ ver then some (flag false) else none := by
  by_cases hp : prev = ver <;> cases ch <;>
    simp [Box.closure, hp, lastWrite, wrote, List.filterMap_cons, hne.symm] <;> rfl

theorem closure_green (hne : B.red ≠ B.green) (ch : Change) (prev ver : Nat) :
    lastWrite (.input 0 B.green) (B.closure ch prev ver : List (FOp Nums hash enc)) =
      if ch = .bubbling then some (flag true) else if prev ≠ ver then some (flag false) else none := by
  by_cases hp : prev = ver <;> cases ch <;>
    simp [Box.closure, hp, lastWrite, wrote, List.filterMap_cons, hne] <;> rfl

/-- A listener of the box was ready in a part of the history. -/
def Box.Ready (B : Box) (b : List (Entry Nums hash enc)) (ch : Change) : Prop := ∃ e ∈ b, B.Polled ch true e

theorem ready_snoc {b : List (Entry Nums hash enc)} {e : Entry Nums hash enc} {ch : Change} :
    B.Ready (b ++ [e]) ch ↔ B.Ready b ch ∨ B.Polled ch true e := by
  simp only [Box.Ready, List.mem_append, List.mem_singleton]
  constructor
  · rintro ⟨e', h1 | rfl, h2⟩
    · exact .inl ⟨e', h1, h2⟩
    · exact .inr h2
  · rintro (⟨e', h1, h2⟩ | h)
    · exact ⟨e', .inl h1, h2⟩
    · exact ⟨e, .inr rfl, h⟩

theorem polled_unique {ch ch' : Change} {r r' : Bool} {e : Entry Nums hash enc} (hne : B.regular ≠ B.bubbling)
    (h : B.Polled ch r e) (h' : B.Polled ch' r' e) : ch' = ch ∧ r' = r := by
  cases h with
  | regular h1 =>
    generalize he : (_, _) = e at h'
    cases h' with
    | regular h2 =>
      cases he
      rw [h1] at h2
      simp only [List.cons.injEq, Prod.mk.injEq, XBow.Out.polled.injEq] at h2
      exact ⟨rfl, h2.1.2.symm⟩
    | bubbling h2 =>
      have := congrArg (·.1) he
      simp only [Sigma.mk.injEq, heq_eq_eq, true_and, XBow.WOp.sub.injEq, XBow.Op.poll.injEq] at this
      exact (hne this.1).elim
    | version => cases he
  | bubbling h1 =>
    generalize he : (_, _) = e at h'
    cases h' with
    | bubbling h2 =>
      cases he
      rw [h1] at h2
      simp only [List.cons.injEq, Prod.mk.injEq, XBow.Out.polled.injEq] at h2
      exact ⟨rfl, h2.1.2.symm⟩
    | regular h2 =>
      have := congrArg (·.1) he
      simp only [Sigma.mk.injEq, heq_eq_eq, true_and, XBow.WOp.sub.injEq, XBow.Op.poll.injEq] at this
      exact (hne this.1.symm).elim
    | version => cases he
  | version =>
    generalize he : (_, _) = e at h'
    cases h' with
    | regular _ => cases he
    | bubbling _ => cases he
    | version => cases he; exact ⟨rfl, rfl⟩

/-- What has been done with the classes since the version was changed, together with what is left to do. -/
structure Marked (B : Box) (b : List (Entry Nums hash enc)) (rest : List (FOp Nums hash enc)) : Prop where
  red : ∃ r : Bool, lastWrite (.input 0 B.red) (b.map (·.1) ++ rest) = some (flag r) ∧ (r = true ↔ B.Ready b .regular)
  green : ∃ r : Bool, lastWrite (.input 0 B.green) (b.map (·.1) ++ rest) = some (flag r) ∧ (r = true ↔ B.Ready b .bubbling)

theorem Marked.keep {b : List (Entry Nums hash enc)} {e : Entry Nums hash enc}
    (hm : Marked B b []) (h1 : wrote (.input 0 B.red) e.1 = none) (h2 : wrote (.input 0 B.green) e.1 = none)
    (h3 : ∀ ch, ¬ B.Polled ch true e) : Marked B (b ++ [e]) [] := by
  obtain ⟨⟨r, r1, r2⟩, ⟨g, g1, g2⟩⟩ := hm
  rw [List.append_nil] at r1 g1
  refine ⟨⟨r, ?_, ?_⟩, ⟨g, ?_, ?_⟩⟩
  · rw [List.append_nil, List.map_append, lastWrite_append, lastWrite_none (by simpa using h1), r1]; rfl
  · rw [r2, ready_snoc]; simp [h3]
  · rw [List.append_nil, List.map_append, lastWrite_append, lastWrite_none (by simpa using h2), g1]; rfl
  · rw [g2, ready_snoc]; simp [h3]

/-- The classes since the version was changed for the last time. -/
theorem monitor (hne : B.red ≠ B.green) {H b : List (Entry Nums hash enc)} {st : BoxState hash enc}
    (hr : B.Runs (H ++ b) st) (hg : ∀ e ∈ H ++ b, Genuine e)
    (hH : ∀ st, B.Runs H st → ∃ p, st = .running [] p ∧ p < versionAt H)
    (hb : ∀ e ∈ b, ∀ v, e.1 ≠ ⟨.cell 0, .write v⟩) :
    ∃ rest prev, st = .running rest prev ∧
      ((rest = [] ∧ prev < versionAt H ∧ ∀ ch, ¬ B.Ready b ch) ∨ (prev = versionAt H ∧ Marked B b rest)) := by
  induction b using List.reverseRecOn generalizing st with
  | nil =>
    rw [List.append_nil] at hr
    obtain ⟨p, h1, h2⟩ := hH st hr
    exact ⟨[], p, h1, .inl ⟨rfl, h2, by simp [Box.Ready]⟩⟩
  | append_singleton b e ih =>
    rw [← List.append_assoc] at hr hg
    obtain ⟨st0, hr0, hs⟩ := runs_snoc hr
    have hb' : ∀ e ∈ b, ∀ v, e.1 ≠ ⟨.cell 0, .write v⟩ := fun e he => hb e (List.mem_append_left _ he)
    have hg' : ∀ e ∈ H ++ b, Genuine e := fun e he => hg e (List.mem_append_left _ he)
    obtain ⟨rest, prev, rfl, hinv⟩ := ih hr0 hg' hb'
    have hver : versionAt (H ++ b) = versionAt H := versionAt_same hb'
    have hdiff : B.regular ≠ B.bubbling := Nat.ne_of_lt (runs_located hr0 hg').2.2
    cases hs with
    | other ho =>
      refine ⟨_, _, rfl, ?_⟩
      rcases hinv with ⟨-, h1, h2⟩ | ⟨h1, h2⟩
      · refine .inl ⟨rfl, h1, fun ch => ?_⟩
        rw [ready_snoc]; simp [h2, other_not_polled ho]
      · exact .inr ⟨h1, h2.keep ho.2.2.1 ho.2.2.2.1 fun ch => other_not_polled ho ch true⟩
    | pending hp =>
      have hnp : ∀ ch, ¬ B.Polled ch true e := fun ch hp' => by
        have := (polled_unique hdiff hp hp').2
        cases this
      refine ⟨_, _, rfl, ?_⟩
      rcases hinv with ⟨-, h1, h2⟩ | ⟨h1, h2⟩
      · refine .inl ⟨rfl, h1, fun ch => ?_⟩
        rw [ready_snoc]; simp [h2, hnp]
      · exact .inr ⟨h1, h2.keep (wrote_polled hp) (wrote_polled hp) hnp⟩
    | @ready _ ch _ hp =>
      refine ⟨_, _, rfl, .inr ⟨hver, ?_⟩⟩
      have hiff : ∀ ch', B.Polled ch' true e ↔ ch' = ch := fun ch' =>
        ⟨fun hp' => (polled_unique hdiff hp hp').1, fun h => h ▸ hp⟩
      have hmap : ∀ x : Item, lastWrite x ((b ++ [e]).map (·.1) ++ B.closure ch prev (versionAt (H ++ b))) =
          (lastWrite x (B.closure ch prev (versionAt (H ++ b)) : List (FOp Nums hash enc))).or (lastWrite x (b.map (·.1))) := by
        intro x
        rw [lastWrite_append, List.map_append, lastWrite_append, lastWrite_none (ops := [e].map (·.1))
          (by simpa using wrote_polled hp), Option.none_or]
      refine ⟨?_, ?_⟩
      · rw [hmap, closure_red hne, hver, ready_snoc, hiff]
        by_cases hc : ch = .regular
        · exact ⟨true, by rw [if_pos hc]; rfl, by simp [hc]⟩
        · rcases hinv with ⟨-, h1, h2⟩ | ⟨h1, ⟨r, r1, r2⟩, -⟩
          · refine ⟨false, ?_, ?_⟩
            · rw [if_neg hc, if_pos (Nat.ne_of_lt h1)]; rfl
            · simp [h2, Ne.symm hc]
          · refine ⟨r, ?_, ?_⟩
            · rw [List.append_nil] at r1
              rw [if_neg hc, if_neg (by simp [h1])]; exact r1
            · rw [r2]; simp [Ne.symm hc]
      · rw [hmap, closure_green hne, hver, ready_snoc, hiff]
        by_cases hc : ch = .bubbling
        · exact ⟨true, by rw [if_pos hc]; rfl, by simp [hc]⟩
        · rcases hinv with ⟨-, h1, h2⟩ | ⟨h1, -, ⟨r, r1, r2⟩⟩
          · refine ⟨false, ?_, ?_⟩
            · rw [if_neg hc, if_pos (Nat.ne_of_lt h1)]; rfl
            · simp [h2, Ne.symm hc]
          · refine ⟨r, ?_, ?_⟩
            · rw [List.append_nil] at r1
              rw [if_neg hc, if_neg (by simp [h1])]; exact r1
            · rw [r2]; simp [Ne.symm hc]
    | @acts o rest _ _ he =>
      rcases hinv with ⟨h1, -⟩ | ⟨h1, ⟨r, r1, r2⟩, ⟨g, g1, g2⟩⟩
      · cases h1
      · have ha := (runs_rest hr0).1 _ (.head _)
        rw [← he] at ha
        have hl : (b ++ [e]).map (·.1) ++ rest = b.map (·.1) ++ o :: rest := by simp [he]
        refine ⟨_, _, rfl, .inr ⟨h1, ⟨r, by rw [hl]; exact r1, ?_⟩, ⟨g, by rw [hl]; exact g1, ?_⟩⟩⟩
        · rw [r2, ready_snoc]; simp [act_not_polled ha]
        · rw [g2, ready_snoc]; simp [act_not_polled ha]

/-- Every event of the store polls a listener of the box or leaves it alone. -/
theorem runs_store {h : List (Entry Nums hash enc)} {st : BoxState hash enc} (hr : B.Runs h st) (hg : ∀ e ∈ h, Genuine e) :
    PollsOrLeaves B.regular (stored h) ∧ PollsOrLeaves B.bubbling (stored h) := by
  have key : ∀ ev ∈ stored h, ∃ e ∈ h, ∃ op, e.2 = ⟨.store 0, op, ev⟩ := by
    intro ev hev
    obtain ⟨⟨op, ev'⟩, h1, rfl⟩ := List.mem_map.1 hev
    obtain ⟨e, h2, h3⟩ := List.mem_filterMap.1 h1
    exact ⟨e, h2, op, only_some h3⟩
  have hdiff : ∀ {ch r e}, e ∈ h → B.Polled ch r e → B.regular ≠ B.bubbling := by
    intro ch r e he hp
    obtain ⟨rest, prev, rfl⟩ := runs_polled hr he hp
    exact Nat.ne_of_lt (runs_located hr hg).2.2
  refine ⟨fun ev hev => ?_, fun ev hev => ?_⟩
  · obtain ⟨e, he, op, heq⟩ := key ev hev
    rcases runs_entries hr hg e he with ⟨ch, r, hp⟩ | h1
    · have hd := hdiff he hp
      cases hp with
      | regular htr => cases heq; exact .inl ⟨_, _, htr⟩
      | bubbling htr => cases heq; exact .inr (by simp [XBow.Leaves, htr, XBow.Op.touches, hd.symm])
      | version => cases heq
    · exact .inr (h1.1 _ _ heq).1
  · obtain ⟨e, he, op, heq⟩ := key ev hev
    rcases runs_entries hr hg e he with ⟨ch, r, hp⟩ | h1
    · have hd := hdiff he hp
      cases hp with
      | bubbling htr => cases heq; exact .inl ⟨_, _, htr⟩
      | regular htr => cases heq; exact .inr (by simp [XBow.Leaves, htr, XBow.Op.touches, hd])
      | version => cases heq
    · exact .inr (h1.1 _ _ heq).2

theorem mem_traces {b : List (Entry Nums hash enc)} {x : XBow.Op × XBow.Out} :
    x ∈ traces (stored b) ↔ ∃ e ∈ part (things Nums hash enc) (.store 0) b, x ∈ e.2.trace := by
  simp only [traces, List.mem_flatMap, stored, List.mem_map]
  constructor
  · rintro ⟨ev, ⟨e, h1, rfl⟩, h2⟩; exact ⟨e, h1, h2⟩
  · rintro ⟨e, h1, h2⟩; exact ⟨e.2, ⟨e, h1, rfl⟩, h2⟩

/-- A listener of the store is ready as its trace says. -/
theorem ready_traces {h b : List (Entry Nums hash enc)} {st : BoxState hash enc} (hr : B.Runs (h ++ b) st)
    (hg : ∀ e ∈ h ++ b, Genuine e) :
    (B.Ready b .regular ↔ ∃ wk, (.poll B.regular wk, .polled true) ∈ traces (stored b)) ∧
    (B.Ready b .bubbling ↔ ∃ wk, (.poll B.bubbling wk, .polled true) ∈ traces (stored b)) := by
  have hs : ∀ e ∈ b, ∃ j op out, e = (⟨j, op⟩, ⟨j, op, out⟩) := fun e he => (hg e (List.mem_append_right _ he)).1
  refine ⟨⟨?_, ?_⟩, ⟨?_, ?_⟩⟩
  · rintro ⟨e, he, hp⟩
    cases hp with
    | @regular wk _ ev htr =>
      obtain ⟨a, c, rfl⟩ := List.append_of_mem he
      refine ⟨wk, mem_traces.2 ⟨(.sub (.poll B.regular wk), ev), ?_, by rw [htr]; exact .head _⟩⟩
      rw [part_append, part_cons_self]; simp
  · rintro ⟨wk, hw⟩
    obtain ⟨⟨op, ev⟩, he, hx⟩ := mem_traces.1 hw
    have hm := mem_part hs he
    refine ⟨_, hm, ?_⟩
    rcases runs_entries hr hg _ (List.mem_append_right _ hm) with ⟨ch, r, hp⟩ | h1
    · generalize heq : (_, _) = e at hp
      cases hp with
      | regular htr =>
        cases heq
        rw [htr] at hx
        simp only [List.mem_singleton, Prod.mk.injEq, XBow.Op.poll.injEq, true_and, XBow.Out.polled.injEq] at hx
        obtain ⟨-, rfl⟩ := hx
        exact .regular htr
      | bubbling htr =>
        cases heq
        rw [htr] at hx
        simp only [List.mem_singleton, Prod.mk.injEq, XBow.Op.poll.injEq, XBow.Out.polled.injEq] at hx
        obtain ⟨rest, prev, rfl⟩ := runs_polled hr (List.mem_append_right _ hm) (.bubbling htr)
        exact (Nat.ne_of_lt (runs_located hr hg).2.2 hx.1.1).elim
      | version => cases heq
    · have := (h1.1 _ _ rfl).1 _ hx
      simp [XBow.Op.touches] at this
  · rintro ⟨e, he, hp⟩
    cases hp with
    | @bubbling wk _ ev htr =>
      obtain ⟨a, c, rfl⟩ := List.append_of_mem he
      refine ⟨wk, mem_traces.2 ⟨(.sub (.poll B.bubbling wk), ev), ?_, by rw [htr]; exact .head _⟩⟩
      rw [part_append, part_cons_self]; simp
  · rintro ⟨wk, hw⟩
    obtain ⟨⟨op, ev⟩, he, hx⟩ := mem_traces.1 hw
    have hm := mem_part hs he
    refine ⟨_, hm, ?_⟩
    rcases runs_entries hr hg _ (List.mem_append_right _ hm) with ⟨ch, r, hp⟩ | h1
    · generalize heq : (_, _) = e at hp
      cases hp with
      | bubbling htr =>
        cases heq
        rw [htr] at hx
        simp only [List.mem_singleton, Prod.mk.injEq, XBow.Op.poll.injEq, true_and, XBow.Out.polled.injEq] at hx
        obtain ⟨-, rfl⟩ := hx
        exact .bubbling htr
      | regular htr =>
        cases heq
        rw [htr] at hx
        simp only [List.mem_singleton, Prod.mk.injEq, XBow.Op.poll.injEq, XBow.Out.polled.injEq] at hx
        obtain ⟨rest, prev, rfl⟩ := runs_polled hr (List.mem_append_right _ hm) (.regular htr)
        exact (Nat.ne_of_lt (runs_located hr hg).2.2 hx.1.1.symm).elim
      | version => cases heq
    · have := (h1.1 _ _ rfl).2 _ hx
      simp [XBow.Op.touches] at this

theorem part_other {i j : Thing} (hne : j ≠ i) (o : FOp Nums hash enc) (x : (things Nums hash enc j).Op × (things Nums hash enc j).Out) :
    part (things Nums hash enc) i [(o, ⟨j, x⟩)] = [] := by
  simp [part, only_ne hne]

variable {cells : ∀ n, Cell.Sys (Nums n)} {data : Nat → Data}
  {es es' : List (Event (fullSource Nums hash enc) V S O)} {w1 w2 : World (fullSource Nums hash enc) V S O}

/-- **C72.** The app is idle; then things happen, among them that the version goes up, and it is idle again. Since the
version was changed for the last time, the data at some paths was changed. Then a box is red exactly if its path is one of
these or inside one of these, and green exactly if its path is one of these or around one of these. -/
theorem playground (h : run (init (start cells data)) es = some w1) (hm : ∃ t, .app (.mount t) ∈ es) (hi1 : Idle w1)
    (h' : run w1 es' = some w2) (hi2 : Idle w2) (hcell : Cell.init (1 : Nat) = some (cells 0))
    (hwr : (cellNow w2 0).cell.writing = false)
    {a b : List (Entry Nums hash enc)} {x : Entry Nums hash enc} {v : Nat} (hh : w2.hist = w1.hist ++ a ++ x :: b)
    (hx : x.1 = ⟨.cell 0, .write v⟩) (ha : ∀ p, ¬ Notified a p) (hb : ∀ e ∈ b, ∀ v, e.1 ≠ ⟨.cell 0, .write v⟩)
    (hne : B.red ≠ B.green) {prev : Nat} (hr : B.Runs w2.hist (.running [] prev))
    (hk1 : ∀ k ∈ B.keys, Awaited w1 k) (hk2 : ∀ k ∈ B.keys, Awaited w2 k)
    (hclash : ∀ p, Notified b p → XBow.NoClash hash B.path p ∧ XBow.NoClashBubbling hash B.path p) :
    ∃ r g : Bool, (pageNow w2 0).value B.red = flag r ∧ (pageNow w2 0).value B.green = flag g ∧
      (r = true ↔ ∃ p, Notified b p ∧ p <+: B.path) ∧ (g = true ↔ ∃ p, Notified b p ∧ B.path <+: p) := by
  have h2 := run_append h h'
  have hm2 : ∃ t, .app (.mount t) ∈ es ++ es' := by
    obtain ⟨t, ht⟩ := hm; exact ⟨t, List.mem_append_left _ ht⟩
  have hist2 := (run_linv (init_linv _) h2).hist
  have hg := genuine_hist hist2
  have hs := fun e he => (hg e he).1
  have told1 : ∀ k ∈ B.keys, Told _ _ w1.hist w1.src k := fun k hk => idle_not_woken h hm hi1 (hk1 k hk)
  have told2 : ∀ k ∈ B.keys, Told _ _ w2.hist w2.src k := fun k hk => idle_not_woken h2 hm2 hi2 (hk2 k hk)
  have tr1 := told_part (told1 ⟨.store 0, B.regular⟩ (by simp [Box.keys]))
  have tr2 := told_part (told2 ⟨.store 0, B.regular⟩ (by simp [Box.keys]))
  have tb1 := told_part (told1 ⟨.store 0, B.bubbling⟩ (by simp [Box.keys]))
  have tb2 := told_part (told2 ⟨.store 0, B.bubbling⟩ (by simp [Box.keys]))
  have tv1 := told_part (told1 ⟨.cell 0, some B.version⟩ (by simp [Box.keys]))
  have tv2 := told_part (told2 ⟨.cell 0, some B.version⟩ (by simp [Box.keys]))
  have hsplit : w2.hist = (w1.hist ++ a ++ [x]) ++ b := by rw [hh]; simp
  rw [hsplit] at hr
  have hg' : ∀ e ∈ (w1.hist ++ a ++ [x]) ++ b, Genuine e := fun e he => hg e (by rw [hsplit]; exact he)
  -- the box is running when the app is idle for the first time
  have hrun1 : ∀ {c : List (Entry Nums hash enc)} {st : BoxState hash enc}, B.Runs (w1.hist ++ c) st →
      (∀ e ∈ w1.hist ++ c, Genuine e) → ∃ rest prev, st = .running rest prev := by
    intro c st hr hgc
    obtain ⟨n, pre, mid, out, s1, s2, heq, -⟩ := told_listener hcell tv1
    have hmem := mem_part (i := .cell 0) (h := w1.hist) (fun e he => (hgc e (List.mem_append_left _ he)).1)
      (x := (.poll B.version (some n), out)) (by rw [heq]; simp)
    rcases runs_entries hr hgc _ (List.mem_append_left _ hmem) with ⟨ch, r, hp⟩ | h1
    · exact runs_polled hr (List.mem_append_left _ hmem) hp
    · have := h1.2 _ _ rfl
      simp [Cell.Op.touches] at this
  have hH : ∀ st, B.Runs (w1.hist ++ a ++ [x]) st → ∃ p, st = .running [] p ∧ p < versionAt (w1.hist ++ a ++ [x]) := by
    intro st hst
    obtain ⟨rest, prev, rfl⟩ := hrun1 (c := a ++ [x]) (by rw [← List.append_assoc]; exact hst)
      (fun e he => hg' e (by rw [← List.append_assoc] at he; exact List.mem_append_left _ he))
    obtain ⟨st0, hr0, hstep⟩ := runs_snoc hst
    rw [versionAt_write hx]
    cases hstep with
    | version he => rw [hx] at he; cases he
    | other ho =>
      have := (runs_rest hr0).2
      have := ho.2.2.2.2 v hx
      exact ⟨_, rfl, by omega⟩
    | pending hp => exact (polled_version hp v hx).elim
    | ready hp => exact (polled_version hp v hx).elim
    | acts he =>
      have := (runs_rest hr0).1 _ (.head _)
      rw [← he] at this
      exact (act_version this v hx).elim
  -- the listener of the version has been ready
  obtain ⟨j, op, out, hxe⟩ := hs x (by rw [hh]; simp)
  subst hxe
  cases hx
  have hver : B.Ready b .version := by
    have hpart : part (things Nums hash enc) (.cell 0) w2.hist =
        part (things Nums hash enc) (.cell 0) (w1.hist ++ a) ++ (.write v, out) :: part (things Nums hash enc) (.cell 0) b := by
      rw [hh, part_append, part_cons_self]
    have hreach : Cell.Reach (1 : Nat) (part (things Nums hash enc) (.cell 0) w2.hist) (cellNow w2 0) :=
      ⟨_, hcell, (cell_hist (part_hist hist2 (.cell 0)).1).1⟩
    rw [hpart] at hreach
    obtain ⟨o, ho⟩ := guard_dropped hreach hwr
    obtain ⟨y1, y2, hy⟩ := List.append_of_mem ho
    have hpart2 : part (things Nums hash enc) (.cell 0) w2.hist = part (things Nums hash enc) (.cell 0) w1.hist ++
        ((part (things Nums hash enc) (.cell 0) a ++ (.write v, out) :: y1) ++ (.dropGuard, o) :: y2) := by
      rw [hpart, hy, part_append]; simp
    rw [hpart2] at tv2
    obtain ⟨wk, hwk⟩ := cell_ready_between hcell tv1 tv2 (fun e he hd => by
      have hmem := mem_part (i := .cell 0) hs (x := e) (by rw [hpart2]; exact List.mem_append_right _ he)
      rcases runs_entries (hsplit ▸ hr) hg _ hmem with ⟨ch, r, hp⟩ | h1
      · rw [hd] at hp
        generalize heq : (_, _) = e at hp
        cases hp <;> cases heq
      · have := h1.2 _ _ rfl
        rw [hd] at this
        simp [Cell.Op.touches] at this)
    have hmem := mem_part (i := .cell 0) (h := b) (fun e he => hs e (by rw [hh]; simp [he]))
      (x := (.poll B.version wk, .polled true)) (by rw [hy]; simp [hwk])
    exact ⟨_, hmem, .version⟩
  obtain ⟨rest, prev', hst, hcase⟩ := monitor hne hr hg' hH hb
  cases hst
  rcases hcase with ⟨-, -, hno⟩ | ⟨-, ⟨r, r1, r2⟩, ⟨g, g1, g2⟩⟩
  · exact (hno _ hver).elim
  rw [List.append_nil] at r1 g1
  have hval : ∀ {t : Nat} {y : List Char}, lastWrite (.input 0 t) (b.map (·.1)) = some y → (pageNow w2 0).value t = y := by
    intro t y hy
    rw [pageNow, page_value (v := fun _ => 1) hist2 rfl, hsplit, valuesAt_append, hy]
    rfl
  obtain ⟨hrr, hrb⟩ := ready_traces hr hg'
  obtain ⟨hpr, hpb⟩ := runs_store hr hg'
  obtain ⟨st1, hr1⟩ := runs_prefix (h := w1.hist) (b := a ++ (⟨⟨.cell 0, .write v⟩, ⟨.cell 0, .write v, out⟩⟩ :: b))
    (by rw [← List.append_assoc, ← hh, hsplit]; exact hr)
  have hg1 : ∀ e ∈ w1.hist, Genuine e := fun e he => hg e (by rw [hh]; simp [he])
  obtain ⟨rest1, prev1, rfl⟩ := hrun1 (c := []) (by rw [List.append_nil]; exact hr1) (by rw [List.append_nil]; exact hg1)
  obtain ⟨⟨pr, er, qr, lr1, lr2, lr3⟩, ⟨pb, eb, qb, lb1, lb2, lb3⟩, -⟩ := runs_located hr1 hg1
  have hstore : part (things Nums hash enc) (.store 0) w2.hist = part (things Nums hash enc) (.store 0) w1.hist ++
      (part (things Nums hash enc) (.store 0) a ++ part (things Nums hash enc) (.store 0) b) := by
    rw [hh, part_append, part_append, List.append_assoc]
    congr 2
  have hst2 : stored ((w1.hist ++ a ++ [(⟨⟨.cell 0, .write v⟩, ⟨.cell 0, .write v, out⟩⟩ : Entry Nums hash enc)]) ++ b) =
      (part (things Nums hash enc) (.store 0) w1.hist ++
      (part (things Nums hash enc) (.store 0) a ++ part (things Nums hash enc) (.store 0) b)).map (·.2) := by
    rw [← hstore, hsplit]
  rw [hst2] at hpr hpb
  have hquiet : ∀ create, ∀ e ∈ traces ((part (things Nums hash enc) (.store 0) a).map (·.2)), ¬ XBow.Hits hash create e := by
    intro create e he hhit
    obtain ⟨p, o, rfl⟩ := XBow.hits_change hhit
    obtain ⟨e, he1, he2⟩ := (mem_traces (b := a)).1 he
    exact ha p ⟨e, he1, o, he2⟩
  rw [hstore] at tr2 tb2
  have kr := store_ready_between tr1 tr2 lr1 lr2 (.inl ⟨_, rfl⟩) lr3 hpr (hquiet _)
  have kb := store_ready_between tb1 tb2 lb1 lb2 (.inr ⟨_, rfl⟩) lb3 hpb (hquiet _)
  refine ⟨r, g, hval r1, hval g1, ?_, ?_⟩
  · rw [r2, hrr]
    refine kr.trans ⟨?_, ?_⟩
    · rintro ⟨e, he, hhit⟩
      obtain ⟨p, o, rfl⟩ := XBow.hits_change hhit
      obtain ⟨e, he1, he2⟩ := (mem_traces (b := b)).1 he
      have hn : Notified b p := ⟨e, he1, o, he2⟩
      exact ⟨p, hn, (XBow.hits_regular (hclash p hn).1).1 hhit⟩
    · rintro ⟨p, hn, hp⟩
      obtain ⟨e, he1, o, he2⟩ := id hn
      exact ⟨_, (mem_traces (b := b)).2 ⟨e, he1, he2⟩, (XBow.hits_regular (hclash p hn).1).2 hp⟩
  · rw [g2, hrb]
    refine kb.trans ⟨?_, ?_⟩
    · rintro ⟨e, he, hhit⟩
      obtain ⟨p, o, rfl⟩ := XBow.hits_change hhit
      obtain ⟨e, he1, he2⟩ := (mem_traces (b := b)).1 he
      have hn : Notified b p := ⟨e, he1, o, he2⟩
      exact ⟨p, hn, (XBow.hits_bubbling (hclash p hn).2).1 hhit⟩
    · rintro ⟨p, hn, hp⟩
      obtain ⟨e, he1, o, he2⟩ := id hn
      exact ⟨_, (mem_traces (b := b)).2 ⟨e, he1, he2⟩, (XBow.hits_bubbling (hclash p hn).2).2 hp⟩

/-- After a click on the box of `q` a box is red if it is this box or inside of it, and green if it is this box or around
it. -/
theorem playground_click (h : run (init (start cells data)) es = some w1) (hm : ∃ t, .app (.mount t) ∈ es) (hi1 : Idle w1)
    (h' : run w1 es' = some w2) (hi2 : Idle w2) (hcell : Cell.init (1 : Nat) = some (cells 0))
    (hwr : (cellNow w2 0).cell.writing = false)
    {a b : List (Entry Nums hash enc)} {x : Entry Nums hash enc} {v : Nat} (hh : w2.hist = w1.hist ++ a ++ x :: b)
    (hx : x.1 = ⟨.cell 0, .write v⟩) (ha : ∀ p, ¬ Notified a p) (hb : ∀ e ∈ b, ∀ v, e.1 ≠ ⟨.cell 0, .write v⟩)
    (hne : B.red ≠ B.green) {prev : Nat} (hr : B.Runs w2.hist (.running [] prev))
    (hk1 : ∀ k ∈ B.keys, Awaited w1 k) (hk2 : ∀ k ∈ B.keys, Awaited w2 k) {q : XBow.Path} (hq : ∀ p, Notified b p ↔ p = q)
    (hc1 : XBow.NoClash hash B.path q) (hc2 : XBow.NoClashBubbling hash B.path q) :
    ((q <+: B.path → (pageNow w2 0).value B.red = flag true) ∧ (¬ q <+: B.path → (pageNow w2 0).value B.red = flag false)) ∧
    ((B.path <+: q → (pageNow w2 0).value B.green = flag true) ∧ (¬ B.path <+: q → (pageNow w2 0).value B.green = flag false)) := by
  obtain ⟨r, g, h1, h2, h3, h4⟩ := playground h hm hi1 h' hi2 hcell hwr hh hx ha hb hne hr hk1 hk2
    (fun p hp => by rw [(hq p).1 hp]; exact ⟨hc1, hc2⟩)
  have hr' : r = true ↔ q <+: B.path := h3.trans ⟨fun ⟨p, hn, hp⟩ => (hq p).1 hn ▸ hp, fun hp => ⟨q, (hq q).2 rfl, hp⟩⟩
  have hg' : g = true ↔ B.path <+: q := h4.trans ⟨fun ⟨p, hn, hp⟩ => (hq p).1 hn ▸ hp, fun hp => ⟨q, (hq q).2 rfl, hp⟩⟩
  rw [h1, h2]
  refine ⟨⟨fun hp => by rw [hr'.2 hp], fun hp => ?_⟩, ⟨fun hp => by rw [hg'.2 hp], fun hp => ?_⟩⟩
  · rw [← hr'] at hp; rw [Bool.eq_false_iff.2 hp]
  · rw [← hg'] at hp; rw [Bool.eq_false_iff.2 hp]

/-- After a click on "Clear" no box has a color. -/
theorem playground_clear (h : run (init (start cells data)) es = some w1) (hm : ∃ t, .app (.mount t) ∈ es) (hi1 : Idle w1)
    (h' : run w1 es' = some w2) (hi2 : Idle w2) (hcell : Cell.init (1 : Nat) = some (cells 0))
    (hwr : (cellNow w2 0).cell.writing = false)
    {a b : List (Entry Nums hash enc)} {x : Entry Nums hash enc} {v : Nat} (hh : w2.hist = w1.hist ++ a ++ x :: b)
    (hx : x.1 = ⟨.cell 0, .write v⟩) (ha : ∀ p, ¬ Notified a p) (hb : ∀ e ∈ b, ∀ v, e.1 ≠ ⟨.cell 0, .write v⟩)
    (hne : B.red ≠ B.green) {prev : Nat} (hr : B.Runs w2.hist (.running [] prev))
    (hk1 : ∀ k ∈ B.keys, Awaited w1 k) (hk2 : ∀ k ∈ B.keys, Awaited w2 k) (hq : ∀ p, ¬ Notified b p) :
    (pageNow w2 0).value B.red = flag false ∧ (pageNow w2 0).value B.green = flag false := by
  obtain ⟨r, g, h1, h2, h3, h4⟩ := playground h hm hi1 h' hi2 hcell hwr hh hx ha hb hne hr hk1 hk2
    (fun p hp => (hq p hp).elim)
  have hr' : r = false := Bool.eq_false_iff.2 fun e => by obtain ⟨p, hn, -⟩ := h3.1 e; exact hq p hn
  have hg' : g = false := Bool.eq_false_iff.2 fun e => by obtain ⟨p, hn, -⟩ := h4.1 e; exact hq p hn
  rw [h1, h2, hr', hg']
  exact ⟨rfl, rfl⟩

end
end Verif.Apps
