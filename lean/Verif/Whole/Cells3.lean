import Verif.Whole.Cells2
import Verif.Whole.Spec
/-! # What the calls do to the nodes and items of a list -/
namespace Verif.Whole
open Verif.Dom Verif.Lists Verif.Lists.Forest

/-! ## rows -/
section Rows
variable {α β : Type}

theorem rowGet_mem {k : Key} {rows : List (Key × α)} {e : Key × α} (h : rowGet k rows = some e) :
    e ∈ rows ∧ e.1 = k := by
  have h1 := List.mem_of_find?_eq_some h
  have h2 := List.find?_some h
  exact ⟨h1, by simpa using h2⟩

theorem rowGet_none {k : Key} {rows : List (Key × α)} : rowGet k rows = none ↔ k ∉ rows.map (·.1) := by
  simp only [rowGet, List.find?_eq_none, List.mem_map]
  grind

theorem mem_rowPlace {e x : Key × α} {b : Option Key} {rows : List (Key × α)} :
    x ∈ rowPlace e b rows ↔ x = e ∨ x ∈ rows := by
  induction rows with
  | nil => simp [rowPlace]
  | cons y ys ih =>
    simp only [rowPlace]
    split
    · simp
    · simp only [List.mem_cons, ih]; grind

theorem rowPlace_map (φ : α → β) (e : Key × α) (b : Option Key) (rows : List (Key × α)) :
    (rowPlace e b rows).map (fun x => (x.1, φ x.2)) = rowPlace (e.1, φ e.2) b (rows.map fun x => (x.1, φ x.2)) := by
  induction rows with
  | nil => rfl
  | cons y ys ih =>
    simp only [rowPlace, List.map_cons]
    split <;> simp_all

theorem rowGet_map (φ : α → β) (k : Key) (rows : List (Key × α)) :
    rowGet k (rows.map fun x => (x.1, φ x.2)) = (rowGet k rows).map fun x => (x.1, φ x.2) := by
  simp only [rowGet, List.find?_map]
  rfl

theorem filter_map_key (φ : α → β) (p : Key → Bool) (rows : List (Key × α)) :
    (rows.map fun x => (x.1, φ x.2)).filter (fun e => p e.1) =
      (rows.filter fun e => p e.1).map fun x => (x.1, φ x.2) := by
  rw [List.filter_map]
  rfl

/-- the calls do not depend on what the entries are -/
theorem rowStep_map (φ : α → β) (new : α) (rows : List (Key × α)) (c : LCall) :
    (rowStep new rows c).map (fun x => (x.1, φ x.2)) = rowStep (φ new) (rows.map fun x => (x.1, φ x.2)) c := by
  cases c with
  | insert k b a s =>
    simp only [rowStep]
    split
    · simp only [List.map_map]
      apply List.map_congr_left
      intro e _
      simp only [Function.comp]
      split <;> rfl
    · rw [rowPlace_map, filter_map_key φ (fun q => q != k)]
  | remove k => simp only [rowStep]; rw [filter_map_key φ (fun q => q != k)]
  | moveBefore k b =>
    simp only [rowStep, rowGet_map]
    cases rowGet k rows with
    | none => rfl
    | some e => simp only [Option.map_some]; rw [rowPlace_map, filter_map_key φ (fun q => q != k)]
  | swap a b =>
    simp only [rowStep, rowGet_map]
    cases rowGet a rows with
    | none => rfl
    | some x =>
      cases rowGet b rows with
      | none => rfl
      | some y =>
        simp only [Option.map_some, List.map_map]
        apply List.map_congr_left
        intro e _
        simp only [Function.comp]
        split
        · rfl
        · split <;> rfl
  | retain p => simp only [rowStep]; rw [filter_map_key φ p]

/-- the keys whose entries a call takes away -/
def gone : LCall → Key → Bool
  | .insert k _ _ _, q => q == k
  | .remove k, q => q == k
  | .moveBefore _ _, _ => false
  | .swap _ _, _ => false
  | .retain p, q => !p q

/-- the key that a call adds -/
def added : LCall → Option Key
  | .insert k _ _ _ => some k
  | _ => none

theorem key_eq {rows : List (Key × α)} (hn : (rows.map (·.1)).Nodup) {x y : Key × α} (hx : x ∈ rows)
    (hy : y ∈ rows) (h : x.1 = y.1) : x = y := by
  induction rows with
  | nil => cases hx
  | cons z zs ih =>
    simp only [List.map_cons, List.nodup_cons, List.mem_map, not_exists, not_and] at hn
    rcases List.mem_cons.1 hx with e1 | h1 <;> rcases List.mem_cons.1 hy with e2 | h2
    · exact e1.trans e2.symm
    · exact absurd (e1 ▸ h.symm) (hn.1 y h2)
    · exact absurd (e2 ▸ h) (hn.1 x h1)
    · exact ih hn.2 h1 h2

theorem mem_rowStep {new : α} {rows : List (Key × α)} {c : LCall} (hn : (rows.map (·.1)).Nodup)
    (hok : RowOk rows c) (x : Key × α) : x ∈ rowStep new rows c ↔
      (x ∈ rows ∧ gone c x.1 = false) ∨ (x.2 = new ∧ added c = some x.1) := by
  cases c with
  | insert k b a s =>
    simp only [rowStep, gone, added]
    split
    · rename_i hb
      simp only [List.mem_map]
      constructor
      · rintro ⟨e, he, h⟩
        split at h
        · subst h; exact .inr ⟨rfl, rfl⟩
        · subst h; exact .inl ⟨he, by simpa⟩
      · rintro (⟨h1, h2⟩ | ⟨h1, h2⟩)
        · exact ⟨x, h1, by rw [if_neg (by simpa using h2)]⟩
        · obtain ⟨e, he, hk⟩ := List.mem_map.1 (hok k hb)
          refine ⟨e, he, ?_⟩
          rw [if_pos hk, ← h1]
          simp only [Option.some.injEq] at h2
          rw [h2]
    · rw [mem_rowPlace]
      simp only [List.mem_filter, bne_iff_ne, ne_eq, beq_eq_false_iff_ne, Option.some.injEq]
      constructor
      · rintro (rfl | h)
        · exact .inr ⟨rfl, rfl⟩
        · exact .inl h
      · rintro (h | ⟨h1, h2⟩)
        · exact .inr h
        · left; rw [h2, ← h1]
  | remove k => simp [rowStep, gone, added, List.mem_filter]
  | moveBefore k b =>
    simp only [rowStep, gone, added]
    cases hg : rowGet k rows with
    | none => simp
    | some e =>
      simp only [mem_rowPlace, List.mem_filter, bne_iff_ne, ne_eq]
      obtain ⟨h1, h2⟩ := rowGet_mem hg
      constructor
      · rintro (rfl | h)
        · exact .inl ⟨h1, trivial⟩
        · exact .inl ⟨h.1, trivial⟩
      · rintro (h | h)
        · by_cases hk : x.1 = k
          · exact .inl (key_eq hn h.1 h1 (hk.trans h2.symm))
          · exact .inr ⟨h.1, hk⟩
        · cases h.2
  | swap a b =>
    simp only [rowStep, gone, added]
    cases hga : rowGet a rows with
    | none => simp
    | some u =>
      cases hgb : rowGet b rows with
      | none => simp
      | some v =>
        obtain ⟨h1, h2⟩ := rowGet_mem hga
        obtain ⟨h3, h4⟩ := rowGet_mem hgb
        simp only [List.mem_map]
        constructor
        · rintro ⟨e, he, h⟩
          left
          refine ⟨?_, trivial⟩
          split at h
          · rw [← h]; exact h3
          · split at h
            · rw [← h]; exact h1
            · rw [← h]; exact he
        · rintro (h | h)
          · by_cases ha : x.1 = a
            · refine ⟨v, h3, ?_⟩
              have hx : x = u := key_eq hn h.1 h1 (ha.trans h2.symm)
              by_cases hba : v.1 = a
              · rw [if_pos hba]
                exact (key_eq hn h3 h.1 (hba.trans ha.symm))
              · rw [if_neg hba, if_pos h4, hx]
            · by_cases hb : x.1 = b
              · refine ⟨u, h1, ?_⟩
                rw [if_pos h2]
                exact (key_eq hn h.1 h3 (hb.trans h4.symm)).symm
              · exact ⟨x, h.1, by rw [if_neg ha, if_neg hb]⟩
          · cases h.2
  | retain p => simp [rowStep, gone, added, List.mem_filter]

end Rows

/-! ## forests -/

theorem content_put {e : Key × Stored × List NodeId} {p : Forest} (hp : p.content = [e]) (b : Option Key) (f : Forest) :
    (put p b f).content = rowPlace e b f.content := by
  induction f with
  | nil => simpa [put, content, rowPlace] using hp
  | node n r ih => simp [put, content, ih]
  | item k x y m r _ ih =>
    simp only [put, content, rowPlace]
    split <;> simp [content, hp, ih]
  | list i x y m r _ ih => simp [put, content, ih]

theorem loose_put {p : Forest} (hp : p.loose = []) (b : Option Key) (f : Forest) :
    (put p b f).loose = f.loose := by
  induction f with
  | nil => exact hp
  | node n r ih => simp [put, loose, ih]
  | item k x y m r _ ih =>
    simp only [put, loose]
    split <;> simp [loose, hp, ih]
  | list i x y m r _ ih => simp [put, loose, ih]

theorem level_put {p : Forest} {l : Nat} (hp : p.Level l) (b : Option Key) {f : Forest} (hf : f.Level l) :
    (put p b f).Level l := by
  induction f with
  | nil => exact hp
  | node n r ih => exact ih hf
  | item k x y m r _ ih =>
    simp only [put]
    split
    · rw [level_append]; exact ⟨hp, hf⟩
    · exact ⟨hf.1, hf.2.1, ih hf.2.2⟩
  | list i x y m r _ ih => exact ⟨hf.1, hf.2.1, ih hf.2.2⟩

theorem level01 {f : Forest} (h : f.Level 0) : f.Level 1 := by
  induction f with
  | nil => trivial
  | node n r ih => exact ih h
  | item k x y m r _ ih => exact absurd h.1 (by simp)
  | list i x y m r _ ih => exact absurd h.1 (by simp)

theorem level_unwrap {keep : Key → Bool} {f : Forest} (hf : f.Level 1) : (f.unwrap keep).Level 1 := by
  induction f with
  | nil => trivial
  | node n r ih => exact ih hf
  | item k x y m r _ ih =>
    simp only [unwrap]
    split
    · exact ⟨rfl, hf.2.1, ih hf.2.2⟩
    · rw [level_append]; exact ⟨level01 hf.2.1, ih hf.2.2⟩
  | list i x y m r _ ih => exact absurd hf.1 (by simp)

theorem content_unwrap {keep : Key → Bool} {f : Forest} (hf : f.Level 1) :
    (f.unwrap keep).content = f.content.filter fun e => keep e.1 := by
  induction f with
  | nil => rfl
  | node n r ih => exact ih hf
  | item k x y m r _ ih =>
    simp only [unwrap, content, List.filter_cons]
    split
    · simp [content, ih hf.2.2]
    · rw [content_append, (level0 hf.2.1).2.1, ih hf.2.2]; simp
  | list i x y m r _ ih => exact absurd hf.1 (by simp)

/-- What taking away the markers of items does to the nodes. -/
theorem loose_unwrap {keep : Key → Bool} {f : Forest} (hf : f.Level 1) :
    List.Sublist f.loose (f.unwrap keep).loose ∧
    (∀ e ∈ f.content, keep e.1 = false → List.Sublist e.2.2 (f.unwrap keep).loose) ∧
    ∀ n ∈ (f.unwrap keep).loose, n ∈ f.loose ∨ ∃ e ∈ f.content, keep e.1 = false ∧ n ∈ e.2.2 := by
  induction f with
  | nil => simp [unwrap, loose, content]
  | node n r ih =>
    obtain ⟨h1, h2, h3⟩ := ih hf
    refine ⟨h1.cons_cons _, fun e he hk => (h2 e he hk).cons _, ?_⟩
    intro q hq
    simp only [unwrap, loose, List.mem_cons] at hq ⊢
    rcases hq with rfl | hq
    · exact .inl (.inl rfl)
    · exact (h3 q hq).imp .inr id
  | item k x y m r _ ih =>
    obtain ⟨h1, h2, h3⟩ := ih hf.2.2
    simp only [unwrap, content, loose]
    split
    · rename_i hk
      refine ⟨h1, ?_, ?_⟩
      · intro e he hke
        rcases List.mem_cons.1 he with rfl | he
        · rw [hk] at hke; cases hke
        · exact h2 e he hke
      · intro q hq
        rcases h3 q hq with h | ⟨e, he, h⟩
        · exact .inl h
        · exact .inr ⟨e, List.mem_cons_of_mem _ he, h⟩
    · rename_i hk
      rw [loose_append, (level0 hf.2.1).1]
      refine ⟨h1.trans (List.sublist_append_right _ _), ?_, ?_⟩
      · intro e he hke
        rcases List.mem_cons.1 he with rfl | he
        · exact List.sublist_append_left _ _
        · exact (h2 e he hke).trans (List.sublist_append_right _ _)
      · intro q hq
        rcases List.mem_append.1 hq with hq | hq
        · exact .inr ⟨_, List.mem_cons_self, by simpa using hk, hq⟩
        · rcases h3 q hq with h | ⟨e, he, h⟩
          · exact .inl h
          · exact .inr ⟨e, List.mem_cons_of_mem _ he, h⟩
  | list i x y m r _ ih => exact absurd hf.1 (by simp)

theorem content_replace {p : Key → Option Forest} (f : Forest) :
    (f.replace p).content = f.content.flatMap fun e => match p e.1 with
      | some q => q.content
      | none => [e] := by
  induction f with
  | nil => rfl
  | node n r ih => exact ih
  | item k x y m r _ ih =>
    simp only [replace, content, List.flatMap_cons]
    split <;> rename_i hq <;> simp [content, ih, hq]
  | list i x y m r _ ih => exact ih

theorem flatMap_one {α β : Type} {f : α → List β} {g : α → β} {l : List α} (h : ∀ e ∈ l, f e = [g e]) :
    l.flatMap f = l.map g := by
  induction l with
  | nil => rfl
  | cons a l ih => simp [h a (by simp), ih fun e he => h e (by simp [he])]

theorem flatMap_filter {α : Type} {f : α → List α} {p : α → Bool} {l : List α}
    (h : ∀ e ∈ l, f e = if p e then [e] else []) : l.flatMap f = l.filter p := by
  induction l with
  | nil => rfl
  | cons a l ih =>
    rw [List.flatMap_cons, h a (by simp), ih fun e he => h e (by simp [he]), List.filter_cons]
    split <;> rfl

theorem loose_replace {p : Key → Option Forest} (hp : ∀ k q, p k = some q → q.loose = []) (f : Forest) :
    (f.replace p).loose = f.loose := by
  induction f with
  | nil => rfl
  | node n r ih => simp [replace, loose, ih]
  | item k x y m r _ ih =>
    simp only [replace, loose]
    split
    · rename_i q hq; simp [hp _ _ hq, ih]
    · simp [loose, ih]
  | list i x y m r _ ih => simp [replace, loose, ih]

theorem level_replace {p : Key → Option Forest} {l : Nat} (hp : ∀ k q, p k = some q → q.Level l) {f : Forest}
    (hf : f.Level l) : (f.replace p).Level l := by
  induction f with
  | nil => trivial
  | node n r ih => exact ih hf
  | item k x y m r _ ih =>
    simp only [replace]
    split
    · rename_i q hq; rw [level_append]; exact ⟨hp _ _ hq, ih hf.2.2⟩
    · exact ⟨hf.1, hf.2.1, ih hf.2.2⟩
  | list i x y m r _ ih => exact ⟨hf.1, hf.2.1, ih hf.2.2⟩

theorem pick_facts {k : Key} (f : Forest) : (f.pick k).loose = [] ∧
    (f.pick k).content = (rowGet k f.content).toList ∧ ∀ l, f.Level l → (f.pick k).Level l := by
  induction f with
  | nil => exact ⟨rfl, rfl, fun _ _ => trivial⟩
  | node n r ih => exact ⟨ih.1, ih.2.1, ih.2.2⟩
  | item k' x y m r _ ih =>
    simp only [pick, content, rowGet, List.find?_cons]
    by_cases h : k' = k
    · subst h
      simp only [if_true, beq_self_eq_true]
      exact ⟨rfl, rfl, fun l hl => ⟨hl.1, hl.2.1, trivial⟩⟩
    · have hb : (k' == k) = false := by simp [h]
      simp only [if_neg h, hb]
      exact ⟨ih.1, ih.2.1, fun l hl => ih.2.2 l hl.2.2⟩
  | list i x y m r _ ih => exact ⟨ih.1, ih.2.1, fun l hl => ih.2.2 l hl.2.2⟩

/-! ## the calls -/

/-- The call on rows with their nodes. -/
theorem content_spec {m : Forest} (hl : m.Level 1) (n : Nat) (c : LCall)
    (hok : RowOk m.content c) :
    ((c.call n).spec m).content = rowStep (⟨n, n + 1⟩, []) m.content c ∧ ((c.call n).spec m).Level 1 := by
  cases c with
  | insert k b a s =>
    simp only [LCall.call, Call.spec, Forest.insert, rowStep]
    have hit : (item k n (n + 1) nil nil).content = [(k, ⟨n, n + 1⟩, [])] := rfl
    have hil : (item k n (n + 1) nil nil).Level 1 := ⟨rfl, trivial, trivial⟩
    split
    · rename_i hb
      have hpl := (pick_facts (k := k) m).2.2 1 hl
      constructor
      · rw [content_replace]
        have : ∀ e ∈ m.content, (match (if e.1 = k then some (item k n (n + 1) nil nil ++
            (m.pick k).unwrap fun _ => false) else none) with
            | some q => q.content
            | none => [e]) = [if e.1 = k then (k, ⟨n, n + 1⟩, []) else e] := by
          intro e _
          split
          · rename_i q hq
            split at hq
            · rename_i hk
              cases hq
              rw [content_append, hit, content_unwrap hpl, if_pos hk]
              simp
            · cases hq
          · rename_i hq
            split at hq
            · cases hq
            · rename_i hk; rw [if_neg hk]
        exact flatMap_one this
      · apply level_replace _ hl
        intro k' q hq
        split at hq
        · cases hq
          rw [level_append]
          exact ⟨hil, level_unwrap hpl⟩
        · cases hq
    · rw [content_put hit, content_unwrap hl]
      exact ⟨rfl, level_put hil b (level_unwrap hl)⟩
  | remove k => exact ⟨content_unwrap hl, level_unwrap hl⟩
  | moveBefore k b =>
    simp only [LCall.call, Call.spec, Forest.move, rowStep]
    obtain ⟨e, he⟩ : ∃ e, rowGet k m.content = some e := by
      cases h : rowGet k m.content with
      | none => exact absurd hok.1 (rowGet_none.1 h)
      | some e => exact ⟨e, rfl⟩
    rw [he]
    obtain ⟨h1, h2, h3⟩ := pick_facts (k := k) m
    rw [he] at h2
    constructor
    · rw [content_put h2, content_replace]
      congr 1
      have : ∀ e ∈ m.content, (match (if e.1 = k then some nil else none) with
          | some q => q.content
          | none => [e]) = if e.1 != k then [e] else [] := by
        intro e _
        by_cases hk : e.1 = k
        · simp [hk, content]
        · simp [hk]
      exact flatMap_filter this
    · refine level_put (h3 1 hl) b (level_replace ?_ hl)
      intro k' q hq
      split at hq
      · cases hq; trivial
      · cases hq
  | swap a b =>
    simp only [LCall.call, Call.spec, Forest.swap, rowStep]
    obtain ⟨u, hu⟩ : ∃ e, rowGet a m.content = some e := by
      cases h : rowGet a m.content with
      | none => exact absurd hok.1 (rowGet_none.1 h)
      | some e => exact ⟨e, rfl⟩
    obtain ⟨v, hv⟩ : ∃ e, rowGet b m.content = some e := by
      cases h : rowGet b m.content with
      | none => exact absurd hok.2.1 (rowGet_none.1 h)
      | some e => exact ⟨e, rfl⟩
    rw [hu, hv]
    obtain ⟨h1, h2, h3⟩ := pick_facts (k := a) m
    obtain ⟨g1, g2, g3⟩ := pick_facts (k := b) m
    rw [hu] at h2
    rw [hv] at g2
    constructor
    · rw [content_replace]
      have : ∀ e ∈ m.content, (match (if e.1 = a then some (m.pick b) else if e.1 = b then some (m.pick a) else none) with
          | some q => q.content
          | none => [e]) = [if e.1 = a then v else if e.1 = b then u else e] := by
        intro e _
        by_cases ha : e.1 = a
        · simp [ha, g2]
        · by_cases hb : e.1 = b
          · have : ¬ b = a := by rw [← hb]; exact ha
            simp [hb, h2, this]
          · simp [ha, hb]
      exact flatMap_one this
    · refine level_replace ?_ hl
      intro k' q hq
      split at hq
      · cases hq; exact g3 1 hl
      · split at hq
        · cases hq; exact h3 1 hl
        · cases hq
  | retain p => exact ⟨content_unwrap hl, level_unwrap hl⟩

/-- What a call does to the nodes that are not in an item. -/
theorem loose_spec {m : Forest} (hl : m.Level 1) (n : Nat) (c : LCall)
    (hok : RowOk m.content c) (hn : (m.content.map (·.1)).Nodup) :
    List.Sublist m.loose ((c.call n).spec m).loose ∧
    (∀ e ∈ m.content, gone c e.1 = true → List.Sublist e.2.2 ((c.call n).spec m).loose) ∧
    ∀ q ∈ ((c.call n).spec m).loose, q ∈ m.loose ∨ ∃ e ∈ m.content, gone c e.1 = true ∧ q ∈ e.2.2 := by
  have unw : ∀ (keep : Key → Bool), (∀ q, gone c q = !keep q) → ((c.call n).spec m).loose = (m.unwrap keep).loose →
      List.Sublist m.loose ((c.call n).spec m).loose ∧
      (∀ e ∈ m.content, gone c e.1 = true → List.Sublist e.2.2 ((c.call n).spec m).loose) ∧
      ∀ q ∈ ((c.call n).spec m).loose, q ∈ m.loose ∨ ∃ e ∈ m.content, gone c e.1 = true ∧ q ∈ e.2.2 := by
    intro keep hk he
    rw [he]
    obtain ⟨h1, h2, h3⟩ := loose_unwrap (keep := keep) hl
    simp only [hk, Bool.not_eq_true']
    exact ⟨h1, h2, h3⟩
  have same : ((c.call n).spec m).loose = m.loose → (∀ q, gone c q = false) →
      List.Sublist m.loose ((c.call n).spec m).loose ∧
      (∀ e ∈ m.content, gone c e.1 = true → List.Sublist e.2.2 ((c.call n).spec m).loose) ∧
      ∀ q ∈ ((c.call n).spec m).loose, q ∈ m.loose ∨ ∃ e ∈ m.content, gone c e.1 = true ∧ q ∈ e.2.2 := by
    intro he hg
    rw [he]
    exact ⟨List.Sublist.refl _, fun e _ h => by rw [hg] at h; (cases h), fun q hq => .inl hq⟩
  cases c with
  | insert k b a s =>
    apply unw (fun q => q != k) (fun q => (Bool.not_not (q == k)).symm)
    simp only [LCall.call, Call.spec, Forest.insert]
    split
    · rename_i hb
      obtain ⟨p, x, y, m', q, e, hp⟩ := Forest.split (f := m) (k := k) (by rw [← content_keys]; exact hok k hb)
      have hq : k ∉ q.keys := by
        rw [content_keys, e, keys_append] at hn
        have h2 := (List.nodup_append.1 hn).2.1
        simp only [keys, entries, List.map_cons, List.nodup_cons] at h2
        exact h2.1
      have hl' := hl
      rw [e, level_append] at hl'
      rw [e, unwrap_split x y m' hp hq, pick_split x y m' q hp, replace_append]
      have r1 : ∀ f : Forest, k ∉ f.keys → ∀ z, f.replace (fun k' => if k' = k then some z else none) = f := by
        intro f hf z
        apply replace_id
        intro k' hk'
        rw [if_neg]
        rintro rfl; exact hf hk'
      rw [r1 p hp]
      simp only [replace, if_true]
      rw [r1 q hq]
      simp [unwrap, loose]
    · rw [loose_put rfl]
  | remove k => exact unw (fun q => q != k) (fun q => (Bool.not_not (q == k)).symm) rfl
  | moveBefore k b =>
    refine same ?_ fun _ => rfl
    simp only [LCall.call, Call.spec, Forest.move]
    rw [loose_put (pick_facts m).1, loose_replace]
    intro k' q hq
    split at hq
    · cases hq; rfl
    · cases hq
  | swap a b =>
    refine same ?_ fun _ => rfl
    simp only [LCall.call, Call.spec, Forest.swap]
    rw [loose_replace]
    intro k' q hq
    split at hq
    · cases hq; exact (pick_facts m).1
    · split at hq
      · cases hq; exact (pick_facts m).1
      · cases hq
  | retain p => exact unw p (fun _ => rfl) rfl

end Verif.Whole
