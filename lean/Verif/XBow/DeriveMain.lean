import Verif.XBow.DeriveProps
/-!
# `#[derive(Trackable)]`: completeness, order, names
-/
namespace Verif.XBow.Derive
open Verif.XBow.Data

/-! ## Places -/

/-- Declared earlier: in an earlier variant, or earlier in the same variant. -/
def Place.before (p q : Place) : Prop := p.tag < q.tag ∨ (p.tag = q.tag ∧ p.index < q.index)

theorem mem_declared_struct {it : Item} {fs : List Field} (hb : it.body = .struct fs) {p : Place} :
    p ∈ declared it ↔ p.tag = 0 ∧ p.variant = none ∧ fs[p.index]? = some p.field := by
  simp only [declared, hb, List.mem_map]
  constructor
  · rintro ⟨q, hq, rfl⟩
    exact ⟨rfl, rfl, List.mem_zipIdx_iff_getElem?.1 hq⟩
  · rintro ⟨h1, h2, h3⟩
    refine ⟨(p.field, p.index), List.mem_zipIdx_iff_getElem?.2 h3, ?_⟩
    cases p; simp_all

theorem mem_declared_enum {it : Item} {vs : List Variant} (hb : it.body = .enum vs) {p : Place} :
    p ∈ declared it ↔ ∃ v, vs[p.tag]? = some v ∧ p.variant = some v.name ∧ v.fields[p.index]? = some p.field := by
  simp only [declared, hb, List.mem_flatMap, List.mem_map]
  constructor
  · rintro ⟨q, hq, r, hr, rfl⟩
    exact ⟨q.1, List.mem_zipIdx_iff_getElem?.1 hq, rfl, List.mem_zipIdx_iff_getElem?.1 hr⟩
  · rintro ⟨v, h1, h2, h3⟩
    refine ⟨(v, p.tag), List.mem_zipIdx_iff_getElem?.2 h1, (p.field, p.index), List.mem_zipIdx_iff_getElem?.2 h3, ?_⟩
    cases p; simp_all

theorem zipIdx_lt {α : Type} (l : List α) (n : Nat) : (l.zipIdx n).Pairwise fun a b => a.2 < b.2 := by
  have := List.pairwise_lt_range' (s := n) (n := l.length) 1
  rw [← List.zipIdx_map_snd, List.pairwise_map] at this
  exact this

theorem declared_sorted (it : Item) : (declared it).Pairwise Place.before := by
  cases hb : it.body with
  | union => simp [declared, hb]
  | struct fs =>
    simp only [declared, hb, List.pairwise_map]
    exact (zipIdx_lt fs 0).imp fun h => Or.inr ⟨rfl, h⟩
  | enum vs =>
    simp only [declared, hb, List.pairwise_flatMap, List.pairwise_map]
    refine ⟨fun q _ => (zipIdx_lt _ 0).imp fun h => Or.inr ⟨rfl, h⟩, (zipIdx_lt vs 0).imp ?_⟩
    intro a b h x hx y hy
    obtain ⟨r, -, rfl⟩ := List.mem_map.1 hx
    obtain ⟨s, -, rfl⟩ := List.mem_map.1 hy
    exact Or.inl h

/-- A place is known from its numbers. -/
theorem declared_inj {it : Item} {p q : Place} (hp : p ∈ declared it) (hq : q ∈ declared it) (h1 : p.tag = q.tag)
    (h2 : p.index = q.index) : p = q := by
  cases hb : it.body with
  | union => simp [declared, hb] at hp
  | struct fs =>
    obtain ⟨a1, a2, a3⟩ := (mem_declared_struct hb).1 hp
    obtain ⟨b1, b2, b3⟩ := (mem_declared_struct hb).1 hq
    rw [h2, b3] at a3
    cases p; cases q; simp_all
  | enum vs =>
    obtain ⟨v, a1, a2, a3⟩ := (mem_declared_enum hb).1 hp
    obtain ⟨w, b1, b2, b3⟩ := (mem_declared_enum hb).1 hq
    rw [h1, b1] at a1
    cases a1
    rw [h2, b3] at a3
    cases p; cases q; simp_all

theorem declared_kind {it : Item} {p q : Place} (hp : p ∈ declared it) (hq : q ∈ declared it) :
    p.variant.isSome = q.variant.isSome := by
  cases hb : it.body with
  | union => simp [declared, hb] at hp
  | struct fs =>
    rw [((mem_declared_struct hb).1 hp).2.1, ((mem_declared_struct hb).1 hq).2.1]
  | enum vs =>
    obtain ⟨v, -, a2, -⟩ := (mem_declared_enum hb).1 hp
    obtain ⟨w, -, b2, -⟩ := (mem_declared_enum hb).1 hq
    rw [a2, b2]; rfl

theorem layer_inj {it : Item} {p q : Place} (hp : p ∈ declared it) (hq : q ∈ declared it) (h : p.layer = q.layer) : p = q := by
  cases hb : it.body with
  | union => simp [declared, hb] at hp
  | struct fs =>
    obtain ⟨a1, a2, -⟩ := (mem_declared_struct hb).1 hp
    obtain ⟨b1, b2, -⟩ := (mem_declared_struct hb).1 hq
    simp only [Place.layer, a2, b2, Layer.field.injEq] at h
    exact declared_inj hp hq (a1.trans b1.symm) h
  | enum vs =>
    obtain ⟨v, -, a2, -⟩ := (mem_declared_enum hb).1 hp
    obtain ⟨w, -, b2, -⟩ := (mem_declared_enum hb).1 hq
    simp only [Place.layer, a2, b2, Layer.variant.injEq] at h
    exact declared_inj hp hq h.1 h.2

theorem mem_tracked {it : Item} {p : Place} : p ∈ tracked it ↔ p ∈ declared it ∧ modeOf it p.field ≠ some .skip := by
  simp [tracked, List.mem_filter]

theorem tracked_sorted (it : Item) : (tracked it).Pairwise Place.before := (declared_sorted it).filter _

theorem sorted_lt {l : List Place} (h : l.Pairwise Place.before) {i j : Nat} {p q : Place} (hi : l[i]? = some p)
    (hj : l[j]? = some q) (hlt : i < j) : p.before q := by
  obtain ⟨a, ha⟩ := List.getElem?_eq_some_iff.1 hi
  obtain ⟨b, hb⟩ := List.getElem?_eq_some_iff.1 hj
  have := List.pairwise_iff_getElem.1 h i j a b hlt
  rwa [ha, hb] at this

theorem before_irrefl (p : Place) : ¬ p.before p := by simp [Place.before]

theorem accessor_at {it : Item} {o : Output} (hl : Legal it) (h : generate it = some o) (k : Nat) :
    o.accessors[k]? = ((tracked it)[k]?).map fun p => p.expected it k := by
  rw [(generate_some hl h).2, List.getElem?_map, List.getElem?_zipIdx, Option.map_map]
  simp only [Nat.zero_add]; rfl

/-! ## The statements -/

/-- Every field that is not skipped has an accessor with its documented name, which leads to this field, and
is deep if and only if that was asked for; it can always be used if and only if the field is one of a struct. -/
theorem every_tracked_field_has_an_accessor {it : Item} {o : Output} (hl : Legal it) (h : generate it = some o)
    {p : Place} (hp : p ∈ declared it) (hm : modeOf it p.field ≠ some .skip) :
    ∃ a ∈ o.accessors, a.name = p.accessor ∧ a.layer = some p.layer ∧ (a.deep = true ↔ modeOf it p.field = some .deep) ∧
      (a.guaranteed = true ↔ p.variant = none) ∧ (a.isPub = true ↔ p.variant ≠ none ∨ p.field.isPub = true) := by
  obtain ⟨k, hk⟩ := List.getElem?_of_mem (mem_tracked.2 ⟨hp, hm⟩)
  have := accessor_at hl h k
  rw [hk] at this
  refine ⟨_, List.mem_of_getElem? this, rfl, rfl, by simp [Place.expected], by simp [Place.expected], ?_⟩
  cases hv : p.variant <;> simp [Place.expected, hv]

/-- Every accessor belongs to one field that is not skipped. -/
theorem every_accessor_has_a_field {it : Item} {o : Output} (hl : Legal it) (h : generate it = some o) {a : Accessor}
    (ha : a ∈ o.accessors) :
    ∃ p ∈ declared it, modeOf it p.field ≠ some .skip ∧ a.layer = some p.layer ∧ a.name = p.accessor ∧
      ∀ q ∈ declared it, a.layer = some q.layer → q = p := by
  obtain ⟨k, hk⟩ := List.getElem?_of_mem ha
  rw [accessor_at hl h, Option.map_eq_some_iff] at hk
  obtain ⟨p, hp, rfl⟩ := hk
  obtain ⟨h1, h2⟩ := mem_tracked.1 (List.mem_of_getElem? hp)
  refine ⟨p, h1, h2, rfl, rfl, fun q hq he => ?_⟩
  exact layer_inj hq h1 (Option.some.inj he).symm

/-- The numbers that accessors write into the hash are 0, 1, 2, … in the order of the declaration; no two
accessors lead to the same field. -/
theorem accessors_are_numbered {it : Item} {o : Output} (hl : Legal it) (h : generate it = some o) {i j : Nat}
    {a b : Accessor} (hi : o.accessors[i]? = some a) (hj : o.accessors[j]? = some b) :
    a.number = i ∧ (i < j → ∃ p ∈ declared it, ∃ q ∈ declared it, a.layer = some p.layer ∧ b.layer = some q.layer ∧
      p.before q ∧ a.layer ≠ b.layer) := by
  rw [accessor_at hl h, Option.map_eq_some_iff] at hi hj
  obtain ⟨p, hp, rfl⟩ := hi
  obtain ⟨q, hq, rfl⟩ := hj
  refine ⟨rfl, fun hlt => ?_⟩
  have hp' := (mem_tracked.1 (List.mem_of_getElem? hp)).1
  have hq' := (mem_tracked.1 (List.mem_of_getElem? hq)).1
  have hb := sorted_lt (tracked_sorted it) hp hq hlt
  refine ⟨p, hp', q, hq', rfl, rfl, hb, fun he => ?_⟩
  have := layer_inj hp' hq' (Option.some.inj he)
  subst this
  exact before_irrefl _ hb

/-- The path of an accessor reads its field and nothing else, and writing to it changes this field only. -/
theorem accessor_target (p : Place) (ds : List Data) (t : Nat) (v : Data) :
    (p.variant = none →
      getOpt [p.layer] (.struct ds) = ds[p.index]? ∧
      (p.index < ds.length → setOpt [p.layer] v (.struct ds) = some (.struct (ds.set p.index v)))) ∧
    (p.variant ≠ none →
      (t = p.tag → getOpt [p.layer] (.enum t ds) = ds[p.index]? ∧
        (p.index < ds.length → setOpt [p.layer] v (.enum t ds) = some (.enum t (ds.set p.index v)))) ∧
      (t ≠ p.tag → getOpt [p.layer] (.enum t ds) = none ∧ setOpt [p.layer] v (.enum t ds) = none)) := by
  constructor
  · intro h
    refine ⟨?_, fun hlt => ?_⟩
    · cases hd : ds[p.index]? <;> simp [getOpt, pathBorrow, Place.layer, h, borrow1, hd]
    · simp [setOpt, pathBorrowMut, Place.layer, h, borrowMut1, List.getElem?_eq_getElem hlt]
  · intro h
    obtain ⟨w, hw⟩ := Option.ne_none_iff_exists'.1 h
    refine ⟨?_, fun ht => ?_⟩
    · rintro rfl
      refine ⟨?_, fun hlt => ?_⟩
      · cases hd : ds[p.index]? <;> simp [getOpt, pathBorrow, Place.layer, hw, borrow1, hd]
      · simp [setOpt, pathBorrowMut, Place.layer, hw, borrowMut1, List.getElem?_eq_getElem hlt]
    · simp [getOpt, setOpt, pathBorrow, pathBorrowMut, Place.layer, hw, borrow1, borrowMut1, ht]

/-- The derive macro reports an error exactly for unions and for attributes with an unknown word. -/
theorem derive_fails_iff (it : Item) :
    generate it = none ↔ it.body = .union ∨ (∃ a, firstTrack it.attrs = some a ∧ reads a = none) ∨
      ∃ p ∈ declared it, modeOf it p.field = none := by
  have hg : generate it = none ↔ filteredFields it = none := by
    unfold generate; cases filteredFields it <;> simp
  rw [hg]
  unfold filteredFields
  cases hd : fromAttributes it.attrs .shallow with
  | none =>
    rw [fromAttributes_eq] at hd
    simp only [true_iff]
    cases ht : firstTrack it.attrs with
    | none => simp [ht] at hd
    | some a => rw [ht] at hd; exact Or.inr (Or.inl ⟨a, rfl, hd⟩)
  | some dflt =>
    have hn : ¬ ∃ a, firstTrack it.attrs = some a ∧ reads a = none := by
      rintro ⟨a, h1, h2⟩
      rw [fromAttributes_eq, h1] at hd
      simp [h2] at hd
    simp only [hn, false_or]
    cases hb : it.body with
    | union => simp
    | struct fs =>
      simp only [collect_none, mode_eq hd, reduceCtorEq, false_or]
      constructor
      · rintro ⟨f, hf, hm⟩
        obtain ⟨i, hi⟩ := List.getElem?_of_mem hf
        exact ⟨⟨0, none, i, f⟩, (mem_declared_struct hb).2 ⟨rfl, rfl, hi⟩, hm⟩
      · rintro ⟨p, hp, hm⟩
        exact ⟨p.field, List.mem_of_getElem? ((mem_declared_struct hb).1 hp).2.2, hm⟩
    | enum vs =>
      simp only [collectVariants_none, mode_eq hd, reduceCtorEq, false_or]
      constructor
      · rintro ⟨v, hv, f, hf, hm⟩
        obtain ⟨t, ht⟩ := List.getElem?_of_mem hv
        obtain ⟨i, hi⟩ := List.getElem?_of_mem hf
        exact ⟨⟨t, some v.name, i, f⟩, (mem_declared_enum hb).2 ⟨v, ht, rfl, hi⟩, hm⟩
      · rintro ⟨p, hp, hm⟩
        obtain ⟨v, h1, -, h3⟩ := (mem_declared_enum hb).1 hp
        exact ⟨v, List.mem_of_getElem? h1, p.field, List.mem_of_getElem? h3, hm⟩

/-! ## Names -/

theorem digits_inj {a b : Nat} (h : Nat.toDigits 10 a = Nat.toDigits 10 b) : a = b := by
  rw [← Nat.ofDigitChars_ten_toDigits (n := a), h, Nat.ofDigitChars_ten_toDigits]

theorem label_inj {fs : List Field} (h : FieldsOk fs) {p q : Place} (hp : fs[p.index]? = some p.field)
    (hq : fs[q.index]? = some q.field) (he : p.label = q.label) : p.index = q.index := by
  have hpm := List.mem_of_getElem? hp
  have hqm := List.mem_of_getElem? hq
  rcases h with h | ⟨h1, h2⟩
  · simp only [Place.label, h _ hpm, h _ hqm] at he
    exact digits_inj he
  · obtain ⟨a, ha⟩ := Option.ne_none_iff_exists'.1 (h1 _ hpm)
    obtain ⟨b, hb⟩ := Option.ne_none_iff_exists'.1 (h1 _ hqm)
    simp only [Place.label, ha, hb] at he
    subst he
    have e1 : (fs.map Field.name)[p.index]? = some (some a) := by simp [List.getElem?_map, hp, ha]
    have e2 : (fs.map Field.name)[q.index]? = some (some a) := by simp [List.getElem?_map, hq, hb]
    obtain ⟨hlt, -⟩ := List.getElem?_eq_some_iff.1 e1
    exact (List.getElem?_inj hlt h2).1 (e1.trans e2.symm)

theorem names_nodup_iff {it : Item} {o : Output} (hl : Legal it) (h : generate it = some o) :
    (o.accessors.map Accessor.name).Nodup ↔
      ∀ p ∈ tracked it, ∀ q ∈ tracked it, p.accessor = q.accessor → p = q := by
  have he : o.accessors.map Accessor.name = (tracked it).map Place.accessor := by
    apply List.ext_getElem?
    intro k
    rw [List.getElem?_map, accessor_at hl h, List.getElem?_map, Option.map_map]; rfl
  rw [he]
  constructor
  · intro hn p hp q hq hpq
    obtain ⟨i, hi⟩ := List.getElem?_of_mem hp
    obtain ⟨j, hj⟩ := List.getElem?_of_mem hq
    obtain ⟨hlt, -⟩ := List.getElem?_eq_some_iff.1 hi
    have : i = j := (List.getElem?_inj (by simpa using hlt) hn).1 (by simp [List.getElem?_map, hi, hj, hpq])
    subst this
    rw [hi] at hj
    exact Option.some.inj hj
  · intro hinj
    unfold List.Nodup
    rw [List.pairwise_map]
    rw [List.pairwise_iff_getElem]
    intro i j hi hj hlt he
    have hb := List.pairwise_iff_getElem.1 (tracked_sorted it) i j hi hj hlt
    rw [hinj _ (List.getElem_mem hi) _ (List.getElem_mem hj) he] at hb
    exact before_irrefl _ hb

/-- The accessors of a struct have different names. -/
theorem struct_names_differ {it : Item} {o : Output} {fs : List Field} (hb : it.body = .struct fs) (hl : Legal it)
    (h : generate it = some o) : (o.accessors.map Accessor.name).Nodup := by
  rw [names_nodup_iff hl h]
  intro p hp q hq he
  have hp' := (mem_tracked.1 hp).1
  have hq' := (mem_tracked.1 hq).1
  obtain ⟨a1, a2, a3⟩ := (mem_declared_struct hb).1 hp'
  obtain ⟨b1, b2, b3⟩ := (mem_declared_struct hb).1 hq'
  have hf : FieldsOk fs := by simpa [Legal, hb] using hl
  refine declared_inj hp' hq' (a1.trans b1.symm) (label_inj hf a3 b3 ?_)
  rcases hf with hf | ⟨hf, -⟩
  · simp only [Place.accessor, a2, b2, hf _ (List.mem_of_getElem? a3), hf _ (List.mem_of_getElem? b3), List.cons.injEq,
      true_and] at he
    exact he
  · obtain ⟨x, hx⟩ := Option.ne_none_iff_exists'.1 (hf _ (List.mem_of_getElem? a3))
    obtain ⟨y, hy⟩ := Option.ne_none_iff_exists'.1 (hf _ (List.mem_of_getElem? b3))
    simp only [Place.accessor, a2, b2, hx, hy] at he
    simp only [Place.label, hx, hy, he]

/-- When two names that are joined by an underscore are the same. -/
theorem joined_eq_iff {a b c d : Ident} :
    a ++ '_' :: b = c ++ '_' :: d ↔ (a = c ∧ b = d) ∨ (∃ x, c = a ++ '_' :: x ∧ b = x ++ '_' :: d) ∨
      (∃ x, a = c ++ '_' :: x ∧ d = x ++ '_' :: b) := by
  rw [List.append_eq_append_iff]
  constructor
  · rintro (⟨x, h1, h2⟩ | ⟨x, h1, h2⟩)
    · cases x with
      | nil => simp only [List.append_nil, List.nil_append, List.cons.injEq, true_and] at h1 h2; exact Or.inl ⟨h1.symm, h2⟩
      | cons c' x =>
        simp only [List.cons_append, List.cons.injEq] at h2
        obtain ⟨rfl, h2⟩ := h2
        exact Or.inr (Or.inl ⟨x, h1, h2⟩)
    · cases x with
      | nil => simp only [List.append_nil, List.nil_append, List.cons.injEq, true_and] at h1 h2; exact Or.inl ⟨h1, h2.symm⟩
      | cons c' x =>
        simp only [List.cons_append, List.cons.injEq] at h2
        obtain ⟨rfl, h2⟩ := h2
        exact Or.inr (Or.inr ⟨x, h1, h2⟩)
  · rintro (⟨rfl, rfl⟩ | ⟨x, rfl, rfl⟩ | ⟨x, rfl, rfl⟩)
    · exact Or.inl ⟨[], by simp, by simp⟩
    · exact Or.inl ⟨'_' :: x, rfl, rfl⟩
    · exact Or.inr ⟨'_' :: x, rfl, rfl⟩

theorem enum_accessor_name {it : Item} {vs : List Variant} (hb : it.body = .enum vs) {p : Place} (hp : p ∈ declared it) :
    ∃ v, vs[p.tag]? = some v ∧ p.variant = some v.name ∧ v.fields[p.index]? = some p.field ∧
      p.accessor = v.name ++ '_' :: p.label := by
  obtain ⟨v, h1, h2, h3⟩ := (mem_declared_enum hb).1 hp
  exact ⟨v, h1, h2, h3, by simp [Place.accessor, h2]⟩

/-- The accessors of an enum have different names, unless the name of one variant is that of another one,
continued by an underscore, and the two fields make up for the difference. -/
theorem enum_names_differ_iff {it : Item} {o : Output} {vs : List Variant} (hb : it.body = .enum vs) (hl : Legal it)
    (h : generate it = some o) :
    (o.accessors.map Accessor.name).Nodup ↔
      ¬ ∃ p ∈ tracked it, ∃ q ∈ tracked it, ∃ v x, p.variant = some v ∧ q.variant = some (v ++ '_' :: x) ∧
        p.label = x ++ '_' :: q.label := by
  rw [names_nodup_iff hl h]
  have hlv : (vs.map Variant.name).Nodup ∧ ∀ v ∈ vs, FieldsOk v.fields := by simpa [Legal, hb] using hl
  constructor
  · rintro hinj ⟨p, hp, q, hq, v, x, h1, h2, h3⟩
    have : p = q := hinj p hp q hq (by simp [Place.accessor, h1, h2, h3])
    subst this
    rw [h1] at h2
    have := congrArg List.length (Option.some.inj h2)
    simp at this
  · intro hno p hp q hq he
    have hp' := (mem_tracked.1 hp).1
    have hq' := (mem_tracked.1 hq).1
    obtain ⟨v, a1, a2, a3, a4⟩ := enum_accessor_name hb hp'
    obtain ⟨w, b1, b2, b3, b4⟩ := enum_accessor_name hb hq'
    rw [a4, b4, joined_eq_iff] at he
    rcases he with ⟨e1, e2⟩ | ⟨x, e1, e2⟩ | ⟨x, e1, e2⟩
    · have ht : p.tag = q.tag := by
        obtain ⟨hlt, -⟩ := List.getElem?_eq_some_iff.1 a1
        exact (List.getElem?_inj (by simpa using hlt) hlv.1).1 (by simp [List.getElem?_map, a1, b1, e1])
      rw [ht, b1] at a1
      cases a1
      exact declared_inj hp' hq' ht (label_inj (hlv.2 _ (List.mem_of_getElem? b1)) a3 b3 e2)
    · exact absurd ⟨p, hp, q, hq, v.name, x, a2, by rw [b2, e1], e2⟩ hno
    · exact absurd ⟨q, hq, p, hp, w.name, x, b2, by rw [a2, e1], e2⟩ hno

/-- Variants are usually named without underscores; then the accessors have different names. -/
theorem enum_names_differ_partial {it : Item} {o : Output} {vs : List Variant} (hb : it.body = .enum vs) (hl : Legal it)
    (hu : ∀ v ∈ vs, '_' ∉ v.name) (h : generate it = some o) : (o.accessors.map Accessor.name).Nodup := by
  rw [enum_names_differ_iff hb hl h]
  rintro ⟨p, -, q, hq, v, x, -, h2, -⟩
  obtain ⟨w, b1, b2, -, -⟩ := enum_accessor_name hb (mem_tracked.1 hq).1
  rw [b2] at h2
  exact hu w (List.mem_of_getElem? b1) (by rw [Option.some.inj h2]; simp)

/-! ## The numbers are those of C47 -/

/-- A type with as many variants and fields. -/
def SameShape : Body → Ty → Prop
  | .struct fs, .struct ts => fs.length = ts.length
  | .enum vs, .enum ws => vs.map (fun v => v.fields.length) = ws.map List.length
  | _, _ => False

theorem filter_all {α : Type} (l : List α) : (l.filter fun _ => true) = l := by simp

theorem flatMap_congr' {α β : Type} {l : List α} {f g : α → List β} (h : ∀ a ∈ l, f a = g a) : l.flatMap f = l.flatMap g := by
  induction l with
  | nil => rfl
  | cons a l ih =>
    rw [List.flatMap_cons, List.flatMap_cons, h a List.mem_cons_self, ih fun b hb => h b (List.mem_cons_of_mem _ hb)]

theorem filter_map_congr {α β : Type} (l : List α) (f : α → β) (P : α → Bool) (Q : β → Bool) (h : ∀ a ∈ l, P a = Q (f a)) :
    (l.filter P).map f = (l.map f).filter Q := by
  rw [List.filter_map]
  congr 1
  exact List.filter_congr h

theorem declared_slots {it : Item} {t : Ty} (hs : SameShape it.body t) :
    (declared it).map (fun p => (p.tag, p.index)) = slots (fun _ _ _ => false) t := by
  cases hb : it.body with
  | union => cases t <;> simp [SameShape, hb] at hs
  | struct fs =>
    cases t <;> simp only [SameShape, hb] at hs
    rename_i ts
    simp only [declared, hb, slots, List.map_map, Bool.not_false, filter_all, ← hs]
    rw [List.range_eq_range']
    rw [← List.zipIdx_map_snd 0 fs, List.map_map]; rfl
  | enum vs =>
    cases t <;> simp only [SameShape, hb] at hs
    rename_i ws
    simp only [declared, hb, slots, List.map_flatMap, List.map_map, Bool.not_false, filter_all]
    have hlen : vs.length = ws.length := by simpa using congrArg List.length hs
    rw [← hlen, List.range_eq_range', ← List.zipIdx_map_snd 0 vs, List.flatMap_map]
    apply flatMap_congr'
    intro q hq
    have hq' := List.mem_zipIdx_iff_getElem?.1 hq
    have h2 : (ws[q.2]?.getD []).length = q.1.fields.length := by
      have := congrArg (fun l => l[q.2]?) hs
      simp only [List.getElem?_map, hq', Option.map_some] at this
      cases hw : ws[q.2]? with
      | none => simp [hw] at this
      | some w => simp only [hw, Option.map_some, Option.some.injEq] at this; simp [this]
    rw [h2, List.range_eq_range', ← List.zipIdx_map_snd 0 q.1.fields, List.map_map]; rfl

/-- The number of an accessor is the one with which the theorems about hashes of paths (C47) work. -/
theorem numbers_agree {it : Item} {o : Output} (hl : Legal it) (h : generate it = some o) {t : Ty} (hs : SameShape it.body t)
    {skip : Ty → Nat → Nat → Bool}
    (hk : ∀ p ∈ declared it, skip t p.tag p.index = true ↔ modeOf it p.field = some .skip) {a : Accessor}
    (ha : a ∈ o.accessors) :
    ∃ p ∈ declared it, a.layer = some p.layer ∧ (p.tag, p.index) ∈ slots skip t ∧ a.number = number skip t p.tag p.index := by
  obtain ⟨k, hk'⟩ := List.getElem?_of_mem ha
  rw [accessor_at hl h, Option.map_eq_some_iff] at hk'
  obtain ⟨p, hp, rfl⟩ := hk'
  have hsl : slots skip t = (tracked it).map fun p => (p.tag, p.index) := by
    have e : slots skip t = (slots (fun _ _ _ => false) t).filter fun s => !skip t s.1 s.2 := by
      cases t <;> simp [slots]
    rw [e, ← declared_slots hs, tracked]
    symm
    apply filter_map_congr
    intro q hq
    have := hk q hq
    cases hsk : skip t q.tag q.index
    · simp [hsk] at this; simp [this]
    · simp [hsk] at this; simp [this]
  have hmem := List.mem_of_getElem? hp
  refine ⟨p, (mem_tracked.1 hmem).1, rfl, by rw [hsl]; exact List.mem_map.2 ⟨p, hmem, rfl⟩, ?_⟩
  show k = number skip t p.tag p.index
  have hnd : ((tracked it).map fun p => (p.tag, p.index)).Nodup := by
    unfold List.Nodup
    rw [List.pairwise_map]
    refine (tracked_sorted it).imp ?_
    intro a b hab he
    simp only [Prod.mk.injEq] at he
    rcases hab with h | ⟨-, h⟩ <;> omega
  have hg : ((tracked it).map fun p => (p.tag, p.index))[k]? = some (p.tag, p.index) := by simp [List.getElem?_map, hp]
  obtain ⟨hlt, hg'⟩ := List.getElem?_eq_some_iff.1 hg
  unfold number
  rw [hsl]
  have hmm : (p.tag, p.index) ∈ (tracked it).map fun p => (p.tag, p.index) := List.mem_map.2 ⟨p, hmem, rfl⟩
  have hlt2 := List.idxOf_lt_length_of_mem hmm
  refine (List.getElem?_inj hlt hnd).1 ?_
  rw [hg, List.getElem?_eq_getElem hlt2, List.getElem_idxOf]

end Verif.XBow.Derive
