import Verif.XBow.DeriveMain
/-!
# `#[derive(Trackable)]`: names of the generated types, methods that are hidden, attributes that are ignored
-/
namespace Verif.XBow.Derive
open Verif.XBow.Data

/-! ## The types of one module -/

theorem mapper_of {it : Item} {o : Output} (hl : Legal it) (h : generate it = some o) :
    o.accessors.map Accessor.mapper =
      (o.accessors.map Accessor.name).map fun n => "Mapper_".toList ++ (it.remote ++ '_' :: n) := by
  rw [(generate_some hl h).2]
  simp only [List.map_map]
  apply List.map_congr_left
  intro q _
  simp [Place.expected]

theorem names_differ {it : Item} {o : Output} (hl : Legal it) (h : generate it = some o)
    (hv : ∀ vs, it.body = .enum vs → ∀ v ∈ vs, '_' ∉ v.name) : (o.accessors.map Accessor.name).Nodup := by
  cases hb : it.body with
  | union => unfold generate filteredFields at h; cases hd : fromAttributes it.attrs .shallow <;> simp [hd, hb] at h
  | struct fs => exact struct_names_differ hb hl h
  | enum vs => exact enum_names_differ_partial hb hl (hv vs hb) h

theorem mem_mapper {it : Item} {o : Output} (hl : Legal it) (h : generate it = some o) {x : Ident}
    (hx : x ∈ o.accessors.map Accessor.mapper) : ∃ n, x = "Mapper_".toList ++ (it.remote ++ '_' :: n) := by
  rw [mapper_of hl h, List.mem_map] at hx
  obtain ⟨n, -, rfl⟩ := hx
  exact ⟨n, rfl⟩

/-- The types that are generated for the items of a module have different names, and names different from those
of the other types of the module, if no type and no variant has an underscore in its name and no type is called
`…PathBuilder`. Not covered: names with underscores (see `types_can_clash`). -/
theorem module_types_differ_partial (own : List Ident) (outs : List (Item × Output))
    (hg : ∀ x ∈ outs, Legal x.1 ∧ generate x.1 = some x.2)
    (hn : (outs.map fun x => x.1.name).Nodup) (hr : (outs.map fun x => x.1.remote).Nodup)
    (hu : ∀ x ∈ outs, '_' ∉ x.1.name ∧ '_' ∉ x.1.remote ∧ ∀ vs, x.1.body = .enum vs → ∀ v ∈ vs, '_' ∉ v.name)
    (ho : own.Nodup) (hou : ∀ n ∈ own, '_' ∉ n ∧ ∀ x, n ≠ x ++ "PathBuilder".toList) :
    (own ++ outs.flatMap fun x => x.2.types).Nodup := by
  have hbu : ∀ x ∈ outs, x.2.builder = x.1.name ++ "PathBuilder".toList ∧ '_' ∉ x.2.builder := by
    intro x hx
    have hb := (generate_some (hg x hx).1 (hg x hx).2).1
    refine ⟨hb, ?_⟩
    rw [hb, List.mem_append]
    rintro (h | h)
    · exact (hu x hx).1 h
    · revert h; decide
  have hmu : ∀ x ∈ outs, ∀ m ∈ x.2.accessors.map Accessor.mapper, '_' ∈ m := by
    intro x hx m hm
    obtain ⟨n, rfl⟩ := mem_mapper (hg x hx).1 (hg x hx).2 hm
    simp
  unfold List.Nodup at *
  rw [List.pairwise_append, List.pairwise_flatMap]
  refine ⟨ho, ⟨?_, ?_⟩, ?_⟩
  · intro x hx
    rw [Output.types, List.pairwise_cons]
    refine ⟨fun m hm he => (hbu x hx).2 (he ▸ hmu x hx m hm), ?_⟩
    rw [mapper_of (hg x hx).1 (hg x hx).2, List.pairwise_map]
    refine (names_differ (hg x hx).1 (hg x hx).2 (hu x hx).2.2).imp ?_
    intro a b hab he
    exact hab (by simpa using he)
  · rw [List.pairwise_map] at hn hr
    refine (List.Pairwise.and_mem.1 (hn.and hr)).imp ?_
    · rintro x y ⟨hx, hy, h1, h2⟩ a ha b hb he
      subst he
      rw [Output.types, List.mem_cons] at ha hb
      rcases ha with rfl | ha <;> rcases hb with hb | hb
      · rw [(hbu x hx).1, (hbu y hy).1] at hb
        exact h1 (List.append_cancel_right hb)
      · exact (hbu x hx).2 (hmu y hy _ hb)
      · exact (hbu y hy).2 (hb ▸ hmu x hx _ ha)
      · obtain ⟨m, rfl⟩ := mem_mapper (hg x hx).1 (hg x hx).2 ha
        obtain ⟨n, he⟩ := mem_mapper (hg y hy).1 (hg y hy).2 hb
        rcases joined_eq_iff.1 (List.append_cancel_left he) with ⟨e, -⟩ | ⟨z, e, -⟩ | ⟨z, e, -⟩
        · exact h2 e
        · exact (hu y hy).2.1 (by rw [e]; simp)
        · exact (hu x hx).2.1 (by rw [e]; simp)
  · intro a ha b hb he
    subst he
    obtain ⟨x, hx, hb⟩ := List.mem_flatMap.1 hb
    rw [Output.types, List.mem_cons] at hb
    rcases hb with rfl | hb
    · exact (hou _ ha).2 _ (hbu x hx).1
    · exact (hou _ ha).1 (hmu x hx _ hb)

/-! ## Methods of paths -/

theorem call_path_iff {it : Item} {o : Output} (hl : Legal it) (h : generate it = some o) {m : Ident}
    (hm : m ∈ pathMethods) : o.call m = .path ↔ ∀ p ∈ tracked it, p.accessor ≠ m := by
  have he : o.accessors.map Accessor.name = (tracked it).map Place.accessor := by
    apply List.ext_getElem?
    intro k
    rw [List.getElem?_map, accessor_at hl h, List.getElem?_map, Option.map_map]; rfl
  have h1 : ¬ (m = "into_path".toList ∨ m = "clone".toList) := by
    rintro (rfl | rfl) <;> revert hm <;> decide
  unfold Output.call
  rw [he]
  by_cases hc : m ∈ (tracked it).map Place.accessor
  · rw [if_pos hc]
    obtain ⟨p, hp, hpe⟩ := List.mem_map.1 hc
    constructor
    · intro h; cases h
    · intro hno; exact absurd hpe (hno p hp)
  · rw [if_neg hc, if_neg h1, if_pos hm]
    refine ⟨fun _ p hp hpe => hc (List.mem_map.2 ⟨p, hp, hpe⟩), fun _ => rfl⟩

/-- Calling a method of paths on a path builder reaches the path unless the struct has a tracked field of that
name: then it is the accessor of the field. -/
theorem path_method_hidden_iff {it : Item} {o : Output} {fs : List Field} (hb : it.body = .struct fs) (hl : Legal it)
    (h : generate it = some o) {m : Ident} (hm : m ∈ pathMethods) :
    (o.call m = .path ∨ o.call m = .accessor) ∧
      (o.call m = .accessor ↔ ∃ f ∈ fs, f.name = some m ∧ modeOf it f ≠ some .skip) := by
  have hcases : o.call m = .path ∨ o.call m = .accessor := by
    unfold Output.call
    have h1 : ¬ (m = "into_path".toList ∨ m = "clone".toList) := by
      rintro (rfl | rfl) <;> revert hm <;> decide
    by_cases hc : m ∈ o.accessors.map Accessor.name
    · rw [if_pos hc]; exact Or.inr rfl
    · rw [if_neg hc, if_neg h1, if_pos hm]; exact Or.inl rfl
  refine ⟨hcases, ?_⟩
  have key : (∃ p ∈ tracked it, p.accessor = m) ↔ ∃ f ∈ fs, f.name = some m ∧ modeOf it f ≠ some .skip := by
    constructor
    · rintro ⟨p, hp, rfl⟩
      obtain ⟨h1, h2⟩ := mem_tracked.1 hp
      obtain ⟨a1, a2, a3⟩ := (mem_declared_struct hb).1 h1
      refine ⟨p.field, List.mem_of_getElem? a3, ?_, h2⟩
      cases hn : p.field.name with
      | some n => simp [Place.accessor, a2, hn]
      | none =>
        exfalso
        simp only [Place.accessor, a2, hn] at hm
        have : ∀ x ∈ pathMethods, x.head? ≠ some 't' := by decide
        exact this _ hm rfl
    · rintro ⟨f, hf, hn, hmode⟩
      obtain ⟨i, hi⟩ := List.getElem?_of_mem hf
      exact ⟨⟨0, none, i, f⟩, mem_tracked.2 ⟨(mem_declared_struct hb).2 ⟨rfl, rfl, hi⟩, hmode⟩, by simp [Place.accessor, hn]⟩
  rw [← key]
  constructor
  · intro hc
    refine Decidable.byContradiction fun hno => ?_
    have : o.call m = .path := (call_path_iff hl h hm).2 fun p hp he => hno ⟨p, hp, he⟩
    rw [this] at hc; cases hc
  · rintro ⟨p, hp, he⟩
    rcases hcases with hc | hc
    · exact absurd he ((call_path_iff hl h hm).1 hc p hp)
    · exact hc

/-- The path builder of an enum whose variants begin with a capital letter hides no method. -/
theorem enum_hides_no_method {it : Item} {o : Output} {vs : List Variant} (hb : it.body = .enum vs) (hl : Legal it)
    (hu : ∀ v ∈ vs, ∃ c r, v.name = c :: r ∧ c.isUpper = true) (h : generate it = some o) {m : Ident}
    (hm : m ∈ pathMethods) : o.call m = .path := by
  rw [call_path_iff hl h hm]
  rintro p hp rfl
  obtain ⟨v, a1, a2, a3, a4⟩ := enum_accessor_name hb (mem_tracked.1 hp).1
  obtain ⟨c, r, hc, hup⟩ := hu v (List.mem_of_getElem? a1)
  rw [a4, hc] at hm
  have : ∀ x ∈ pathMethods, ∀ c, x.head? = some c → c.isUpper = false := by
    have h' : ∀ x ∈ pathMethods, x.head?.all (fun c => !c.isUpper) = true := by decide
    intro x hx c hxc
    have := h' x hx
    rw [hxc] at this
    simpa using this
  have := this _ hm c rfl
  rw [hup] at this; cases this

/-! ## Attributes that have no effect -/

/-- Attributes of variants have no effect: only those of the item and of the fields count. -/
theorem variant_attributes_are_ignored {it : Item} {vs : List Variant} (hb : it.body = .enum vs) (hl : Legal it)
    (g : Variant → List Attr) :
    generate { it with body := .enum (vs.map fun v => { v with attrs := g v }) } = generate it := by
  let it' : Item := { it with body := .enum (vs.map fun v => { v with attrs := g v }) }
  have hb' : it'.body = .enum (vs.map fun v => { v with attrs := g v }) := rfl
  have hmode : ∀ f, modeOf it' f = modeOf it f := fun _ => rfl
  have hd : declared it' = declared it := by
    simp only [declared, hb', hb, List.zipIdx_map, List.flatMap_map]; rfl
  have htr : tracked it' = tracked it := by
    unfold tracked; rw [hd]; rfl
  have hl' : Legal it' := by
    unfold Legal at hl ⊢
    simp only [hb', hb, List.map_map, List.mem_map, forall_exists_index, and_imp, forall_apply_eq_imp_iff₂] at hl ⊢
    exact hl
  have hnone : generate it' = none ↔ generate it = none := by
    rw [derive_fails_iff, derive_fails_iff, hd, hb', hb]
    simp only [hmode, reduceCtorEq, false_or]; rfl
  show generate it' = generate it
  cases h1 : generate it with
  | none => exact hnone.2 h1
  | some o =>
    cases h2 : generate it' with
    | none => rw [hnone.1 h2] at h1; cases h1
    | some o' =>
      obtain ⟨a1, a2⟩ := generate_some hl h1
      obtain ⟨b1, b2⟩ := generate_some hl' h2
      rw [htr] at b2
      have e : o.accessors = o'.accessors := by
        rw [a2, b2]
        apply List.map_congr_left
        intro q _; rfl
      have e1 : o.builder = o'.builder := a1.trans b1.symm
      cases o; cases o'; simp_all

end Verif.XBow.Derive
