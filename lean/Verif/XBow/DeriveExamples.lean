import Verif.XBow.DeriveNames
/-!
# `#[derive(Trackable)]`: examples and what goes wrong
-/
namespace Verif.XBow.Derive
open Verif.XBow.Data

def fld (n : String) (as : List Attr := []) : Field := ⟨as, some n.toList, false⟩
def pos (as : List Attr := []) : Field := ⟨as, none, false⟩
def arg (x : String) : Attr := .track (some x.toList)

/-- ```
#[derive(Trackable)]
#[track(deep)]
struct MyStruct { field_1: A, #[track(shallow)] field_2: u64, #[track(skip)] field_3: B, #[doc = ".."] field_4: C }
``` -/
def exStruct : Item where
  attrs := [arg "deep"]
  name := "MyStruct".toList
  remote := "MyStruct".toList
  body := .struct [fld "field_1", fld "field_2" [arg "shallow"], fld "field_3" [arg "skip"], fld "field_4" [.other]]

/-- `enum MyEnum { Variant1(String, #[track(skip)] u8, i8), Variant2 { field_a: i32, field_b: u64 } }` -/
def exEnum : Item where
  attrs := []
  name := "MyEnum".toList
  remote := "MyEnum".toList
  body := .enum [⟨[], "Variant1".toList, [pos, pos [arg "skip"], pos]⟩,
    ⟨[], "Variant2".toList, [fld "field_a", fld "field_b"]⟩]

theorem exStruct_legal : Legal exStruct := by
  unfold Legal exStruct FieldsOk
  decide

theorem exEnum_legal : Legal exEnum := by
  unfold Legal exEnum FieldsOk
  decide

/-- The documented accessors of the struct. -/
example : ((generate exStruct).map fun o => o.accessors.map fun a => (String.ofList a.name, a.number, a.layer, a.deep)) =
    some [("field_1", 0, some (.field 0), true), ("field_2", 1, some (.field 1), false),
      ("field_4", 2, some (.field 3), true)] := by decide

/-- The documented accessors of the enum. -/
example : ((generate exEnum).map fun o => o.accessors.map fun a => (String.ofList a.name, a.number, a.layer, a.guaranteed)) =
    some [("Variant1_0", 0, some (.variant 0 0), false), ("Variant1_2", 1, some (.variant 0 2), false),
      ("Variant2_field_a", 2, some (.variant 1 0), false), ("Variant2_field_b", 3, some (.variant 1 1), false)] := by decide

/-- The hypotheses of `every_tracked_field_has_an_accessor`, for the third field of the first variant. -/
example : ∃ o, generate exEnum = some o ∧ Legal exEnum ∧ (⟨0, some "Variant1".toList, 2, pos⟩ : Place) ∈ declared exEnum ∧
    modeOf exEnum pos ≠ some .skip := ⟨_, rfl, exEnum_legal, by decide, by decide⟩

/-- The hypotheses of `every_accessor_has_a_field`, `accessors_are_numbered` and `struct_names_differ`. -/
example : ∃ o a b, generate exStruct = some o ∧ Legal exStruct ∧ o.accessors[0]? = some a ∧ o.accessors[2]? = some b ∧
    a ∈ o.accessors := ⟨_, _, _, rfl, exStruct_legal, rfl, rfl, List.mem_cons_self⟩

/-- The hypotheses of `numbers_agree`. -/
example : ∃ o, generate exEnum = some o ∧ SameShape exEnum.body (.enum [[.leaf, .leaf, .leaf], [.leaf, .leaf]]) ∧
    (∀ p ∈ declared exEnum, (fun (_ : Ty) v i => decide (v = 0 ∧ i = 1)) Ty.leaf p.tag p.index = true ↔
      modeOf exEnum p.field = some .skip) := ⟨_, rfl, by simp [SameShape, exEnum], by decide⟩

/-- The hypotheses of `enum_names_differ_partial` and `enum_hides_no_method`. -/
example : ∃ o vs, exEnum.body = .enum vs ∧ generate exEnum = some o ∧ (∀ v ∈ vs, '_' ∉ v.name) ∧
    (∀ v ∈ vs, ∃ c r, v.name = c :: r ∧ c.isUpper = true) ∧ "borrow_opt".toList ∈ pathMethods :=
  ⟨_, _, rfl, rfl, by decide, by
    intro v hv
    simp only [List.mem_cons, List.not_mem_nil, or_false] at hv
    rcases hv with rfl | rfl <;> exact ⟨'V', _, rfl, by decide⟩, by decide⟩

/-- The hypotheses of `module_types_differ_partial`: both types in one module. -/
example : ∃ o1 o2, generate exStruct = some o1 ∧ generate exEnum = some o2 ∧
    (["MyStruct".toList, "MyEnum".toList] ++ [(exStruct, o1), (exEnum, o2)].flatMap fun x => x.2.types).Nodup := by
  refine ⟨_, _, rfl, rfl, module_types_differ_partial _ _ ?_ (by decide) (by decide) ?_ (by decide) ?_⟩
  · intro x hx
    simp only [List.mem_cons, List.not_mem_nil, or_false] at hx
    rcases hx with rfl | rfl
    · exact ⟨exStruct_legal, rfl⟩
    · exact ⟨exEnum_legal, rfl⟩
  · intro x hx
    simp only [List.mem_cons, List.not_mem_nil, or_false] at hx
    rcases hx with rfl | rfl
    · refine ⟨by decide, by decide, fun vs h => by cases h⟩
    · refine ⟨by decide, by decide, fun vs h => ?_⟩
      cases h; decide
  · intro n hn
    simp only [List.mem_cons, List.not_mem_nil, or_false] at hn
    rcases hn with rfl | rfl
    · refine ⟨by decide, fun x h => ?_⟩
      have := congrArg List.reverse h
      rw [List.reverse_append] at this
      have := congrArg List.head? this
      simp at this
    · refine ⟨by decide, fun x h => ?_⟩
      have := congrArg List.reverse h
      rw [List.reverse_append] at this
      have := congrArg List.head? this
      simp at this

/-! ## What goes wrong -/

/-- `enum E { A { b_c: u8 }, A_b { c: u8 } }` -/
def exClash : Item where
  attrs := []
  name := "E".toList
  remote := "E".toList
  body := .enum [⟨[], "A".toList, [fld "b_c"]⟩, ⟨[], "A_b".toList, [fld "c"]⟩]

/-- Two accessors of one enum can have the same name, `A_b_c`: the generated code does not compile. -/
theorem enum_names_can_clash :
    ∃ it o, Legal it ∧ generate it = some o ∧ ¬ (o.accessors.map Accessor.name).Nodup :=
  ⟨exClash, _, by unfold Legal exClash FieldsOk; decide, rfl, by decide⟩

/-- The condition of `enum_names_differ_iff` for this enum. -/
example : ∃ p ∈ tracked exClash, ∃ q ∈ tracked exClash, ∃ v x, p.variant = some v ∧ q.variant = some (v ++ '_' :: x) ∧
    p.label = x ++ '_' :: q.label :=
  ⟨⟨0, some "A".toList, 0, fld "b_c"⟩, by decide, ⟨1, some "A_b".toList, 0, fld "c"⟩, by decide, "A".toList, "b".toList,
    rfl, by decide, by decide⟩

/-- `struct A { b_c: u8 }` and `struct A_b { c: u8 }` -/
def exOne : Item := ⟨[], "A".toList, "A".toList, .struct [fld "b_c"]⟩
def exTwo : Item := ⟨[], "A_b".toList, "A_b".toList, .struct [fld "c"]⟩

/-- Two different structs in one module, each of which compiles alone, can need the same generated type,
`Mapper_A_b_c`. -/
theorem types_can_clash :
    ∃ it1 it2 o1 o2, Legal it1 ∧ Legal it2 ∧ it1.name ≠ it2.name ∧ generate it1 = some o1 ∧ generate it2 = some o2 ∧
      o1.types.Nodup ∧ o2.types.Nodup ∧ ∃ t ∈ o1.types, t ∈ o2.types :=
  ⟨exOne, exTwo, _, _, by unfold Legal exOne FieldsOk; decide, by unfold Legal exTwo FieldsOk; decide, by decide, rfl, rfl,
    by decide, by decide, "Mapper_A_b_c".toList, by decide, by decide⟩

/-- A tracked field that is called like a method of paths hides this method: for `struct S { borrow: u8 }`,
`store.build_path().borrow()` is the path to the field. -/
theorem path_methods_can_be_hidden :
    ∃ it o, Legal it ∧ generate it = some o ∧ "borrow".toList ∈ pathMethods ∧ o.call "borrow".toList = .accessor :=
  ⟨⟨[], "S".toList, "S".toList, .struct [fld "borrow"]⟩, _, by unfold Legal FieldsOk; decide, rfl, by decide, by decide⟩

/-- `#[track("skip")]`, `#[track(deep)] #[track(skip)]` and `#[track(skip)]` on a variant are accepted without an error,
and the field is tracked. -/
theorem skip_can_be_overlooked :
    (∀ as : List Attr, as = [.track none] ∨ as = [arg "deep", arg "skip"] →
      ∃ o, generate ⟨[], "S".toList, "S".toList, .struct [fld "a" as]⟩ = some o ∧ o.accessors ≠ []) ∧
    ∃ o, generate ⟨[], "E".toList, "E".toList, .enum [⟨[arg "skip"], "A".toList, [pos]⟩]⟩ = some o ∧ o.accessors ≠ [] := by
  refine ⟨?_, _, rfl, by simp [accessorsFrom]⟩
  rintro as (rfl | rfl)
  · exact ⟨_, rfl, by simp [accessorsFrom]⟩
  · exact ⟨_, rfl, by simp [accessorsFrom]⟩

/-- A misspelt word, a union: errors (`derive_fails_iff`). -/
example : generate ⟨[], "S".toList, "S".toList, .struct [fld "a" [arg "skipped"]]⟩ = none ∧
    generate ⟨[], "U".toList, "U".toList, .union⟩ = none := ⟨rfl, rfl⟩

end Verif.XBow.Derive
