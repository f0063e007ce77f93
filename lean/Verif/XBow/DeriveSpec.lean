import Verif.XBow.Derive
/-!
# What `#[derive(Trackable)]` is documented to do (x-bow/src/lib.rs 230-340)
-/
namespace Verif.XBow.Derive
open Verif.XBow.Data

/-- The rules of the language for the fields of a struct or variant: either none has a name or all have
different names. -/
def FieldsOk (fs : List Field) : Prop :=
  (∀ f ∈ fs, f.name = none) ∨ ((∀ f ∈ fs, f.name ≠ none) ∧ (fs.map Field.name).Nodup)

/-- The rules of the language for the item. -/
def Legal (it : Item) : Prop :=
  match it.body with
  | .struct fs => FieldsOk fs
  | .enum vs => (vs.map Variant.name).Nodup ∧ ∀ v ∈ vs, FieldsOk v.fields
  | .union => True

/-- A field with its place: the index of its variant (0 in a struct), the name of its variant, and its index
in there. -/
structure Place where
  tag : Nat
  variant : Option Ident
  index : Nat
  field : Field
deriving DecidableEq

/-- All fields of the item in the order of their declaration. -/
def declared (it : Item) : List Place :=
  match it.body with
  | .struct fs => fs.zipIdx.map fun p => ⟨0, none, p.2, p.1⟩
  | .enum vs => vs.zipIdx.flatMap fun q => q.1.fields.zipIdx.map fun p => ⟨q.2, some q.1.name, p.2, p.1⟩
  | .union => []

/-- The first attribute `track`. -/
def firstTrack (as : List Attr) : Option (Option Ident) :=
  as.findSome? fun a => match a with | .track x => some x | .other => none

/-- The meaning of one attribute `track`. -/
def reads : Option Ident → Option Mode
  | none => some .shallow
  | some x =>
    if x = "shallow".toList then some .shallow
    else if x = "deep".toList then some .deep
    else if x = "skip".toList then some .skip
    else none

/-- How a field is tracked: as its own attribute says, otherwise as the attribute of the item says, otherwise
not deeply. `none` if that is not understood. -/
def modeOf (it : Item) (f : Field) : Option Mode :=
  match firstTrack f.attrs, firstTrack it.attrs with
  | some a, _ => reads a
  | none, some a => reads a
  | none, none => some .shallow

/-- The fields that are tracked. -/
def tracked (it : Item) : List Place :=
  (declared it).filter fun p => modeOf it p.field ≠ some .skip

/-- The layer of a path that leads to this place. -/
def Place.layer (p : Place) : Layer :=
  match p.variant with
  | none => .field p.index
  | some _ => .variant p.tag p.index

/-- What a field is called in a documented accessor: its name, or its number. -/
def Place.label (p : Place) : Ident :=
  match p.field.name with
  | some n => n
  | none => Nat.toDigits 10 p.index

/-- The documented name of an accessor: `field`, `t0`, `Variant_field`, `Variant_0`. -/
def Place.accessor (p : Place) : Ident :=
  match p.variant, p.field.name with
  | none, some n => n
  | none, none => 't' :: p.label
  | some v, _ => v ++ '_' :: p.label

end Verif.XBow.Derive
