import Verif.XBow.Data
/-!
# x-bow-macros: what `#[derive(Trackable)]` generates

Model of `x-bow-macros/src/attributes.rs` and of the part of `x-bow-macros/src/generate.rs` that decides
which accessors there are, how they are called, where they point to and which types are generated.
Identifiers are lists of characters.

Simplified: generics, where clauses and `#[x_bow(bound = ..)]` (generate.rs 125-163) are left out; the
remote type of `#[x_bow(remote_type = ..)]` (lib.rs 49-68) is given by the last segment of its path and has
the same variants and fields as the item. `r#` is not part of an identifier.
-/
namespace Verif.XBow.Derive
open Verif.XBow.Data

abbrev Ident := List Char

/-- An attribute of the item or of a field. `track (some x)` is `#[track(x)]` with an identifier `x`; `track
none` is an attribute `track` whose arguments are not one identifier (`#[track]`, `#[track = ..]`,
`#[track("skip")]`, `#[track(skip, deep)]`): there `parse_args::<Ident>` fails. -/
inductive Attr
  | track (arg : Option Ident)
  | other
deriving DecidableEq

/-- A field of a struct or of a variant; without a name in tuple structs and tuple variants. -/
structure Field where
  attrs : List Attr
  name : Option Ident
  isPub : Bool
deriving DecidableEq

structure Variant where
  attrs : List Attr
  name : Ident
  fields : List Field
deriving DecidableEq

inductive Body
  | struct (fields : List Field)
  | enum (variants : List Variant)
  | union

/-- `DeriveInput`; `remote` is the name of the type itself unless `remote_type` is given. -/
structure Item where
  attrs : List Attr
  name : Ident
  remote : Ident
  body : Body

/-- `TrackMode`, attributes.rs 13-18. -/
inductive Mode
  | deep
  | shallow
  | skip
deriving DecidableEq

/-- `TrackMode::from_attributes`, attributes.rs 21-40; `none` for `Err`. -/
def fromAttributes : List Attr → Mode → Option Mode
  | [], dflt => some dflt
  | .other :: as, dflt => fromAttributes as dflt
  | .track (some x) :: _, _ =>
    if x = "deep".toList then some .deep
    else if x = "skip".toList then some .skip
    else if x = "shallow".toList then some .shallow
    else none
  | .track none :: _, _ => some .shallow

/-- `ToGenField`, generate.rs 12-24. -/
inductive ToGen
  | struct (field : Field) (index : Nat) (deep : Bool)
  | enum (variant : Variant) (field : Field) (index : Nat) (deep : Bool)

/-- `to_name`, generate.rs 26-43. -/
def ToGen.toName : ToGen → Ident
  | .struct f i _ =>
    match f.name with
    | some n => n
    | none => 't' :: Nat.toDigits 10 i
  | .enum v f i _ =>
    match f.name with
    | some n => v.name ++ '_' :: n
    | none => v.name ++ '_' :: Nat.toDigits 10 i

/-- `is_deep`, generate.rs 44-49. -/
def ToGen.isDeep : ToGen → Bool
  | .struct _ _ d => d
  | .enum _ _ _ d => d

/-- `field`, generate.rs 50-55. -/
def ToGen.field : ToGen → Field
  | .struct f _ _ => f
  | .enum _ f _ _ => f

/-- `syn::Member`. -/
inductive Member
  | named (n : Ident)
  | pos (i : Nat)

/-- `get_field_member`, utils.rs 29-34. -/
def getFieldMember (name : Option Ident) (index : Nat) : Member :=
  match name with
  | some n => .named n
  | none => .pos index

/-- The language: which field `value.member` is. -/
def Member.resolve (fs : List Field) : Member → Option Nat
  | .named n => fs.findIdx? fun f => f.name = some n
  | .pos i => if i < fs.length then some i else none

/-- `access`, generate.rs 56-112: the layer of a path that the generated code is. A field of a struct is
`input.member`; a field of a variant is matched by `Type::Variant { name, .. }`, or by `Type::Variant(_, .., _,
data, ..)` with as many `_` as the index says. `none` if there is no such variant or field. -/
def ToGen.access (b : Body) : ToGen → Option Layer
  | .struct f i _ =>
    match b with
    | .struct fs => ((getFieldMember f.name i).resolve fs).map .field
    | _ => none
  | .enum v f i _ =>
    match b with
    | .enum vs =>
      (vs.findIdx? fun w => w.name = v.name).bind fun tag =>
        match f.name with
        | some n => ((Member.named n).resolve ((vs[tag]?.map Variant.fields).getD [])).map (.variant tag)
        | none =>
          ((Member.pos (List.replicate i '_').length).resolve ((vs[tag]?.map Variant.fields).getD [])).map
            (.variant tag)
    | _ => none

/-- The loops of generate.rs 176-188 and 193-206: the fields that are not skipped. -/
def collect (mk : Field → Nat → Bool → ToGen) (dflt : Mode) : Nat → List Field → Option (List ToGen)
  | _, [] => some []
  | i, f :: fs =>
    match fromAttributes f.attrs dflt with
    | none => none
    | some .skip => collect mk dflt (i + 1) fs
    | some .deep => (collect mk dflt (i + 1) fs).map (mk f i true :: ·)
    | some .shallow => (collect mk dflt (i + 1) fs).map (mk f i false :: ·)

/-- The loop over the variants, generate.rs 192. -/
def collectVariants (dflt : Mode) : List Variant → Option (List ToGen)
  | [] => some []
  | v :: vs =>
    match collect (.enum v) dflt 0 v.fields with
    | none => none
    | some gs => (collectVariants dflt vs).map (gs ++ ·)

/-- `filtered_fields`, generate.rs 167-215; `none` for `Err`. -/
def filteredFields (it : Item) : Option (List ToGen) :=
  match fromAttributes it.attrs .shallow with
  | none => none
  | some dflt =>
    match it.body with
    | .struct fs => collect .struct dflt 0 fs
    | .enum vs => collectVariants dflt vs
    | .union => none

/-- `is_struct`, generate.rs 170, 174, 191. -/
def Item.isStruct (it : Item) : Bool :=
  match it.body with
  | .struct _ => true
  | _ => false

/-- A mapper together with the method of the path builder that makes it, generate.rs 224-317. -/
structure Accessor where
  /-- the method of the path builder, generate.rs 311 -/
  name : Ident
  /-- the type of the path, generate.rs 226 -/
  mapper : Ident
  /-- what `visit_hashes` writes, generate.rs 283 -/
  number : Nat
  /-- `path_borrow` and `path_borrow_mut`, generate.rs 268-278 -/
  layer : Option Layer
  /-- the method returns the path builder of the field's own type, generate.rs 305-309 -/
  deep : Bool
  /-- `PathExtGuaranteed` if the parent has it, generate.rs 239-245 -/
  guaranteed : Bool
  /-- generate.rs 246-250 -/
  isPub : Bool

structure Output where
  builder : Ident
  accessors : List Accessor

/-- The body of the loop of generate.rs 224-317. -/
def accessorOf (it : Item) (k : Nat) (g : ToGen) : Accessor where
  name := g.toName
  mapper := "Mapper_".toList ++ it.remote ++ '_' :: g.toName
  number := k
  layer := g.access it.body
  deep := g.isDeep
  guaranteed := it.isStruct
  isPub := if it.isStruct then g.field.isPub else true

/-- The loop of generate.rs 224-317. -/
def accessorsFrom (it : Item) : Nat → List ToGen → List Accessor
  | _, [] => []
  | k, g :: gs => accessorOf it k g :: accessorsFrom it (k + 1) gs

/-- `generate`, generate.rs 115-369; `none` for `Err`. -/
def generate (it : Item) : Option Output :=
  match filteredFields it with
  | none => none
  | some gs => some { builder := it.name ++ "PathBuilder".toList, accessors := accessorsFrom it 0 gs }

/-- The types that are generated for one item, in the module of the item: generate.rs 255 and 324. -/
def Output.types (o : Output) : List Ident := o.builder :: o.accessors.map Accessor.mapper

/-- The methods of the traits that every path has: path.rs 25-44, path_ext.rs 56-479, guarantee.rs 20-52. -/
def pathMethods : List Ident :=
  ["path_borrow", "path_borrow_mut", "visit_hashes", "store_wakers",
   "borrow_opt", "borrow_opt_mut", "borrow_opt_mut_without_notifying", "notify_changed", "get_opt", "set_opt",
   "until_change", "signal_stream", "for_each", "for_each_async", "bind_for_each", "until_bubbling_change",
   "build_path", "as_ref_path",
   "borrow", "borrow_mut", "borrow_mut_without_notifying", "get", "set"].map String.toList

/-- What a method call on a path builder is. -/
inductive Call
  /-- a generated method -/
  | accessor
  /-- a method of the traits of the builder itself -/
  | builder
  /-- a method of the path inside -/
  | path
  /-- it does not compile -/
  | missing
deriving DecidableEq

/-- The language: `builder.m()` looks at the methods of the builder first (generate.rs 346-348), then at
its traits (`IntoPath`, generate.rs 322-323; `Clone`, 330-336), and only then at the type it dereferences to
(339-344), the path. -/
def Output.call (o : Output) (m : Ident) : Call :=
  if m ∈ o.accessors.map Accessor.name then .accessor
  else if m = "into_path".toList ∨ m = "clone".toList then .builder
  else if m ∈ pathMethods then .path
  else .missing

end Verif.XBow.Derive
