/-!
# x-bow: paths into the data of a store

Model of the borrowing half of `x-bow` paths: `path_borrow` and `path_borrow_mut` of every kind of
path. The data of a store is a tree; a path is the list of its layers from the root. A mutable borrow
(`RefMut`) is the part it points to together with the function that puts a new part back.

Not modelled here: the flag of the `RefCell` that holds the data (a second borrow panics, as
documented).
-/
namespace Verif.XBow.Data

inductive Data
  /-- primitive types and everything that is not tracked further -/
  | leaf (n : Nat)
  /-- structs and tuples -/
  | struct (fields : List Data)
  /-- enums (also `Option`): the variant and its fields -/
  | enum (tag : Nat) (fields : List Data)
  | vec (items : List Data)
  | map (entries : List (Nat × Data))
  /-- `Box`, `String` -/
  | box (content : Data)
  /-- `Rc`; `shared` if there are other handles to it -/
  | rc (shared : Bool) (content : Data)

/-- One layer of a path. -/
inductive Layer
  /-- generated mapper for a struct field, x-bow-macros/src/generate.rs 63-76 -/
  | field (i : Nat)
  /-- generated mapper for a field of an enum variant, generate.rs 77-110 -/
  | variant (tag i : Nat)
  /-- `VecIndexMapper`, vec.rs 81-103 -/
  | index (i : Nat)
  /-- `HashMapKeyMapper`, hash_map.rs 95-119 -/
  | key (k : Nat)
  /-- `TransparentDerefMapper`, transparent.rs 36-57 -/
  | deref
  /-- `RcMapper`, rc.rs 60-80 -/
  | rcContent
deriving DecidableEq

/-- `HashMap::get`. -/
def lookupKey (k : Nat) : List (Nat × Data) → Option Data
  | [] => none
  | (k', d) :: es => if k' = k then some d else lookupKey k es

/-- `HashMap::get_mut` and writing through it. -/
def replaceKey (k : Nat) (v : Data) : List (Nat × Data) → List (Nat × Data)
  | [] => []
  | (k', d) :: es => if k' = k then (k', v) :: es else (k', d) :: replaceKey k v es

/-- The closure of one layer in `path_borrow`: generate.rs 63-110 without `mut`, vec.rs 84-88,
hash_map.rs 98-102, transparent.rs 39-41, rc.rs 63-65. Layers that do not fit the data do not pass
Rust's type checker. -/
def borrow1 : Layer → Data → Option Data
  | .field i, .struct fs => fs[i]?
  | .variant tag i, .enum t fs => if t = tag then fs[i]? else none
  | .index i, .vec xs => xs[i]?
  | .key k, .map es => lookupKey k es
  | .deref, .box d => some d
  | .rcContent, .rc _ d => some d
  | _, _ => none

/-- The closure of one layer in `path_borrow_mut`: generate.rs 63-110 with `mut`, vec.rs 89-93,
hash_map.rs 104-108, transparent.rs 43-47, rc.rs 66-70 (`Rc::get_mut`). -/
def borrowMut1 : Layer → Data → Option (Data × (Data → Data))
  | .field i, .struct fs => fs[i]?.map fun d => (d, fun v => .struct (fs.set i v))
  | .variant tag i, .enum t fs =>
    if t = tag then fs[i]?.map fun d => (d, fun v => .enum t (fs.set i v)) else none
  | .index i, .vec xs => xs[i]?.map fun d => (d, fun v => .vec (xs.set i v))
  | .key k, .map es => (lookupKey k es).map fun d => (d, fun v => .map (replaceKey k v es))
  | .deref, .box d => some (d, fun v => .box v)
  | .rcContent, .rc shared d => if shared then none else some (d, fun v => .rc false v)
  | _, _ => none

/-- `path_borrow`: every layer asks its parent first; store.rs 93-95 for the root. `Rc<dyn Path>`,
`Box<dyn Path>` and `ReferencePath` (path_impl.rs) only delegate. -/
def pathBorrow : List Layer → Data → Option Data
  | [], d => some d
  | l :: p, d => (borrow1 l d).bind (pathBorrow p)

/-- `path_borrow_mut`, store.rs 97-99 for the root. -/
def pathBorrowMut : List Layer → Data → Option (Data × (Data → Data))
  | [], d => some (d, id)
  | l :: p, d =>
    match borrowMut1 l d with
    | none => none
    | some (d1, put1) =>
      match pathBorrowMut p d1 with
      | none => none
      | some (x, put) => some (x, fun v => put1 (put v))

/-- `set_opt`, path_ext.rs 142-153: the data of the store afterwards, `none` for `Err`. Also
`*path.borrow_mut() = v` (guarantee.rs 52-57). -/
def setOpt (p : List Layer) (v d : Data) : Option Data :=
  match pathBorrowMut p d with
  | some (_, put) => some (put v)
  | none => none

/-- `get_opt`, path_ext.rs 132-137. -/
def getOpt (p : List Layer) (d : Data) : Option Data := pathBorrow p d

/-! ## Types -/

inductive Ty
  | leaf
  | struct (fields : List Ty)
  | enum (variants : List (List Ty))
  | vec (item : Ty)
  | map (item : Ty)
  | box (content : Ty)
  | rc (content : Ty)

/-- Data of a type. -/
inductive HasTy : Data → Ty → Prop
  | leaf (n) : HasTy (.leaf n) .leaf
  | struct {fs ts} : fs.length = ts.length →
      (∀ (i : Nat) (d : Data) (t : Ty), fs[i]? = some d → ts[i]? = some t → HasTy d t) →
      HasTy (.struct fs) (.struct ts)
  | enum {tag fs vs ts} : vs[tag]? = some ts → fs.length = ts.length →
      (∀ (i : Nat) (d : Data) (t : Ty), fs[i]? = some d → ts[i]? = some t → HasTy d t) →
      HasTy (.enum tag fs) (.enum vs)
  | vec {xs t} : (∀ d ∈ xs, HasTy d t) → HasTy (.vec xs) (.vec t)
  | map {es t} : (∀ e ∈ es, HasTy e.2 t) → HasTy (.map es) (.map t)
  | box {d t} : HasTy d t → HasTy (.box d) (.box t)
  | rc {s d t} : HasTy d t → HasTy (.rc s d) (.rc t)

/-- `Path::Out` of one layer above a type. -/
def out1 : Layer → Ty → Option Ty
  | .field i, .struct ts => ts[i]?
  | .variant tag i, .enum vs => vs[tag]?.bind fun ts => ts[i]?
  | .index _, .vec t => some t
  | .key _, .map t => some t
  | .deref, .box t => some t
  | .rcContent, .rc t => some t
  | _, _ => none

/-- `Path::Out`; `none` if the path does not type check. -/
def outTy : List Layer → Ty → Option Ty
  | [], t => some t
  | l :: p, t => (out1 l t).bind (outTy p)

/-- The path implements `PathExtGuaranteed`: the root (store.rs 109), struct fields (generate.rs
239-245) and `TransparentDerefMapper` (transparent.rs 59-62) above such paths. -/
def guaranteed : List Layer → Bool
  | [] => true
  | .field _ :: p => guaranteed p
  | .deref :: p => guaranteed p
  | _ :: _ => false

end Verif.XBow.Data
