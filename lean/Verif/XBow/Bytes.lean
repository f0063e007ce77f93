import Verif.XBow.Data
/-!
# x-bow: what a path writes to the hasher

Model of the writing half of `visit_hashes` of every kind of path, and of the numbers that
`#[derive(Trackable)]` gives to fields (`x-bow-macros/src/generate.rs`). The hasher (SipHash) is not
modelled: what it gets is a list of bytes.

`w` is the size of `usize` in bytes (4 on wasm32). How a map key is hashed is up to the key's type:
`enc k` is what `key.hash(hasher)` writes. `skip t v i` says that field `i` of variant `v` of the type
`t` has the attribute `#[track(skip)]` (`attributes.rs 20-40`).
-/
namespace Verif.XBow.Data

/-- `Hasher::write_usize`, little endian, `w` bytes. -/
def leBytes : Nat → Nat → List Nat
  | 0, _ => []
  | w + 1, n => n % 256 :: leBytes w (n / 256)

/-- `filtered_fields`, generate.rs 174-207: the fields that are not skipped, as (variant, index); for an
enum variant by variant. -/
def slots (skip : Ty → Nat → Nat → Bool) (t : Ty) : List (Nat × Nat) :=
  match t with
  | .struct ts => ((List.range ts.length).map fun i => (0, i)).filter fun s => !skip t s.1 s.2
  | .enum vs =>
    ((List.range vs.length).flatMap fun v =>
      (List.range (vs[v]?.getD []).length).map fun i => (v, i)).filter fun s => !skip t s.1 s.2
  | _ => []

/-- `field_index`, generate.rs 224. -/
def number (skip : Ty → Nat → Nat → Bool) (t : Ty) (v i : Nat) : Nat := (slots skip t).idxOf (v, i)

/-- What one layer above the type `t` writes: generate.rs 281-285, vec.rs 95-99, hash_map.rs 110-114,
transparent.rs 48-53, rc.rs 72-76. -/
def writes (w : Nat) (enc : Nat → List Nat) (skip : Ty → Nat → Nat → Bool) (t : Ty) : Layer → List Nat
  | .field i => leBytes w (number skip t 0 i)
  | .variant tag i => leBytes w (number skip t tag i)
  | .index i => leBytes w i
  | .key k => enc k
  | .deref => [0]
  | .rcContent => [0]

/-- What `visit_hashes` of a path into a store of type `t` has written in the end; every layer asks its
parent first; the root writes nothing (store.rs 101-103). -/
def bytes (w : Nat) (enc : Nat → List Nat) (skip : Ty → Nat → Nat → Bool) : Ty → List Layer → List Nat
  | _, [] => []
  | t, l :: p => writes w enc skip t l ++
    match out1 l t with
    | some u => bytes w enc skip u p
    | none => []

/-- There is a mapper for this layer above the type `t`: fields that are skipped have none (generate.rs
180-189, 196-206); vector indices are of type `usize`. A type has at most as many fields as there are numbers of
type `usize`. -/
def Exists1 (w : Nat) (skip : Ty → Nat → Nat → Bool) (t : Ty) : Layer → Prop
  | .field i => (0, i) ∈ slots skip t ∧ (slots skip t).length ≤ 256 ^ w
  | .variant tag i => (tag, i) ∈ slots skip t ∧ (slots skip t).length ≤ 256 ^ w
  | .index i => i < 256 ^ w
  | _ => True

/-- The path type checks, starting from a store of type `t`. -/
def Valid (w : Nat) (skip : Ty → Nat → Nat → Bool) : Ty → List Layer → Prop
  | _, [] => True
  | t, l :: p => Exists1 w skip t l ∧ ∃ u, out1 l t = some u ∧ Valid w skip u p

/-- The documented requirement on `Hash` (prefix freedom), with no two keys hashed in the same way, and
at least one byte written. -/
structure KeysTellApart (enc : Nat → List Nat) : Prop where
  prefixFree : ∀ k k', enc k <+: enc k' → k = k'
  something : ∀ k, enc k ≠ []

end Verif.XBow.Data
