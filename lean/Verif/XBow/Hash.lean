/-!
# x-bow: keys of paths

Model of `x-bow/src/hash.rs` and of the hashing part of `x-bow/src/hash_visitor.rs`.

A path is the list of its segments below the root of the store. A segment stands for what one layer
of a path writes to the hasher (field index, vector index, map key, ...). The hash function is a
parameter: `hash p` is what the hasher's `finish` returns after the segments of `p` have been written.
-/
namespace Verif.XBow

abbrev Seg := Nat
abbrev Path := List Seg
abbrev Key := BitVec 64

/-- `regular_from`, hash.rs 7-10. -/
def regularFrom (hash : BitVec 64) (depth : BitVec 8) : Key :=
  (hash &&& ~~~(0xFF#64)) ||| depth.setWidth 64

/-- `bubbling_from`, hash.rs 11-15. -/
def bubblingFrom (hash : BitVec 64) : Key := hash ^^^ 0x33b741db0040f7e#64

/-- The `HashVisitor` after `finish_one` has been called for a path: `depth` (hash_visitor.rs 18,
63) is a wrapping byte that counts the calls, one for the root (store.rs 101-103) and one per segment
(for instance vec.rs 95-99, transparent.rs 48-53, generate.rs 281-285). -/
def depthOf (p : Path) : BitVec 8 := BitVec.ofNat 8 (p.length + 1)

/-- `to_regular_key`, hash_visitor.rs 28-30, and line 69. -/
def regularKey (hash : Path → BitVec 64) (p : Path) : Key := regularFrom (hash p) (depthOf p)

/-- `to_bubbling_key`, hash_visitor.rs 31-33, and line 75. -/
def bubblingKey (hash : Path → BitVec 64) (p : Path) : Key := bubblingFrom (hash p)

/-- The paths at which `finish_one` is called by `visit_hashes`, in order: the root, then longer and
longer prefixes up to the path. Every layer calls its parent's `visit_hashes` first. -/
def visited : Path → List Path
  | [] => [[]]
  | a :: p => [] :: (visited p).map (a :: ·)

end Verif.XBow
