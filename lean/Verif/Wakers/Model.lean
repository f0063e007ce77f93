/-!
# The memory shared by a combinator and its wakers

Model of `async_ui_web_core/src/combinators/utils/wakers/shared_arc.rs`,
`array/waker_array.rs` and `vec/waker_vec.rs`. Paths below are relative to
`async_ui_web_core/src/combinators/utils/wakers/`.

The heap is a list of `Arc` allocations, one per combinator ever created; a freed allocation is
`none`. A raw pointer into a redirect slice is a pair of allocation and index. Every read of freed
memory, read outside of a slice, and `offset_from` between different allocations is an error.

Simplifications: the redirect buffer of the vector version is a separate allocation owned by the
`Arc` content; it is identified with it, since both are freed together. The `Mutex` is left out
(single thread). The list of woken indices is kept as its length; the readiness structure itself is
modelled in `Verif.Comb.Readiness`. When the code wakes the parent's waker from inside `wake`, the
model lets it happen as a separate step (`Src.stored`), which may come at any time.
-/
namespace Verif.Wakers

/-- `*const *const A`: points to slot `idx` of the redirect slice of allocation `blk`
(shared_arc.rs 8-9, 139). -/
structure Ptr where
  blk : Nat
  idx : Nat
deriving DecidableEq

/-- `ArcInner<WakerArrayInner>` or `ArcInner<WakerVecInner>`: waker_array.rs 17-20, waker_vec.rs
16-19, array/readiness.rs 5-15. A parent waker that is not one of our wakers (dummy or executor)
is `none`. -/
structure Block where
  strong : Nat
  redirect : List Nat
  awake : List Bool
  awakeLen : Nat
  parent : Option Ptr
deriving DecidableEq

abbrev Heap := List (Option Block)

inductive Err where
  | useAfterFree
  | outOfBounds
  | badOffset
  | fuel
deriving DecidableEq

/-- Access to the content of an `Arc` through a raw pointer. -/
def blockAt (H : Heap) (raw : Nat) : Except Err Block :=
  match H[raw]? with
  | some (some b) => .ok b
  | _ => .error .useAfterFree

/-- `*pointer`: shared_arc.rs 79, 91, 110. -/
def slot (H : Heap) (p : Ptr) : Except Err Nat :=
  match blockAt H p.blk with
  | .error e => .error e
  | .ok b =>
    match b.redirect[p.idx]? with
    | some raw => .ok raw
    | none => .error .outOfBounds

/-- `Arc::increment_strong_count` and `Arc::clone`. -/
def arcClone (H : Heap) (raw : Nat) : Except Err Heap :=
  match blockAt H raw with
  | .error e => .error e
  | .ok b => .ok (H.set raw (some { b with strong := b.strong + 1 }))

/-- `Arc::decrement_strong_count` and the drop of an `Arc`. When the count reaches zero the content
is dropped, which drops the parent waker kept in it (through `drop_waker` if it is one of ours), and
the allocation is freed. The recursion follows the chain of parent wakers. -/
def arcDrop : Nat → Heap → Nat → Except Err Heap
  | 0, _, _ => .error .fuel
  | f + 1, H, raw =>
    match blockAt H raw with
    | .error e => .error e
    | .ok b =>
      if b.strong = 1 then
        match b.parent with
        | none => .ok (H.set raw none)
        | some q =>
          match slot (H.set raw none) q with
          | .error e => .error e
          | .ok raw' => arcDrop f (H.set raw none) raw'
      else .ok (H.set raw (some { b with strong := b.strong - 1 }))

/-- `clone_waker`, shared_arc.rs 71-82. The new waker has the same pointer. -/
def cloneWaker (H : Heap) (p : Ptr) : Except Err (Heap × Ptr) :=
  match slot H p with
  | .error e => .error e
  | .ok raw =>
    match arcClone H raw with
    | .error e => .error e
    | .ok H' => .ok (H', p)

/-- `wake_index` and `Readiness::wake` up to the wake-up of the parent: waker_array.rs 56-58,
array/readiness.rs 32-44, vec/readiness.rs 30-42 (of that file). -/
def wakeIndex (b : Block) (index : Nat) : Except Err Block :=
  match b.awake[index]? with
  | none => .error .outOfBounds
  | some true => .ok b
  | some false => .ok { b with awake := b.awake.set index true, awakeLen := b.awakeLen + 1 }

/-- `wake_by_ref`, shared_arc.rs 86-101. `slice_start` is slot 0 of the allocation `raw`. -/
def wakeByRef (H : Heap) (p : Ptr) : Except Err Heap :=
  match slot H p with
  | .error e => .error e
  | .ok raw =>
    match blockAt H raw with
    | .error e => .error e
    | .ok b =>
      if p.blk ≠ raw then .error .badOffset else
      match wakeIndex b (p.idx - 0) with
      | .error e => .error e
      | .ok b' => .ok (H.set raw (some b'))

/-- `drop_waker`, shared_arc.rs 105-113. -/
def dropWaker (H : Heap) (p : Ptr) : Except Err Heap :=
  match slot H p with
  | .error e => .error e
  | .ok raw => arcDrop (H.length + 1) H raw

/-- `wake`, shared_arc.rs 117-123. -/
def wake (H : Heap) (p : Ptr) : Except Err Heap :=
  match wakeByRef H p with
  | .error e => .error e
  | .ok H' => dropWaker H' p

/-- `waker_from_redirect_position`, shared_arc.rs 134-149, called with a clone of the `Arc`
(waker_array.rs 35); the clone is forgotten. -/
def wakerFromRedirect (H : Heap) (inner : Nat) (index : Nat) : Except Err (Heap × Ptr) :=
  match arcClone H inner with
  | .error e => .error e
  | .ok H' => .ok (H', ⟨inner, 0 + index⟩)

def wakersFrom (inner : Nat) : Heap → List Nat → Except Err (Heap × List Ptr)
  | H, [] => .ok (H, [])
  | H, i :: is =>
    match wakerFromRedirect H inner i with
    | .error e => .error e
    | .ok (H', p) =>
      match wakersFrom inner H' is with
      | .error e => .error e
      | .ok (H'', ps) => .ok (H'', p :: ps)

/-- `WakerArray` (waker_array.rs 11-14) and `WakerVec` (waker_vec.rs 10-13). -/
structure Set where
  wakers : List Ptr
  inner : Nat
deriving DecidableEq

/-- `WakerArray::new` (waker_array.rs 24-38), `WakerVec::new` (waker_vec.rs 23-39). The content is
built by `new_cyclic` with `n` copies of the pointer to itself. -/
def newSet (H : Heap) (n : Nat) : Except Err (Heap × Set) :=
  let raw := H.length
  let H1 := H ++ [some ⟨1, List.replicate n raw, List.replicate n true, n, none⟩]
  match wakersFrom raw H1 (List.range n) with
  | .error e => .error e
  | .ok (H2, ws) => .ok (H2, ⟨ws, raw⟩)

def dropWakers : Heap → List Ptr → Except Err Heap
  | H, [] => .ok H
  | H, p :: ps =>
    match dropWaker H p with
    | .error e => .error e
    | .ok H' => dropWakers H' ps

/-- Drop of `WakerArray`/`WakerVec`: fields in order of declaration (waker_array.rs 12-13). -/
def dropSet (H : Heap) (s : Set) : Except Err Heap :=
  match dropWakers H s.wakers with
  | .error e => .error e
  | .ok H' => arcDrop (H'.length + 1) H' s.inner

/-- `readiness()`, `set_parent_waker` and `clear` at the beginning of a poll: common/array.rs
134-149, array/readiness.rs 26-31, 49-62. `w = none` is a waker of some other kind. -/
def pollSet (H : Heap) (s : Set) (w : Option Ptr) : Except Err Heap :=
  match blockAt H s.inner with
  | .error e => .error e
  | .ok b =>
    let cleared (b : Block) : Block :=
      { b with awake := List.replicate b.awake.length false, awakeLen := 0 }
    if b.parent = w ∧ w ≠ none then .ok (H.set s.inner (some (cleared b)))
    else
      -- `waker.to_owned()`, then the assignment drops the old value
      match (match w with
        | none => Except.ok H
        | some p => match cloneWaker H p with
          | .error e => .error e
          | .ok (H', _) => .ok H') with
      | .error e => .error e
      | .ok H1 =>
        match blockAt H1 s.inner with
        | .error e => .error e
        | .ok b1 =>
          let H2 := H1.set s.inner (some { cleared b1 with parent := w })
          match b.parent with
          | none => .ok H2
          | some q => dropWaker H2 q

/-- What a program can hold: the wakers of combinators that exist, owned clones, and the waker a
combinator keeps of its own task. -/
structure State where
  heap : Heap
  sets : List (Option Set)
  handles : List (Option Ptr)

def init : State := ⟨[], [], []⟩

/-- A waker that can be used by reference. -/
inductive Src where
  /-- an owned waker -/
  | handle (h : Nat)
  /-- the waker passed to subfuture `i` of combinator `c` in `cx` -/
  | own (c i : Nat)
  /-- the waker kept in the readiness structure of combinator `c`, which the code wakes -/
  | stored (c : Nat)
deriving DecidableEq

inductive Op where
  | new (n : Nat)
  | clone (s : Src)
  | wakeByRef (s : Src)
  | wake (h : Nat)
  | drop (h : Nat)
  | poll (c : Nat) (w : Option Src)
  | dropSet (c : Nat)
deriving DecidableEq

def Src.ptr (s : State) : Src → Option Ptr
  | .handle h => (s.handles[h]?).join
  | .own c i => (s.sets[c]?).join.bind (·.wakers[i]?)
  | .stored c => (s.heap[c]?).join.bind (·.parent)

/-- One operation. `none`: a program cannot do this (the waker or combinator does not exist any
more); `some (.error _)`: undefined behaviour or a panic. -/
def step (s : State) : Op → Option (Except Err State)
  | .new n =>
    match newSet s.heap n with
    | .error e => some (.error e)
    | .ok (H, x) => some (.ok { s with heap := H, sets := s.sets ++ [some x] })
  | .clone src =>
    match src.ptr s with
    | none => none
    | some p =>
      match cloneWaker s.heap p with
      | .error e => some (.error e)
      | .ok (H, q) => some (.ok { s with heap := H, handles := s.handles ++ [some q] })
  | .wakeByRef src =>
    match src.ptr s with
    | none => none
    | some p =>
      match wakeByRef s.heap p with
      | .error e => some (.error e)
      | .ok H => some (.ok { s with heap := H })
  | .wake h =>
    match (s.handles[h]?).join with
    | none => none
    | some p =>
      match wake s.heap p with
      | .error e => some (.error e)
      | .ok H => some (.ok { s with heap := H, handles := s.handles.set h none })
  | .drop h =>
    match (s.handles[h]?).join with
    | none => none
    | some p =>
      match dropWaker s.heap p with
      | .error e => some (.error e)
      | .ok H => some (.ok { s with heap := H, handles := s.handles.set h none })
  | .poll c w =>
    match (s.sets[c]?).join, w with
    | none, _ => none
    | some x, none =>
      match pollSet s.heap x none with
      | .error e => some (.error e)
      | .ok H => some (.ok { s with heap := H })
    | some x, some src =>
      match src.ptr s with
      | none => none
      | some p =>
        match pollSet s.heap x (some p) with
        | .error e => some (.error e)
        | .ok H => some (.ok { s with heap := H })
  | .dropSet c =>
    match (s.sets[c]?).join with
    | none => none
    | some x =>
      match dropSet s.heap x with
      | .error e => some (.error e)
      | .ok H => some (.ok { s with heap := H, sets := s.sets.set c none })

/-- `Run ops s`: the operations, newest first, lead to `s` without an error. -/
inductive Run : List Op → State → Prop
  | nil : Run [] init
  | cons {ops s op s'} : Run ops s → step s op = some (.ok s') → Run (op :: ops) s'

end Verif.Wakers
