/-!
# Which subfutures are awake

Model of `combinators/utils/wakers/array/readiness.rs` and `combinators/utils/wakers/vec/readiness.rs`
(in `async_ui_web_core/src`). The parent waker is kept by the combinator model; here `wake`
only says whether it is woken. `none` = panic (index out of bounds).
-/
namespace Verif.Comb

/-- `ReadinessArray`, `array/readiness.rs:5-15`. -/
structure RArray where
  awakeSet : List Bool
  awakeList : List Nat
  awakeLen : Nat
deriving DecidableEq, Repr

/-- `xs[i] = v` with bounds check. -/
def setAt {α : Type} (xs : List α) (i : Nat) (v : α) : Option (List α) :=
  if i < xs.length then some (xs.set i v) else none

/-- `ReadinessArray::new`, `array/readiness.rs:18-25`. -/
def RArray.new (n : Nat) : RArray := ⟨List.replicate n true, List.range n, n⟩

/-- `ReadinessArray::set_woken`, `array/readiness.rs:32-39`: new state and `was_awake`. -/
def RArray.setWoken (r : RArray) (i : Nat) : Option (RArray × Bool) := do
  let was ← r.awakeSet[i]?
  let set ← setAt r.awakeSet i true
  if was then return (⟨set, r.awakeList, r.awakeLen⟩, true)
  else
    let list ← setAt r.awakeList r.awakeLen i
    return (⟨set, list, r.awakeLen + 1⟩, false)

/-- `ReadinessArray::wake`, `array/readiness.rs:40-44`: new state and "parent is woken". -/
def RArray.wake (r : RArray) (i : Nat) : Option (RArray × Bool) := do
  let (r, was) ← r.setWoken i
  return (r, !was && r.awakeLen == 1)

/-- `ReadinessArray::awake_list`, `array/readiness.rs:45-47`. -/
def RArray.list (r : RArray) : List Nat := r.awakeList.take r.awakeLen

/-- `indices.for_each(|idx| awake_set[idx] = false)` -/
def clearEach (set : List Bool) : List Nat → Option (List Bool)
  | [] => some set
  | i :: is => do
    let set ← setAt set i false
    clearEach set is

/-- `ReadinessArray::clear`, `array/readiness.rs:48-62`. The loop runs over the whole array, not
only over its first `awake_list_len` places. -/
def RArray.clear (r : RArray) : Option RArray :=
  if r.awakeLen < r.awakeSet.length / 64 then
    some ⟨List.replicate r.awakeSet.length false, r.awakeList, 0⟩
  else do
    let set ← clearEach r.awakeSet r.awakeList
    return ⟨set, r.awakeList, 0⟩

/-- `ReadinessVec`, `vec/readiness.rs:7-13`. -/
structure RVec where
  awakeSet : List Bool
  awakeList : List Nat
deriving DecidableEq, Repr

/-- `ReadinessVec::new`, `vec/readiness.rs:16-23`. -/
def RVec.new (n : Nat) : RVec := ⟨List.replicate n true, List.range n⟩

/-- `ReadinessVec::set_woken`, `vec/readiness.rs:30-36`. -/
def RVec.setWoken (r : RVec) (i : Nat) : Option (RVec × Bool) := do
  let was ← r.awakeSet[i]?
  let set ← setAt r.awakeSet i true
  if was then return (⟨set, r.awakeList⟩, true)
  else return (⟨set, r.awakeList ++ [i]⟩, false)

/-- `ReadinessVec::wake`, `vec/readiness.rs:37-41`. -/
def RVec.wake (r : RVec) (i : Nat) : Option (RVec × Bool) := do
  let (r, was) ← r.setWoken i
  return (r, !was && r.awakeList.length == 1)

/-- `ReadinessVec::awake_list`, `vec/readiness.rs:42-44`. -/
def RVec.list (r : RVec) : List Nat := r.awakeList

/-- `ReadinessVec::clear`, `vec/readiness.rs:45-58`. -/
def RVec.clear (r : RVec) : Option RVec :=
  if r.awakeList.length * 64 < r.awakeSet.length then do
    let set ← clearEach r.awakeSet r.awakeList
    return ⟨set, []⟩
  else some ⟨List.replicate r.awakeSet.length false, []⟩

/-- The operations the combinators use. -/
structure Impl where
  σ : Type
  new : Nat → σ
  wake : σ → Nat → Option (σ × Bool)
  list : σ → List Nat
  clear : σ → Option σ

def arrayImpl : Impl := ⟨RArray, RArray.new, RArray.wake, RArray.list, RArray.clear⟩
def vecImpl : Impl := ⟨RVec, RVec.new, RVec.wake, RVec.list, RVec.clear⟩

end Verif.Comb
