import Verif.XBow.Model
import Verif.XBow.Data
/-!
# x-bow: data and subscriptions together

Model of `x-bow/src/path_ext.rs` and of the futures in `x-bow/src/path_ext/`. A store is its data and
its subscriptions. Every operation also reports the operations on the subscriptions that it made.

`enc` gives what a layer of a path writes to the hasher (`visit_hashes` of the mappers); it is
arbitrary, as is `hash`. The futures own nothing but their listener (`UntilChange`), so one is
identified by its path and the number of its listener; `ForEachAsync` also owns the running future.

Not modelled: closures that borrow the store mutably (they panic, as the data is borrowed while they
run), and the `Ref` yielded by `signal_stream` being kept.
-/
namespace Verif.XBow
open Data (Data Layer getOpt setOpt)

structure World where
  sys : Sys
  data : Data
  /-- `ForEachAsync::future` of the future with listener `i`; a future is named by the data it was
  made from -/
  running : Nat → Option Data

/-- What a follower does at a poll. -/
inductive Effect
  | none
  /-- nothing was there to write to -/
  | missing
  /-- the closure was called with this, or not called -/
  | called (d : Option Data)
  /-- `Poll::Pending` of a stream -/
  | pending
  /-- `Poll::Ready` of a stream -/
  | yielded (d : Option Data)
  /-- the future of `for_each_async`: the one dropped by replacement and the one polled -/
  | async (dropped polled : Option Data)
  /-- `Poll::Ready` of a future -/
  | done

inductive WOp
  /-- `until_change`, `until_bubbling_change`, polling and dropping listeners, `notify_changed` -/
  | sub (op : Op)
  /-- a mutable borrow through a path that leaves this value, or `set_opt` -/
  | write (p : List Layer) (v : Data)
  /-- the same with `borrow_opt_mut_without_notifying` -/
  | writeQuietly (p : List Layer) (v : Data)
  /-- poll of a `ForEach` on the path -/
  | pollForEach (p : List Layer) (i : Nat) (w : Waker)
  /-- poll of a `ForEachAsync` on the path; the flag says whether the future polled finishes -/
  | pollForEachAsync (p : List Layer) (i : Nat) (w : Waker) (finishes : Bool)
  /-- poll of a `SignalStream` on the path -/
  | pollSignal (fireImmediately : Bool) (p : List Layer) (i : Nat) (w : Waker)
  /-- poll of a `BindForEach` on the path: what the incoming stream yields, and whether it then ends -/
  | pollBind (p : List Layer) (i : Nat) (w : Waker) (items : List Data) (ends : Bool)

abbrev Trace := List (Op × Out)

/-- Result of an operation. -/
structure Res where
  world : World
  trace : Trace
  effect : Effect

section
variable (hash : Path → BitVec 64) (enc : Layer → Seg)

/-- `first` and the poll of `until_change`: for_each.rs 29-30, for_each_async.rs 42-43,
signal_stream.rs 32-34, bind_for_each.rs 61-62. Both operands of `|` are evaluated. -/
def pollUntilChange (s : Sys) (i : Nat) (w : Waker) : Option (Sys × Trace × Bool × Bool) :=
  match s.listeners[i]? with
  | some (some l) =>
    match step hash s (.poll i w) with
    | some (s', .polled ready) => some (s', [(.poll i w, .polled ready)], !l.hasBeenPolled, ready)
    | _ => none
  | _ => none

/-- `ForEach::poll`, for_each.rs 27-36. -/
def pollForEach (s : World) (p : List Layer) (i : Nat) (w : Waker) : Option Res := do
  let (sys, tr, first, ready) ← pollUntilChange hash s.sys i w
  return ⟨⟨sys, s.data, s.running⟩, tr, .called (if first || ready then getOpt p s.data else none)⟩

/-- `ForEachAsync::poll`, for_each_async.rs 40-55. -/
def pollForEachAsync (s : World) (p : List Layer) (i : Nat) (w : Waker) (finishes : Bool) : Option Res := do
  let (sys, tr, first, ready) ← pollUntilChange hash s.sys i w
  let made := if first || ready then getOpt p s.data else none
  let fut := match made with
    | some d => some d
    | none => s.running i
  let dropped := match made with
    | some _ => s.running i
    | none => none
  let after := if finishes then none else fut
  return ⟨⟨sys, s.data, fun j => if j = i then after else s.running j⟩, tr, .async dropped fut⟩

/-- `SignalStream::poll_next`, signal_stream.rs 27-41. -/
def pollSignal (s : World) (fireImmediately : Bool) (p : List Layer) (i : Nat) (w : Waker) : Option Res := do
  let (sys, tr, first, ready) ← pollUntilChange hash s.sys i w
  return ⟨⟨sys, s.data, s.running⟩, tr,
    if (first && fireImmediately) || ready then .yielded (getOpt p s.data) else .pending⟩

/-- Writing through a mutable borrow: path_ext.rs 102-105 and 142-153; the guard notifies when it is
dropped. -/
def write (s : World) (p : List Layer) (v : Data) : Option (Option (World × Trace)) :=
  match setOpt p v s.data with
  | none => some none
  | some d => do
    let (sys, o) ← step hash s.sys (.change (p.map enc))
    return some (⟨sys, d, s.running⟩, [(.change (p.map enc), o)])

/-- `BindForEach::poll`, bind_for_each.rs 38-69. The loop 43-53 keeps the last item. -/
def pollBind (s : World) (p : List Layer) (i : Nat) (w : Waker) (items : List Data) (ends : Bool) : Option Res :=
  if ends then some ⟨s, [], .done⟩
  else
    match items.getLast? with
    | none => pollForEach hash s p i w
    | some v => do
      match ← write hash enc s p v with
      | none => return ⟨s, [], .done⟩
      | some (s1, tr1) =>
        let (sys, tr2, _, _) ← pollUntilChange hash s1.sys i w
        let r ← pollForEach hash ⟨sys, s1.data, s1.running⟩ p i w
        return ⟨r.world, tr1 ++ tr2 ++ r.trace, r.effect⟩

def wstep (s : World) : WOp → Option Res
  | .sub op => do
    let (sys, o) ← step hash s.sys op
    return ⟨⟨sys, s.data, s.running⟩, [(op, o)], .none⟩
  | .write p v => do
    match ← write hash enc s p v with
    | none => return ⟨s, [], .missing⟩
    | some (s1, tr) => return ⟨s1, tr, .none⟩
  | .writeQuietly p v =>
    match setOpt p v s.data with
    | none => some ⟨s, [], .missing⟩
    | some d => some ⟨⟨s.sys, d, s.running⟩, [], .none⟩
  | .pollForEach p i w => pollForEach hash s p i w
  | .pollForEachAsync p i w f => pollForEachAsync hash s p i w f
  | .pollSignal f p i w => pollSignal hash s f p i w
  | .pollBind p i w items ends => pollBind hash enc s p i w items ends

/-- A new store with this data. -/
def World.init (d : Data) : World := ⟨Verif.XBow.init, d, fun _ => none⟩

/-- One event of a history: the operation, what it did, and the data before and after it. -/
structure Event where
  op : WOp
  trace : Trace
  effect : Effect
  before : Data
  after : Data

inductive WRun : World → List Event → World → Prop
  | nil (s) : WRun s [] s
  | cons {s op r h s'} : wstep hash enc s op = some r → WRun r.world h s' →
      WRun s (⟨op, r.trace, r.effect, s.data, r.world.data⟩ :: h) s'

end

end Verif.XBow
