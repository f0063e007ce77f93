import Verif.Comb.Readiness
/-!
# The combinators

Model of `async_ui_web_core/src/combinators/common/{array,vec,tuple}.rs` as a machine whose steps
are the calls from outside: the combinator is polled, the subfuture that is being polled returns,
a subfuture's waker is woken (at any moment, also in the middle of a poll, also after the end), the
combinator is dropped. Subfutures are environment: they may return anything and wake anything.

Simplifications: the tuple variant stores items of different types, here they share one type; the
DOM context that is set around the poll of each subfuture and `detachment_blocker` are modelled in
`Verif.Drop`; task wakers are compared by equality (`will_wake`).
-/
namespace Verif.Comb

/-- `CombinatorBehaviorArray` / `CombinatorBehaviorVec` / `TupleMaybeReturn` + `TupleWhenCompleted`
(`common/array.rs:29-56`, `common/vec.rs:14-35`, `common/tuple.rs:14-47`). `V` = output of a subfuture, `S` = stored item, `O` =
output of the combinator. `inl` = `ControlFlow::Continue`, `inr` = `ControlFlow::Break`.
`whenCompleted = none` is `unreachable!()`. -/
structure Behavior (V S O : Type) where
  pendIfEmpty : Bool
  maybeReturn : V → S ⊕ O
  whenCompleted : List S → Option O

/-- `JoinBehavior`, `join/array.rs`, `join/vec.rs:16-37`, `join/tuple.rs:8-22`. -/
def joinB (V : Type) : Behavior V V (List V) := ⟨false, .inl, some⟩

/-- `RaceBehavior`, `race/array.rs:16-37`, `race/vec.rs`, `race/tuple.rs`. Nothing is ever stored. -/
def raceB (V : Type) : Behavior V Empty V := ⟨true, .inr, fun _ => none⟩

/-- `TryJoinBehavior`, `try_join/vec.rs:17-40`, `try_join/array.rs`, `try_join/tuple.rs`. -/
def tryJoinB (E T : Type) : Behavior (Except E T) T (Except E (List T)) where
  pendIfEmpty := false
  maybeReturn
    | .ok t => .inl t
    | .error e => .inr (.error e)
  whenCompleted ts := some (.ok ts)

/-- `RaceOkBehavior`, `race_ok/array.rs:16-41`, `race_ok/vec.rs`, `race_ok/tuple.rs:8-23`. -/
def raceOkB (E T : Type) : Behavior (Except E T) E (Except (List E) T) where
  pendIfEmpty := false
  maybeReturn
    | .ok t => .inr (.ok t)
    | .error e => .inl e
  whenCompleted es := some (.error es)

/-- Which of the three implementations. -/
inductive Kind
  | array
  | vec
  | tuple
deriving DecidableEq, Repr

/-- `WakerArray` for arrays and tuples, `WakerVec` for vectors. -/
def Kind.impl : Kind → Impl
  | .array => arrayImpl
  | .vec => vecImpl
  | .tuple => arrayImpl

/-- Build parameters: the implementation, debug assertions on or off, the behaviour. -/
structure Cfg (V S O : Type) where
  kind : Kind
  debug : Bool
  beh : Behavior V S O

inductive Phase
  /-- not being polled -/
  | idle
  /-- subfuture `cur` is being polled; `rest` is what is left of the copied awake list -/
  | polling (cur : Nat) (rest : List Nat)
  | dropped
deriving DecidableEq, Repr

/-- `CombinatorArray` (`common/array.rs:58-80`), `CombinatorVec` (`common/vec.rs:42-50`), `CombineN`
(`common/tuple.rs:69-78`). An item slot is `none` when it is not initialised. `parent` is
the parent waker in the readiness (`none` = the dummy). -/
structure Comb (σ S W : Type) where
  n : Nat
  pending : Nat
  items : List (Option S)
  filled : List Bool
  ready : σ
  parent : Option W
  phase : Phase

/-- `new`, `common/array.rs:88-100`, `common/vec.rs:57-70`, `common/tuple.rs:106-117`. -/
def Comb.new (I : Impl) (S W : Type) (n : Nat) : Comb I.σ S W :=
  ⟨n, n, List.replicate n none, List.replicate n false, I.new n, none, .idle⟩

/-- How the poll of a subfuture ends. -/
inductive Outcome (V : Type)
  | pending
  | ready (v : V)
  | panics
deriving DecidableEq, Repr

inductive Event (V W : Type)
  /-- the combinator is polled with task waker `w` -/
  | poll (w : W)
  /-- the subfuture being polled, number `i`, returns -/
  | sub (i : Nat) (r : Outcome V)
  /-- a waker handed to subfuture `i` is woken -/
  | wake (i : Nat)
  | drop
deriving DecidableEq, Repr

inductive Effect (S O W : Type)
  /-- `wake_by_ref` on the stored parent waker -/
  | taskWoken (w : Option W)
  /-- the poll of subfuture `i` begins -/
  | subPoll (i : Nat)
  | retPending
  /-- the poll returns `Ready o`; the stored items `from_` moved into `o` -/
  | retReady (o : O) (from_ : List S)
  | panicked
  /-- a stored item is dropped -/
  | droppedItem (s : S)
  /-- an initialised slot is overwritten without being dropped -/
  | leaked (s : S)
  /-- an uninitialised slot is read -/
  | ub
deriving DecidableEq, Repr

section
variable {V S O W : Type}

/-- All slots initialised: their contents (`assume_init`). -/
def takeAll : List (Option S) → Option (List S)
  | [] => some []
  | none :: _ => none
  | some s :: rest => (takeAll rest).map (s :: ·)

/-- The state after the items are taken out: fresh uninitialised items in arrays and tuples, an
empty vector in `CombinatorVec`. `common/array.rs:190-193`, `common/vec.rs:143-153`,
`common/tuple.rs:201-204`. -/
def taken (g : Cfg V S O) (c : Comb g.kind.impl.σ S W) : Comb g.kind.impl.σ S W :=
  { c with
    phase := .idle
    filled := List.replicate c.filled.length false
    items := if g.kind = .vec then [] else List.replicate c.items.length none }

/-- End of `poll`: `common/array.rs:182-208`, `common/vec.rs:138-160`, `common/tuple.rs:199-215`. -/
def finish (g : Cfg V S O) (c : Comb g.kind.impl.σ S W) : Comb g.kind.impl.σ S W × List (Effect S O W) :=
  if c.pending = 0 then
    if g.debug && !c.filled.all id then ({ c with phase := .idle }, [.panicked])
    else
      match takeAll c.items with
      | none => (taken g c, [.ub])
      | some ss =>
        match g.beh.whenCompleted ss with
        | some o => (taken g c, [.retReady o ss])
        | none => (taken g c, .panicked :: ss.map .droppedItem)
  else ({ c with phase := .idle }, [.retPending])

/-- The loop over the copied awake list, up to the next poll of a subfuture:
`common/array.rs:152-171`, `common/vec.rs:112-124`, `common/tuple.rs:160-176`. -/
def advance (g : Cfg V S O) (c : Comb g.kind.impl.σ S W) :
    List Nat → Comb g.kind.impl.σ S W × List (Effect S O W)
  | [] => finish g c
  | i :: rest =>
    match c.filled[i]? with
    | none => ({ c with phase := .idle }, [.panicked])
    | some true => advance g c rest
    | some false =>
      if i < c.n then ({ c with phase := .polling i rest }, [.subPoll i])
      else ({ c with phase := .idle }, [.panicked])

inductive Gate
  | pend
  | panic
  | enter
deriving DecidableEq, Repr

/-- The checks at the top of `poll`: `common/array.rs:124-132`, `common/vec.rs:93-101`,
`common/tuple.rs:143-146`. -/
def gate (k : Kind) (pendIfEmpty : Bool) (n pending : Nat) (noItems : Bool) : Gate :=
  match k with
  | .array =>
    if n = 0 ∧ pendIfEmpty = true then .pend
    else if n = 0 ∨ 0 < pending then .enter
    else .panic
  | .vec =>
    if pending = 0 then
      if noItems = false then .panic
      else if pendIfEmpty = true then .pend
      else .enter
    else .enter
  | .tuple => if 0 < pending then .enter else .panic

/-- `poll` up to the loop: `common/array.rs:121-149`, `common/vec.rs:90-110`,
`common/tuple.rs:139-157`. -/
def beginPoll (g : Cfg V S O) (c : Comb g.kind.impl.σ S W) (w : W) :
    Comb g.kind.impl.σ S W × List (Effect S O W) :=
  match gate g.kind g.beh.pendIfEmpty c.n c.pending c.items.isEmpty with
  | .pend => (c, [.retPending])
  | .panic => (c, [.panicked])
  | .enter =>
    match g.kind.impl.clear c.ready with
    | none => (c, [.panicked])
    | some r => advance g { c with parent := some w, ready := r } (g.kind.impl.list c.ready)

/-- What happens with the result of a subfuture: `common/array.rs:171-178`,
`common/vec.rs:124-135`, `common/tuple.rs:176-197`. -/
def subReturns (g : Cfg V S O) (c : Comb g.kind.impl.σ S W) (i : Nat) (rest : List Nat) :
    Outcome V → Comb g.kind.impl.σ S W × List (Effect S O W)
  | .pending => advance g c rest
  | .panics => ({ c with phase := .idle }, [.panicked])
  | .ready v =>
    match g.beh.maybeReturn v with
    | .inr o => ({ c with phase := .idle }, [.retReady o []])
    | .inl s =>
      match c.items[i]? with
      | none => ({ c with phase := .idle }, [.panicked, .droppedItem s])
      | some old =>
        if c.pending = 0 then ({ c with phase := .idle }, [.panicked])
        else
          let (c', out) := advance g { c with
            items := c.items.set i (some s)
            filled := c.filled.set i true
            pending := c.pending - 1 } rest
          (c', (old.toList.map .leaked) ++ out)

/-- The items dropped by `drop`: those whose `filled` flag is set. -/
def dropItems : List Bool → List (Option S) → List (Effect S O W)
  | true :: fs, some s :: is => .droppedItem s :: dropItems fs is
  | true :: fs, none :: is => .ub :: dropItems fs is
  | false :: fs, _ :: is => dropItems fs is
  | _, _ => []

/-- One event; `none` when it cannot happen in the state (a future is not polled or dropped while
it is being polled). Drop: `common/array.rs:219-232`, `common/vec.rs:171-184`,
`common/tuple.rs:230-244`. -/
def step (g : Cfg V S O) (c : Comb g.kind.impl.σ S W) :
    Event V W → Option (Comb g.kind.impl.σ S W × List (Effect S O W))
  | .poll w => if c.phase = .idle then some (beginPoll g c w) else none
  | .sub i r =>
    match c.phase with
    | .polling j rest => if i = j then some (subReturns g c i rest r) else none
    | _ => none
  | .wake i =>
    if i < c.n then
      match g.kind.impl.wake c.ready i with
      | none => some (c, [.panicked])
      | some (r, woke) => some ({ c with ready := r }, if woke then [.taskWoken c.parent] else [])
    else none
  | .drop =>
    if c.phase = .idle then
      some ({ c with phase := .dropped, items := c.items.map fun _ => none,
                     filled := c.filled.map fun _ => false }, dropItems c.filled c.items)
    else none

abbrev Entry (V S O W : Type) := Event V W × List (Effect S O W)

/-- Traces, **newest entry first**. -/
inductive Run (g : Cfg V S O) (n : Nat) : List (Entry V S O W) → Comb g.kind.impl.σ S W → Prop
  | nil : Run g n [] (Comb.new g.kind.impl S W n)
  | cons {tr c e c' out} : Run g n tr c → step g c e = some (c', out) → Run g n ((e, out) :: tr) c'

end
end Verif.Comb
