import Verif.Comb.Extras
/-!
# The `select!` macro

Model of the code that `async_ui_web_macros/src/select.rs:55-82` generates:

    match race((async { Variant0(fut0.await) }, async { Variant1(fut1.await) }, ..)).await {
        Variant0(pattern0) => expr0,
        ..
    }

The expression `fut_i` is inside an `async` block, so it is evaluated when the block is polled for the first
time. The race is a temporary of the `.await`; it is dropped, with the blocks in it (fields of a tuple in
order), when the `.await` is over, before the chosen expression is evaluated.

Simplifications: all branches have the same output type, and so the variants of the generated enum are the
numbers of the branches. Patterns are irrefutable (else the generated `match` does not compile). What the chosen
expression does, and the parsing of the branches (`select.rs:21-53`), is not modelled.
-/
namespace Verif.Comb
variable {V W : Type}

/-- The block of a branch, `async { Variant_i(fut_i.await) }`, `select.rs:73`. -/
inductive Branch
  /-- not polled yet -/
  | fresh
  /-- awaiting `fut_i` -/
  | awaiting
  /-- finished or dropped -/
  | gone
deriving DecidableEq, Repr

structure Sel (W : Type) where
  comb : Comb Kind.tuple.impl.σ Empty W
  branches : List Branch
  /-- the race is over: an expression was chosen, or the whole was dropped -/
  over : Bool

inductive SEvent (V W : Type)
  | poll (w : W)
  /-- `fut_i` returns from its poll -/
  | fut (i : Nat) (r : Outcome V)
  /-- a waker that was handed to `fut_i` is woken -/
  | wake (i : Nat)
  | drop
deriving DecidableEq

inductive SEffect (V W : Type)
  /-- the expression `fut_i` is evaluated -/
  | evaluated (i : Nat)
  /-- `fut_i` is polled -/
  | polled (i : Nat)
  /-- the future that `fut_i` evaluated to is dropped -/
  | dropped (i : Nat)
  | pending
  /-- the expression of branch `i` is evaluated, with the pattern bound to `v` -/
  | arm (i : Nat) (v : V)
  | taskWoken (w : Option W)
  | panicked
deriving DecidableEq

/-- What the race sees of an event. -/
def SEvent.toRace : SEvent V W → Event (Nat × V) W
  | .poll w => .poll w
  | .fut i .pending => .sub i .pending
  | .fut i (.ready v) => .sub i (.ready (i, v))
  | .fut i .panics => .sub i .panics
  | .wake i => .wake i
  | .drop => .drop

/-- The branches that hold a future, in order. -/
def holding (bs : List Branch) (start : Nat) : List Nat :=
  match bs with
  | [] => []
  | .awaiting :: bs => start :: holding bs (start + 1)
  | _ :: bs => holding bs (start + 1)

/-- The race is dropped. -/
def dropAll (s : Sel W) : Sel W × List (SEffect V W) :=
  ({ s with branches := s.branches.map fun _ => .gone, over := true }, (holding s.branches 0).map .dropped)

/-- What follows from an effect of the race. -/
def react (s : Sel W) : Effect Empty (Nat × V) W → Sel W × List (SEffect V W)
  -- the block begins, `select.rs:73`
  | .subPoll i =>
    if s.branches[i]? = some .fresh then
      ({ s with branches := s.branches.set i .awaiting }, [.evaluated i, .polled i])
    else (s, [.polled i])
  | .retPending => (s, [.pending])
  -- the `.await` ends, then the arm, `select.rs:74-78`
  | .retReady (i, v) _ =>
    let (s, out) := dropAll s
    (s, out ++ [.arm i v])
  | .taskWoken w => (s, [.taskWoken w])
  | .panicked => ({ s with over := true }, [.panicked])
  | .ub => ({ s with over := true }, [.panicked])
  | .droppedItem _ => (s, [])
  | .leaked _ => (s, [])

def reactAll (s : Sel W) : List (Effect Empty (Nat × V) W) → Sel W × List (SEffect V W)
  | [] => (s, [])
  | x :: xs =>
    let (s, o1) := react s x
    let (s, o2) := reactAll s xs
    (s, o1 ++ o2)

def selNew (W : Type) (n : Nat) : Sel W := ⟨Comb.new Kind.tuple.impl Empty W n, List.replicate n .fresh, false⟩

/-- `fut_i.await` ends, and with it `fut_i`, `select.rs:73`. -/
def awaitEnds (bs : List Branch) : SEvent V W → List Branch × List (SEffect V W)
  | .fut i (.ready _) => (bs.set i .gone, [.dropped i])
  | _ => (bs, [])

/-- The race itself is dropped. -/
def raceEnds (s : Sel W) : SEvent V W → Sel W × List (SEffect V W)
  | .drop => dropAll s
  | _ => (s, [])

/-- One event; `none` when it cannot happen. -/
def selStep (dbg : Bool) (s : Sel W) (e : SEvent V W) : Option (Sel W × List (SEffect V W)) :=
  if s.over then
    -- wakers may outlive the race
    match e with
    | .wake i => if i < s.branches.length then some (s, []) else none
    | _ => none
  else
    match step (raceCfg .tuple dbg (Nat × V)) s.comb e.toRace with
    | none => none
    | some (c, out) =>
      let r0 := awaitEnds s.branches e
      let r1 := reactAll { s with comb := c, branches := r0.1 } out
      let r2 := raceEnds r1.1 e
      some (r2.1, r0.2 ++ r1.2 ++ r2.2)

/-- Traces, newest entry first. -/
inductive SRun (dbg : Bool) (n : Nat) : List (SEvent V W × List (SEffect V W)) → Sel W → Prop
  | nil : SRun dbg n [] (selNew W n)
  | cons {tr s e s' out} : SRun dbg n tr s → selStep dbg s e = some (s', out) → SRun dbg n ((e, out) :: tr) s'

end Verif.Comb
