import Verif.Comb.Props
/-!
# `pend_after` and `meanwhile`

Model of `async_ui_web_core/src/combinators/extras/mod.rs`, as step machines whose events are the
calls from outside and the returns of the inner futures, which may do anything.
-/
namespace Verif.Comb
variable {U V W : Type}

/-! ### `PendAfter` -/

/-- `PendAfter` (extras/mod.rs 64-69): `future.is_some()`, and whether `poll` is inside of
`fut.poll(cx)`. -/
structure Pend where
  some : Bool
  polling : Bool
  dropped : Bool
deriving DecidableEq

/-- `pend_after`, 31-36. -/
def Pend.new : Pend := ⟨true, false, false⟩

inductive PEvent (U W : Type)
  | poll (w : W)
  /-- the inner future returns from its poll -/
  | inner (r : Outcome U)
  | drop
deriving DecidableEq

/-- What can be seen. `ret none` is `Poll::Pending`, `ret (some t)` would be `Poll::Ready(t)`. -/
inductive PEffect (T W : Type)
  | innerPoll (w : W)
  | innerDropped
  | ret (t : Option T)
  | panicked
deriving DecidableEq

/-- `poll`, 74-85, cut at the call of the inner `poll`; and the drop glue. -/
def pendStep {T : Type} (p : Pend) : PEvent U W → Option (Pend × List (PEffect T W))
  | .poll w =>
    if p.polling || p.dropped then none
    else if p.some then some ({ p with polling := true }, [.innerPoll w])
    else some (p, [.ret none])
  | .inner r =>
    if !p.polling then none
    else match r with
      | .pending => some ({ p with polling := false }, [.ret none])
      | .ready _ => some ({ p with polling := false, some := false }, [.innerDropped, .ret none])
      | .panics => some ({ p with polling := false }, [.panicked])
  | .drop =>
    if p.polling || p.dropped then none
    else some ({ p with dropped := true, some := false }, if p.some then [.innerDropped] else [])

/-- Traces, newest entry first. -/
inductive PRun {T : Type} : List (PEvent U W × List (PEffect T W)) → Pend → Prop
  | nil : PRun [] Pend.new
  | cons {tr p e p' out} : PRun tr p → pendStep p e = some (p', out) → PRun ((e, out) :: tr) p'

/-! ### `meanwhile` -/

/-- `f.meanwhile(g)`, 53-59: the race of the tuple `(f, g.pend_after())`. -/
structure MW (V W : Type) where
  comb : Comb Kind.tuple.impl.σ Empty W
  pend : Pend

inductive MEvent (U V W : Type)
  | poll (w : W)
  /-- `f` returns from its poll -/
  | f (r : Outcome V)
  /-- `g` returns from its poll -/
  | g (r : Outcome U)
  /-- `g.pend_after()` returns from its poll without having polled `g` -/
  | gSkip
  /-- a waker that was handed to `f` (0) or `g` (1) is woken -/
  | wake (i : Nat)
  | drop
deriving DecidableEq

inductive MEffect (V W : Type)
  /-- an effect of the race -/
  | race (x : Effect Empty V W)
  | gPoll
  | gDropped
deriving DecidableEq

/-- What the race sees of an event. -/
def MEvent.toRace : MEvent U V W → Event V W
  | .poll w => .poll w
  | .f r => .sub 0 r
  | .g .panics => .sub 1 .panics
  | .g _ => .sub 1 .pending
  | .gSkip => .sub 1 .pending
  | .wake i => .wake i
  | .drop => .drop

/-- When the race polls its second future, `PendAfter::poll` begins. The waker is left out. -/
def enter (p : Pend) (out : List (Effect Empty V W)) : Pend × List (MEffect V W) :=
  if out.any (fun x => match x with | .subPoll 1 => true | _ => false) then
    match pendStep (U := Unit) (T := V) p (.poll ()) with
    | some (p', o) => (p', o.flatMap fun | .innerPoll _ => [.gPoll] | _ => [])
    | none => (p, [])
  else (p, [])

def mwNew (V W : Type) : MW V W := ⟨Comb.new Kind.tuple.impl Empty W 2, Pend.new⟩

def mwStep (dbg : Bool) (s : MW V W) (e : MEvent U V W) : Option (MW V W × List (MEffect V W)) :=
  -- first the part of `PendAfter`
  let pre : Option (Pend × List (MEffect V W)) :=
    match e with
    | .g r =>
      match pendStep (T := V) (W := Unit) s.pend (.inner r) with
      | some (p, o) => some (p, o.flatMap fun | .innerDropped => [.gDropped] | _ => [])
      | none => none
    | .gSkip => if s.pend.some then none else some (s.pend, [])
    | .drop =>
      match pendStep (U := U) (T := V) (W := Unit) s.pend .drop with
      | some (p, o) => some (p, o.flatMap fun | .innerDropped => [.gDropped] | _ => [])
      | none => none
    | _ => some (s.pend, [])
  match pre with
  | none => none
  | some (p, o1) =>
    match step (raceCfg .tuple dbg V) s.comb e.toRace with
    | none => none
    | some (c', o2) =>
      let (p', o3) := enter p o2
      some (⟨c', p'⟩, o1 ++ o2.map .race ++ o3)

inductive MRun (dbg : Bool) : List (MEvent U V W × List (MEffect V W)) → MW V W → Prop
  | nil : MRun dbg [] (mwNew V W)
  | cons {tr s e s' out} : MRun dbg tr s → mwStep dbg s e = some (s', out) → MRun dbg ((e, out) :: tr) s'

/-- Not yet completed, panicked or dropped. -/
def MActive (tr : List (MEvent U V W × List (MEffect V W))) : Prop :=
  ∀ e ∈ tr, e.1 ≠ .drop ∧ .race .panicked ∉ e.2 ∧ ∀ v, .race (.retReady v []) ∉ e.2

end Verif.Comb
