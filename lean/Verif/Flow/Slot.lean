import Verif.Flow.Guide
/-!
# C83: a slot that shows one component after the other

`examples/guide-project/src/dynamicity/dynamic_slot.rs:8-36`: a `DynamicSlot`, and next to it in a `join` an `async` block that waits
and changes what is in the slot, as often as it likes. `DynamicSlot` itself is `async_ui_web/src/components/dynamic_slot.rs` (C38);
here it is together with futures that display something, timers and the executor.

The contents are programs of `Flow/Lang` (`slot_any_in_time`); more is said if they are components without behaviour (`Ui`). Simplifications: as in `Flow/Lang`; the elements of a component are
created when it is polled for the first time and not when it is given to the slot, which nobody can see.
-/
namespace Verif.Flow.Guide
open Verif.Flow

/-- The component in the middle of its execution. A change is `some f` for `set_future(f)` and `none` for `clear_future()`. -/
structure Slotted where
  /-- `channel.1`, `dynamic_slot.rs:36`; `none`: `NoChange` -/
  message : Option (Option (Fut Unit))
  /-- `fut_slot`, `dynamic_slot.rs:72` -/
  held : Option (Fut Unit)
  /-- what the last poll of it returned -/
  out : Out Unit
  /-- what the block still has to do: wait so many milliseconds, and then make the change -/
  script : List (Nat × Option (Fut Unit))
  /-- the timer it waits for -/
  timer : Option Nat
  world : World

/-- `slot.set_future(first)` (`dynamic_slot.rs:11-16` of the guide), and the `join`. -/
def Slotted.mount (first : Option (Fut Unit)) (script : List (Nat × Option (Fut Unit))) : Slotted :=
  ⟨some first, none, .pend, script, none, .init⟩

def Slotted.pollContent (S : Slotted) (f : Fut Unit) : Slotted :=
  { S with message := none, held := some (poll f S.world).1, out := (poll f S.world).2.2, world := (poll f S.world).2.1 }

/-- A poll of `slot.render()`, `dynamic_slot.rs:73-91`. A content that has finished is not polled again, because nothing wakes the slot any more;
it stays where it is until the next change. -/
def Slotted.pollSlot (S : Slotted) : Slotted :=
  match S.message, S.held, S.out with
  | some (some f), _, _ => S.pollContent f
  | some none, _, _ => { S with message := none, held := none, out := .pend }
  | none, some f, .pend => S.pollContent f
  | none, _, _ => S

/-- The content is in a loop without end, and the app with it. -/
def Slotted.hangs (S : Slotted) : Bool :=
  match S.out with
  | .hang => true
  | _ => false

/-- The block comes to its next `TimeoutFuture::new(ms).await`, or to its end. -/
def Slotted.wait (S : Slotted) : Slotted :=
  match S.script with
  | [] => { S with timer := none }
  | (ms, _) :: _ => { S with
      timer := some S.world.next
      world := { S.world with
        next := S.world.next + 1
        due := fun h => if h = S.world.next then some (S.world.now + ms) else S.world.due h } }

/-- A poll of the block, `dynamic_slot.rs:23-33` of the guide. -/
def Slotted.pollBlock (S : Slotted) : Slotted :=
  match S.script, S.timer with
  | [], _ => S
  | _ :: _, none => S.wait
  | (_, c) :: rest, some t => if S.world.fired t then Slotted.wait { S with message := some c, script := rest } else S

/-- The executor runs: the `join` polls both; if the block has changed something the waker of the slot was woken
(`dynamic_slot.rs:97-108`) and the slot is polled again. -/
def Slotted.poll (S : Slotted) : Slotted :=
  if S.hangs then S
  else if S.pollSlot.hangs then S.pollSlot
  else if S.pollSlot.pollBlock.message.isSome then S.pollSlot.pollBlock.pollSlot else S.pollSlot.pollBlock

def Slotted.targets (t : Tag) (S : Slotted) : List Nat :=
  match S.held with
  | none => []
  | some f => f.targets t

/-- As `App.step`. -/
def Slotted.step (S : Slotted) : Event → Slotted
  | .type i s =>
    match (S.targets .input)[i]? with
    | some n => { S with world := { S.world with
        prop := fun m k => if m = n ∧ k = .value then s else S.world.prop m k } }
    | none => S
  | .click i =>
    match (S.targets .button)[i]? with
    | some n => Slotted.poll { S with world := { S.world with
        fired := fun h => S.world.fired h || S.world.listens h == some n } }
    | none => S
  | .advance ms => { S with world := later S.world ms }
  | .poll => S.poll

def Slotted.run (S : Slotted) (es : List Event) : Slotted := es.foldl Slotted.step S

/-- What the page shows. -/
def Slotted.page (S : Slotted) : List View :=
  match S.held with
  | none => []
  | some f => f.shown S.world

/-! ## Contents without behaviour: specification -/

/-- A component without behaviour, or nothing. -/
abbrev Change := Option Ui

/-- As a content of the slot. -/
def content : Change → Option (Fut Unit) := Option.map Ui.component

/-- The slot with such contents. -/
def Slotted.plain (first : Change) (script : List (Nat × Change)) : Slotted :=
  .mount (content first) (script.map fun x => (x.1, content x.2))

/-- The number of elements of a kind. -/
def Ui.count (t : Tag) : Ui → Nat
  | .text _ => 0
  | .elem tag _ kid => (if tag = t then 1 else 0) + kid.count t
  | .nothing => 0
  | .both l r => l.count t + r.count t

/-- What is to be seen (`none`: the executor has not run yet), for how long, and what comes then. -/
structure Plan where
  shown : Option Change
  left : Nat
  script : List (Nat × Change)

def Plan.page (P : Plan) : List View :=
  match P.shown with
  | some (some ui) => ui.view
  | _ => []

/-- How long the first step takes. -/
def wait {α : Type*} : List (Nat × α) → Nat
  | [] => 0
  | (ms, _) :: _ => ms

def Plan.start (script : List (Nat × Change)) : Plan := ⟨none, 0, script⟩

/-- The executor runs. -/
def Plan.poll (first : Change) (P : Plan) : Plan :=
  match P.shown, P.left, P.script with
  | none, _, script => ⟨some first, wait script, script⟩
  | some _, 0, (_, c) :: rest => ⟨some c, wait rest, rest⟩
  | _, _, _ => P

/-- A click on a button runs the executor. -/
def Plan.step (first : Change) (P : Plan) : Event → Plan
  | .advance ms => { P with left := P.left - ms }
  | .poll => P.poll first
  | .click i =>
    match P.shown with
    | some (some ui) => if i < ui.count .button then P.poll first else P
    | _ => P
  | .type _ _ => P

def Plan.run (first : Change) (script : List (Nat × Change)) (es : List Event) : Plan :=
  es.foldl (Plan.step first) (.start script)

/-! ## Proof -/

theorem Built.targets {w : World} {ui : Ui} {α : Type} {f : Fut α} {p : Bool} (h : Built w p ui α f) (hp : p = true) (t : Tag) :
    (f.targets t).length = ui.count t := by
  induction h with
  | text s α => rfl
  | nothing α => rfl
  | both l r α β f g _ _ ih1 ih2 => simp only [Fut.targets, Ui.count, List.length_append, ih1, ih2]
  | elem tag h kid α f n hl hq _ ih =>
    subst hp
    simp only [Fut.targets, Ui.count]
    split
    · simp only [List.length_cons, ih]; omega
    · simp only [ih]; omega

/-- The slot holds what it should show. -/
def Holds (w : World) : Change → Option (Fut Unit) → Prop
  | none, h => h = none
  | some ui, h => ∃ α, ∃ f : Fut α, h = some (.bind f fun _ => .pure ()) ∧ Built w true ui α f

theorem Holds.mono {w w' : World} {c : Change} {h : Option (Fut Unit)} (hh : Holds w c h) (hn : w.next ≤ w'.next)
    (hp : ∀ n, n < w.next → w'.prop n = w.prop n) : Holds w' c h := by
  cases c with
  | none => exact hh
  | some ui =>
    obtain ⟨α, f, h1, h2⟩ := hh
    exact ⟨α, f, h1, h2.mono hn hp⟩

theorem wait_content (script : List (Nat × Change)) : wait (script.map fun x => (x.1, content x.2)) = wait script := by
  cases script <;> rfl

theorem pollSlot_old {S : Slotted} {c : Change} (hm : S.message = none) (ho : S.out = .pend) (hh : Holds S.world c S.held) :
    ∃ h, S.pollSlot = { S with held := h } ∧ Holds S.world c h := by
  obtain ⟨m, h, o, sc, t, w⟩ := S
  simp only at hm hh ho
  subst hm ho
  cases c with
  | none => cases hh; exact ⟨none, rfl, rfl⟩
  | some ui =>
    obtain ⟨α, f, rfl, h2⟩ := hh
    obtain ⟨f', h3, h4⟩ := h2.poll w
    exact ⟨some (.bind f' fun _ => .pure ()), by simp only [Slotted.pollSlot, Slotted.pollContent, Flow.poll, h3], α, f', rfl, h4⟩

theorem pollSlot_new {S : Slotted} {c : Change} (hm : S.message = some (content c)) :
    ∃ h w, S.pollSlot = { S with message := none, held := h, out := .pend, world := w } ∧ Grows S.world w ∧ Holds w c h := by
  obtain ⟨m, h, o, sc, t, w⟩ := S
  simp only at hm
  subst hm
  cases c with
  | none => exact ⟨none, w, rfl, .refl w, rfl⟩
  | some ui =>
    obtain ⟨α, f, w', h1, h2, -⟩ := ui.poll_build (fun f => .bind f.2 fun _ => (.pure () : Fut Unit)) w
    obtain ⟨f', h3, h4⟩ := h2.poll w'
    have hp : Flow.poll ui.component w = (.bind f' fun _ => .pure (), w', .pend) := by
      rw [Ui.component, h1]; simp only [Flow.poll, h3]
    refine ⟨some (.bind f' fun _ => .pure ()), w', ?_, ?_, α, f', rfl, h4⟩
    · simp only [Slotted.pollSlot, content, Option.map_some, Slotted.pollContent, hp]
    · have := poll_grows ui.component w
      rw [hp] at this; exact this

/-- What the state of the component has to do with the plan; `q`: the user may type. -/
structure SlotSim (first : Change) (q : Bool) (P : Plan) (S : Slotted) : Prop where
  fresh : Fresh S.world
  pos : ∀ x ∈ P.script, 0 < x.1
  script : S.script = P.script.map fun x => (x.1, content x.2)
  out : S.out = .pend
  inputs : q = true → ∀ ui, (P.shown = some (some ui) ∨ first = some ui ∨ some ui ∈ P.script.map (·.2)) → ui.count .input = 0
  before : P.shown = none → S.message = some (content first) ∧ S.held = none ∧ S.timer = none
  shown : ∀ c, P.shown = some c → S.message = none ∧ Holds S.world c S.held
  timer : ∀ c, P.shown = some c → P.script ≠ [] → ∃ t, S.timer = some t ∧ Left S.world t P.left

/-- The block starts to wait. -/
theorem wait_spec {S : Slotted} (hw : Fresh S.world) (hp : ∀ x ∈ S.script, 0 < x.1) :
    ∃ t w, S.wait = { S with timer := t, world := w } ∧ Grows S.world w ∧ w.prop = S.world.prop ∧
      (S.script ≠ [] → ∃ t', t = some t' ∧ Left w t' (Guide.wait S.script)) := by
  obtain ⟨m, h, o, sc, t, w⟩ := S
  cases sc with
  | nil => exact ⟨none, w, rfl, .refl w, rfl, fun h => absurd rfl h⟩
  | cons x rest =>
    obtain ⟨ms, c⟩ := x
    have hms : 0 < ms := hp _ (List.mem_cons_self ..)
    have hn := fresh_now hw
    refine ⟨some w.next, _, rfl, ⟨rfl, rfl, Nat.le_succ _, fun _ _ => rfl, fun h hh => if_neg (Nat.ne_of_lt hh),
      fun hw => hw.timer _⟩, rfl, fun _ => ⟨w.next, rfl, w.now + ms, if_pos rfl, ?_, ?_⟩⟩
    · simp only [Guide.wait]; omega
    · exact hn.trans (decide_eq_false (by simp only; omega)).symm

theorem pos_content {script : List (Nat × Change)} (h : ∀ x ∈ script, 0 < x.1) :
    ∀ x ∈ script.map (fun x => (x.1, content x.2)), 0 < x.1 := by
  intro x hx
  obtain ⟨y, hy, rfl⟩ := List.mem_map.1 hx
  exact h y hy

theorem slotSim_poll {first : Change} {q : Bool} {P : Plan} {S : Slotted} (h : SlotSim first q P S) :
    SlotSim first q (P.poll first) S.poll := by
  obtain ⟨sh, left, script⟩ := P
  cases sh with
  | none =>
    obtain ⟨b1, b2, b3⟩ := h.before rfl
    obtain ⟨hd, w, e1, g1, k1⟩ := pollSlot_new b1
    have hw := g1.fresh h.fresh
    have hs : S.script = script.map fun x => (x.1, content x.2) := h.script
    have hnh : S.hangs = false := by simp only [Slotted.hangs, h.out]
    have hnh1 : S.pollSlot.hangs = false := by rw [e1]; rfl
    have hpb : S.pollSlot.pollBlock = Slotted.wait { S with message := none, held := hd, out := .pend, world := w } := by
      rw [e1]
      simp only [Slotted.pollBlock, b3]
      cases hc : S.script with
      | nil => simp only [Slotted.wait]
      | cons x r => rfl
    obtain ⟨t, w', e2, g2, p2, t2⟩ := wait_spec (S := { S with message := none, held := hd, out := .pend, world := w }) hw
      (by simp only [hs]; exact pos_content h.pos)
    have he : S.poll = { S with message := none, held := hd, out := .pend, timer := t, world := w' } := by
      simp only [Slotted.poll, hnh, hnh1, hpb, e2, Option.isSome_none, Bool.false_eq_true, if_false]
    rw [he]
    refine ⟨g2.fresh hw, h.pos, hs, rfl, ?_, ?_, ?_, ?_⟩
    · intro hq ui hui
      simp only [Plan.poll] at hui
      rcases hui with hui | hui | hui
      · exact h.inputs hq ui (.inr (.inl (by cases hui; rfl)))
      · exact h.inputs hq ui (.inr (.inl hui))
      · exact h.inputs hq ui (.inr (.inr hui))
    · intro hx; cases hx
    · intro c hc
      cases hc
      exact ⟨rfl, k1.mono g2.next fun n _ => by rw [p2]⟩
    · intro c hc hne
      simp only [Plan.poll] at hne ⊢
      have := t2 (by simp only [hs]; simpa using hne)
      simpa only [hs, wait_content] using this
  | some c =>
    obtain ⟨m1, k1⟩ := h.shown c rfl
    obtain ⟨hd, e1, k2⟩ := pollSlot_old m1 h.out k1
    have hs : S.script = script.map fun x => (x.1, content x.2) := h.script
    have hnh : S.hangs = false := by simp only [Slotted.hangs, h.out]
    have hnh1 : S.pollSlot.hangs = false := by rw [e1]; simp only [Slotted.hangs, h.out]
    have same : S.pollSlot.pollBlock = S.pollSlot → SlotSim first q ⟨some c, left, script⟩ S.poll := fun hx => by
      have he : S.poll = { S with held := hd } := by
        simp only [Slotted.poll, hnh, hnh1, hx]
        rw [e1]
        simp only [m1, Option.isSome_none, Bool.false_eq_true, if_false]
      rw [he]
      exact ⟨h.fresh, h.pos, hs, h.out, h.inputs, (by intro hx; cases hx), (fun c' hc => by cases hc; exact ⟨m1, k2⟩), h.timer⟩
    cases script with
    | nil =>
      have : Plan.poll first ⟨some c, left, []⟩ = ⟨some c, left, []⟩ := by cases left <;> rfl
      rw [this]
      exact same (by rw [e1]; simp only [Slotted.pollBlock, hs, List.map_nil])
    | cons x rest =>
      obtain ⟨ms, c'⟩ := x
      obtain ⟨t, ht, hl⟩ := h.timer c rfl (by simp)
      cases left with
      | succ n =>
        exact same (by
          rw [e1]
          simp only [Slotted.pollBlock, hs, List.map_cons, ht, hl.pos, Bool.false_eq_true, if_false])
      | zero =>
        have hfire := hl.zero
        obtain ⟨t', w', e2, g2, p2, t2⟩ := wait_spec
          (S := { S with message := some (content c'), held := hd, script := rest.map fun x => (x.1, content x.2) }) h.fresh
          (pos_content fun x hx => h.pos x (List.mem_cons_of_mem _ hx))
        have hw' := g2.fresh h.fresh
        have hpb : S.pollSlot.pollBlock =
            { S with message := some (content c'), held := hd, script := rest.map fun x => (x.1, content x.2), timer := t', world := w' } := by
          rw [e1]
          simp only [Slotted.pollBlock, hs, List.map_cons, ht, hfire, if_true]
          exact e2
        obtain ⟨hd', w'', e3, g3, k3⟩ := pollSlot_new
          (S := { S with
            message := some (content c'), held := hd, script := rest.map fun x => (x.1, content x.2), timer := t', world := w' }) rfl
        have he : S.poll = { S with
            message := none, held := hd', out := .pend, script := rest.map fun x => (x.1, content x.2), timer := t', world := w'' } := by
          simp only [Slotted.poll, hnh, hnh1, hpb, Option.isSome_some, Bool.false_eq_true, if_false, if_true, e3]
        rw [he]
        refine ⟨g3.fresh hw', fun x hx => h.pos x (List.mem_cons_of_mem _ hx), rfl, rfl, ?_, ?_, ?_, ?_⟩
        · intro hq ui hui
          simp only [Plan.poll] at hui
          rcases hui with hui | hui | hui
          · exact h.inputs hq ui (.inr (.inr (by cases hui; simp)))
          · exact h.inputs hq ui (.inr (.inl hui))
          · exact h.inputs hq ui (.inr (.inr (by simp only [List.map_cons]; exact .tail _ hui)))
        · intro hx; cases hx
        · intro c0 hc
          cases hc
          exact ⟨rfl, k3⟩
        · intro c0 hc hne
          obtain ⟨t1, e4, hl1⟩ := t2 (by simpa [Plan.poll] using hne)
          rw [wait_content] at hl1
          exact ⟨t1, e4, hl1.grows hw' g3⟩

theorem slotSim_step {first : Change} {q : Bool} {P : Plan} {S : Slotted} (h : SlotSim first q P S) (e : Event)
    (hq : q = true ∨ ∀ i s, e ≠ .type i s) : SlotSim first q (P.step first e) (S.step e) := by
  have htar : ∀ t, (S.targets t).length = match P.shown with | some (some ui) => ui.count t | _ => 0 := by
    intro t
    cases hsh : P.shown with
    | none => simp [Slotted.targets, (h.before hsh).2.1]
    | some c =>
      obtain ⟨-, k⟩ := h.shown c hsh
      cases c with
      | none => simp only [Slotted.targets, show S.held = none from k]; rfl
      | some ui =>
        obtain ⟨α, f, h1, h2⟩ := k
        simp only [Slotted.targets, h1, Fut.targets]
        exact h2.targets rfl t
  cases e with
  | poll => exact slotSim_poll h
  | type i s =>
    rcases hq with hq | hq
    · have : S.targets .input = [] := by
        rw [← List.length_eq_zero_iff, htar]
        cases hsh : P.shown with
        | none => rfl
        | some c =>
          cases c with
          | none => rfl
          | some ui => exact h.inputs hq ui (.inl hsh)
      simpa only [Slotted.step, this, List.getElem?_nil, Plan.step] using h
    · exact absurd rfl (hq i s)
  | advance ms =>
    refine ⟨⟨fun j hj => ?_, h.fresh.listens, h.fresh.due, h.fresh.apart⟩, h.pos, h.script, h.out, h.inputs, h.before,
      fun c hc => ⟨(h.shown c hc).1, (h.shown c hc).2.mono (Nat.le_refl _) fun _ _ => rfl⟩, fun c hc hne => ?_⟩
    · simp [Slotted.step, later, h.fresh.fired j hj, h.fresh.due j hj]
    · obtain ⟨t, h1, h2⟩ := h.timer c hc hne
      exact ⟨t, h1, h2.advance ms⟩
  | click i =>
    have hno : (S.targets .button)[i]? = none → P.step first (.click i) = P := fun hx => by
      rw [List.getElem?_eq_none_iff, htar] at hx
      simp only [Plan.step]
      split
      · next ui hui => simp only [hui] at hx; exact if_neg (by omega)
      · rfl
    have hyes : ∀ n, (S.targets .button)[i]? = some n → P.step first (.click i) = P.poll first := fun n hx => by
      have := (List.getElem?_eq_some_iff.1 hx).1
      rw [htar] at this
      simp only [Plan.step]
      split
      · next ui hui => simp only [hui] at this; exact if_pos this
      · next hui =>
        split at this
        · next ui hui' => exact absurd hui' (hui ui)
        · omega
    simp only [Slotted.step]
    split
    · next n hn =>
      rw [hyes n hn]
      refine slotSim_poll ⟨⟨fun j hj => ?_, h.fresh.listens, h.fresh.due, h.fresh.apart⟩, h.pos, h.script, h.out, h.inputs, h.before,
        fun c hc => ⟨(h.shown c hc).1, (h.shown c hc).2.mono (Nat.le_refl _) fun _ _ => rfl⟩, fun c hc hne => ?_⟩
      · simp [h.fresh.fired j hj, h.fresh.listens j hj]
      · obtain ⟨t, h1, h2⟩ := h.timer c hc hne
        exact ⟨t, h1, h2.click h.fresh n⟩
    · next hn => rw [hno hn]; exact h

theorem slotSim_run {first : Change} {script : List (Nat × Change)} {es : List Event} {q : Bool} (hp : ∀ x ∈ script, 0 < x.1)
    (hi : q = true → ∀ ui, (first = some ui ∨ some ui ∈ script.map (·.2)) → ui.count .input = 0)
    (hq : q = true ∨ ∀ e ∈ es, ∀ i s, e ≠ .type i s) :
    SlotSim first q (Plan.run first script es) ((Slotted.plain first script).run es) := by
  unfold Plan.run Slotted.run
  induction es using List.reverseRecOn with
  | nil =>
    refine ⟨run_fresh (.pure ()) [], hp, rfl, rfl, fun hq ui hui => ?_, fun _ => ⟨rfl, rfl, rfl⟩, (fun c hc => by cases hc),
      (fun c hc => by cases hc)⟩
    rcases hui with hui | hui
    · cases hui
    · exact hi hq ui hui
  | append_singleton es e ih =>
    rw [List.foldl_append, List.foldl_append]
    exact slotSim_step (ih (hq.imp_right fun h e he => h e (by simp [he]))) e (hq.imp_right fun h => h e (by simp))

/-- **C83.** A slot whose contents are changed after some waits shows, at every moment, what the plan says: the first component
from the first run of the executor on, and each of the others from the first run after its wait on. -/
theorem slot_page (first : Change) (script : List (Nat × Change)) (es : List Event) (hp : ∀ x ∈ script, 0 < x.1)
    (hq : (∀ ui, (first = some ui ∨ some ui ∈ script.map (·.2)) → ui.count .input = 0) ∨ ∀ e ∈ es, ∀ i s, e ≠ .type i s) :
    ((Slotted.plain first script).run es).page = (Plan.run first script es).page := by
  have key : ∀ {q P S}, SlotSim first q P S → S.page = P.page := by
    intro q P S h
    simp only [Plan.page]
    cases hsh : P.shown with
    | none => simp [Slotted.page, (h.before hsh).2.1]
    | some c =>
      obtain ⟨-, k⟩ := h.shown c hsh
      cases c with
      | none => simp [Slotted.page, show S.held = none from k]
      | some ui =>
        obtain ⟨α, f, h1, h2⟩ := k
        simp only [Slotted.page, h1, Fut.shown]
        exact h2.shown rfl
  rcases hq with hq | hq
  · exact key (slotSim_run (q := true) hp (fun _ => hq) (.inl rfl))
  · exact key (slotSim_run (q := false) hp nofun (.inr hq))

/-- **C83, not restarted.** A run of the executor that comes while the content is to stay changes nothing in the document: no element is
created, no listener and no timer. -/
theorem slot_not_restarted (first : Change) (script : List (Nat × Change)) (es : List Event) (hp : ∀ x ∈ script, 0 < x.1)
    (hq : (∀ ui, (first = some ui ∨ some ui ∈ script.map (·.2)) → ui.count .input = 0) ∨ ∀ e ∈ es, ∀ i s, e ≠ .type i s)
    (hs : (Plan.run first script es).shown ≠ none)
    (hl : (Plan.run first script es).left ≠ 0 ∨ (Plan.run first script es).script = []) :
    ((Slotted.plain first script).run (es ++ [.poll])).world = ((Slotted.plain first script).run es).world := by
  have key : ∀ {q P S}, SlotSim first q P S → P.shown ≠ none → (P.left ≠ 0 ∨ P.script = []) → S.poll.world = S.world := by
    intro q P S h hs hl
    obtain ⟨c, hc⟩ := Option.ne_none_iff_exists'.1 hs
    obtain ⟨m1, k1⟩ := h.shown c hc
    obtain ⟨hd, e1, -⟩ := pollSlot_old m1 h.out k1
    have hnh : S.hangs = false := by simp only [Slotted.hangs, h.out]
    have hnh1 : S.pollSlot.hangs = false := by rw [e1]; simp only [Slotted.hangs, h.out]
    have hx : S.pollSlot.pollBlock = S.pollSlot := by
      rw [e1]
      cases hsc : S.script with
      | nil => simp only [Slotted.pollBlock]
      | cons x rest =>
        have hne : P.script ≠ [] := by
          intro hx
          have := h.script
          rw [hx, hsc] at this
          cases this
        obtain ⟨t, ht, hlt⟩ := h.timer c hc hne
        obtain ⟨n, hn⟩ := Nat.exists_eq_succ_of_ne_zero (hl.resolve_right hne)
        rw [hn] at hlt
        simp only [Slotted.pollBlock, ht, hlt.pos, Bool.false_eq_true, if_false]
    simp only [Slotted.poll, hnh, hnh1, hx]
    rw [e1]
    simp only [m1, Option.isSome_none, Bool.false_eq_true, if_false]
  have hr : (Slotted.plain first script).run (es ++ [.poll]) = ((Slotted.plain first script).run es).poll := by
    simp only [Slotted.run, List.foldl_append]; rfl
  rw [hr]
  rcases hq with hq | hq
  · exact key (slotSim_run (q := true) hp (fun _ => hq) (.inl rfl)) hs hl
  · exact key (slotSim_run (q := false) hp nofun (.inr hq)) hs hl

/-- The button stays, and is not made again. -/
example : ((Slotted.plain (some (.elem .button (by decide) (.text "a"))) [(7, none)]).run ([.poll, .advance 4] ++ [.poll])).world =
    ((Slotted.plain (some (.elem .button (by decide) (.text "a"))) [(7, none)]).run [.poll, .advance 4]).world :=
  slot_not_restarted _ _ _ (by simp) (.inr (by simp)) (by simp [Plan.run, Plan.step, Plan.poll, Plan.start])
    (.inl (by simp [Plan.run, Plan.step, Plan.poll, Plan.start, wait]))

/-! ## In terms of time -/

/-- What a content looks like. -/
def look : Change → List View
  | some ui => ui.view
  | none => []

/-- The plan is at its `k`-th content, `T` milliseconds after the first run. -/
structure PlanAt (first : Change) (script : List (Nat × Change)) (k : Nat) (T : Nat) (P : Plan) : Prop where
  le : k ≤ script.length
  shown : ∃ c, P.shown = some c ∧ (first :: script.map (·.2))[k]? = some c
  rest : P.script = script.drop k
  left : P.left ≤ wait (script.drop k)
  time : ((script.take k).map (·.1)).sum + wait (script.drop k) ≤ P.left + T

theorem PlanAt.next {first : Change} {script : List (Nat × Change)} {k T : Nat} {P : Plan} (h : PlanAt first script k T P)
    (hk : k < script.length) (h0 : P.left = 0) : PlanAt first script (k + 1) T (P.poll first) := by
  obtain ⟨sh, left, sc⟩ := P
  obtain ⟨c, h1, -⟩ := h.shown
  have h2 := h.rest
  have h3 := h.time
  simp only at h0 h1 h2
  subst h0 h1
  have hd : script.drop k = script[k] :: script.drop (k + 1) := List.drop_eq_getElem_cons hk
  subst h2
  have he : Plan.poll first ⟨some c, 0, script.drop k⟩ = ⟨some script[k].2, wait (script.drop (k + 1)), script.drop (k + 1)⟩ := by
    rw [hd]; rfl
  rw [he]
  refine ⟨hk, ⟨_, rfl, by simp [hk]⟩, rfl, Nat.le_refl _, ?_⟩
  rw [hd] at h3
  simp only [wait] at h3
  simp only [List.take_succ_eq_append_getElem hk, List.map_append, List.sum_append, List.map_cons, List.map_nil, List.sum_cons,
    List.sum_nil] at h3 ⊢
  omega

theorem PlanAt.poll {first : Change} {script : List (Nat × Change)} {k T : Nat} {P : Plan} (h : PlanAt first script k T P) :
    ∃ k', k ≤ k' ∧ PlanAt first script k' T (P.poll first) := by
  by_cases hk : k < script.length ∧ P.left = 0
  · exact ⟨k + 1, Nat.le_succ _, h.next hk.1 hk.2⟩
  · refine ⟨k, Nat.le_refl _, ?_⟩
    have : P.poll first = P := by
      obtain ⟨sh, left, sc⟩ := P
      obtain ⟨c, h1, -⟩ := h.shown
      have h2 := h.rest
      simp only at h1 h2 hk
      subst h1 h2
      rcases Nat.lt_or_ge k script.length with hl | hl
      · cases left with
        | zero => exact absurd ⟨hl, rfl⟩ hk
        | succ n => rfl
      · rw [List.drop_eq_nil_of_le hl]; cases left <;> rfl
    rw [this]; exact h

theorem PlanAt.step {first : Change} {script : List (Nat × Change)} {k T : Nat} {P : Plan} (h : PlanAt first script k T P) (e : Event) :
    ∃ k', k ≤ k' ∧ PlanAt first script k' (T + Flow.time [e]) (P.step first e) := by
  cases e with
  | type i s => exact ⟨k, Nat.le_refl _, h⟩
  | poll => exact h.poll
  | advance ms =>
    refine ⟨k, Nat.le_refl _, h.le, h.shown, h.rest, ?_, ?_⟩
    · have := h.left
      simp only [Plan.step]; omega
    · have := h.time
      simp only [Plan.step, Flow.time]; omega
  | click i =>
    have hs : (k' : Nat) → k ≤ k' → PlanAt first script k' T (P.poll first) →
        ∃ k', k ≤ k' ∧ PlanAt first script k' T (P.step first (.click i)) := fun k' hk hp => by
      simp only [Plan.step]
      split
      · split
        · exact ⟨k', hk, hp⟩
        · exact ⟨k, Nat.le_refl _, h⟩
      · exact ⟨k, Nat.le_refl _, h⟩
    obtain ⟨k', hk, hp⟩ := h.poll
    exact hs k' hk hp

theorem planAt_run (first : Change) (script : List (Nat × Change)) (es : List Event) :
    ∃ k, PlanAt first script k (time es) (Plan.run first script (.poll :: es)) := by
  unfold Plan.run
  induction es using List.reverseRecOn with
  | nil => exact ⟨0, Nat.zero_le _, ⟨first, rfl, rfl⟩, rfl, Nat.le_refl _, by simp [Plan.step, Plan.poll, Plan.start]⟩
  | append_singleton es e ih =>
    obtain ⟨k, h⟩ := ih
    obtain ⟨k', -, h'⟩ := h.step e
    rw [← List.cons_append, List.foldl_append, time_append]
    exact ⟨k', h'⟩

/-- **C83, in time.** Once the executor has run, the page always shows exactly one of the contents, in their order, and not before
the waits up to it are over; and if the executor runs after the next wait, the next content is there. -/
theorem slot_in_time (first : Change) (script : List (Nat × Change)) (es : List Event) (hp : ∀ x ∈ script, 0 < x.1)
    (hq : (∀ ui, (first = some ui ∨ some ui ∈ script.map (·.2)) → ui.count .input = 0) ∨ ∀ e ∈ es, ∀ i s, e ≠ .type i s) :
    ∃ k c, (first :: script.map (·.2))[k]? = some c ∧
      ((Slotted.plain first script).run (.poll :: es)).page = look c ∧
      ((script.take k).map (·.1)).sum ≤ time es ∧
      ∀ ms d, script[k]? = some d → d.1 ≤ ms →
        ((Slotted.plain first script).run (.poll :: es ++ [.advance ms, .poll])).page = look d.2 := by
  obtain ⟨k, h⟩ := planAt_run first script es
  obtain ⟨c, h1, h2⟩ := h.shown
  have hl : ∀ {P : Plan} {c}, P.shown = some c → P.page = look c := fun {P c} hc => by
    simp only [Plan.page, hc]; cases c <;> rfl
  refine ⟨k, c, h2, ?_, ?_, fun ms d hd hms => ?_⟩
  · rw [slot_page _ _ _ hp (hq.imp_right fun h e he => ?_)]
    · exact hl h1
    · rcases List.mem_cons.1 he with rfl | he
      · simp
      · exact h e he
  · have := h.time
    have := h.left
    omega
  · rw [slot_page _ _ _ hp (hq.imp_right fun h e he => ?_)]
    · obtain ⟨hk, hd⟩ := List.getElem?_eq_some_iff.1 hd
      have hw : wait (script.drop k) = d.1 := by rw [List.drop_eq_getElem_cons hk, hd]; rfl
      have h3 : PlanAt first script k (time es + ms) ((Plan.run first script (.poll :: es)).step first (.advance ms)) :=
        ⟨h.le, h.shown, h.rest, by have := h.left; simp only [Plan.step]; omega,
          by have := h.time; simp only [Plan.step]; omega⟩
      have h4 := h3.next hk (by have := h.left; simp only [Plan.step]; omega)
      obtain ⟨c', h5, h6⟩ := h4.shown
      have hr : Plan.run first script (.poll :: es ++ [.advance ms, .poll]) =
          ((Plan.run first script (.poll :: es)).step first (.advance ms)).poll first := by
        simp only [Plan.run, List.foldl_append]; rfl
      rw [hr, hl h5]
      simp [hk, hd] at h6
      rw [← h6]
    · simp only [List.cons_append, List.mem_cons, List.mem_append, List.not_mem_nil, or_false] at he
      rcases he with rfl | he | rfl | rfl
      · simp
      · exact h e he
      · simp
      · simp

/-- The button, `dynamic_slot.rs:11-16` of the guide -/
def buttonUi : Ui := .elem .button (by decide) (.text "I will disappear soon!")

/-- Three contents, one with a button and one with an input that the user could type into: the hypotheses hold. -/
example (es : List Event) (h : ∀ e ∈ es, ∀ i s, e ≠ .type i s) :
    ((Slotted.plain (some buttonUi) [(7, some (.elem .input (by decide) .nothing)), (5, none)]).run es).page =
      (Plan.run (some buttonUi) [(7, some (.elem .input (by decide) .nothing)), (5, none)] es).page :=
  slot_page _ _ _ (by simp) (.inr h)

example : ((Slotted.plain (some buttonUi) [(7, some (.text "a")), (5, none)]).run [.poll, .advance 4, .click 0]).page =
      [.elem .button "" "" [.text "I will disappear soon!"]] ∧
    ((Slotted.plain (some buttonUi) [(7, some (.text "a")), (5, none)]).run [.poll, .advance 4, .click 0, .advance 3, .click 0]).page =
      [.text "a"] := by
  constructor <;> rw [slot_page _ _ _ (by simp) (.inr (by simp))] <;> rfl

/-! ## Contents that do something -/

/-- `g` is what `f` has become after some polls. -/
inductive From (f : Fut Unit) : Fut Unit → Prop
  | first (w : World) : From f (poll f w).1
  | more (g : Fut Unit) (w : World) (h : From f g) : From f (poll g w).1

/-- The slot holds this content, or is empty if it was cleared. -/
def HoldsAny (c : Option (Fut Unit)) (held : Option (Fut Unit)) : Prop :=
  match c with
  | none => held = none
  | some f => ∃ g, held = some g ∧ From f g

/-- The page shows what this content shows after its first poll, or nothing if there is none. -/
def ShowsFirst (c : Option (Fut Unit)) (page : List View) : Prop :=
  match c with
  | none => page = []
  | some f => ∃ w, page = (poll f w).1.shown (poll f w).2.1

/-- The component is at its `k`-th content, `T` milliseconds after the first run, and `left` before the next. -/
structure AnyAt (first : Option (Fut Unit)) (script : List (Nat × Option (Fut Unit))) (k T left : Nat) (S : Slotted) : Prop where
  fresh : Fresh S.world
  message : S.message = none
  le : k ≤ script.length
  held : ∃ c, (first :: script.map (·.2))[k]? = some c ∧ HoldsAny c S.held
  rest : S.script = script.drop k
  bound : left ≤ wait (script.drop k)
  time : ((script.take k).map (·.1)).sum + wait (script.drop k) ≤ left + T
  timer : k < script.length → ∃ t, S.timer = some t ∧ Left S.world t left

/-- Not in a loop without end. -/
def Alive (S : Slotted) (P : Prop) : Prop := S.hangs = true ∨ P

theorem pollSlot_grows (S : Slotted) : ∃ m h o w, S.pollSlot = { S with message := m, held := h, out := o, world := w } ∧ Grows S.world w := by
  unfold Slotted.pollSlot
  split
  · exact ⟨_, _, _, _, rfl, poll_grows _ _⟩
  · exact ⟨_, _, _, _, rfl, .refl _⟩
  · exact ⟨_, _, _, _, rfl, poll_grows _ _⟩
  · exact ⟨_, _, _, _, rfl, .refl _⟩

/-- A change arrives at the slot. -/
theorem pollSlot_change {S : Slotted} {c : Option (Fut Unit)} (h : S.message = some c) :
    S.pollSlot.message = none ∧ HoldsAny c S.pollSlot.held ∧ ShowsFirst c S.pollSlot.page := by
  obtain ⟨m, hd, o, sc, t, w⟩ := S
  simp only at h
  subst h
  cases c with
  | none => exact ⟨rfl, rfl, rfl⟩
  | some f => exact ⟨rfl, ⟨_, rfl, .first w⟩, w, rfl⟩

/-- No change. -/
theorem pollSlot_none {S : Slotted} {c : Option (Fut Unit)} (h : S.message = none) (hh : HoldsAny c S.held) :
    S.pollSlot.message = none ∧ HoldsAny c S.pollSlot.held := by
  obtain ⟨m, hd, o, sc, t, w⟩ := S
  simp only at h hh
  subst h
  cases c with
  | none => cases hh; exact ⟨rfl, rfl⟩
  | some f =>
    obtain ⟨g, rfl, hg⟩ := hh
    cases o with
    | pend => exact ⟨rfl, _, rfl, .more g w hg⟩
    | ready a => exact ⟨rfl, g, rfl, hg⟩
    | hang => exact ⟨rfl, g, rfl, hg⟩

/-- The wait is over: the executor runs, and the next content is there. -/
theorem AnyAt.next {first : Option (Fut Unit)} {script : List (Nat × Option (Fut Unit))} {k T : Nat} {S : Slotted}
    (hp : ∀ x ∈ script, 0 < x.1) (h : AnyAt first script k T 0 S) (hk : k < script.length) :
    Alive S.poll (AnyAt first script (k + 1) T (wait (script.drop (k + 1))) S.poll ∧ ShowsFirst script[k].2 S.poll.page) := by
  unfold Alive Slotted.poll
  split
  · next hh => exact .inl hh
  split
  · next hh => exact .inl hh
  obtain ⟨m1, hd1, o1, w1, e1, g1⟩ := pollSlot_grows S
  obtain ⟨t, ht, hl⟩ := h.timer hk
  have hw1 := g1.fresh h.fresh
  have hfire : w1.fired t = true := (hl.grows h.fresh g1).zero
  have hd : script.drop k = script[k] :: script.drop (k + 1) := List.drop_eq_getElem_cons hk
  obtain ⟨t2, w2, e2, g2, -, t3⟩ := wait_spec
    (S := { S with message := some script[k].2, held := hd1, out := o1, script := script.drop (k + 1), world := w1 }) hw1
    (fun x hx => hp x (List.mem_of_mem_drop hx))
  have hpb : S.pollSlot.pollBlock = { S with
      message := some script[k].2, held := hd1, out := o1, script := script.drop (k + 1), timer := t2, world := w2 } := by
    rw [e1]
    simp only [Slotted.pollBlock, h.rest, hd, ht, hfire, if_true]
    exact e2
  rw [hpb]
  simp only [Option.isSome_some, if_true]
  obtain ⟨a1, a2, a3⟩ := pollSlot_change (S := { S with
      message := some script[k].2, held := hd1, out := o1, script := script.drop (k + 1), timer := t2, world := w2 }) rfl
  obtain ⟨m4, hd4, o4, w4, e4, g4⟩ := pollSlot_grows { S with
      message := some script[k].2, held := hd1, out := o1, script := script.drop (k + 1), timer := t2, world := w2 }
  have hw2 := g2.fresh hw1
  refine .inr ⟨⟨?_, a1, hk, ⟨_, by simp [hk], a2⟩, by rw [e4], Nat.le_refl _, ?_, fun hk2 => ?_⟩, a3⟩
  · rw [e4]; exact g4.fresh hw2
  · have h3 := h.time
    rw [hd] at h3
    simp only [wait] at h3
    simp only [List.take_succ_eq_append_getElem hk, List.map_append, List.sum_append, List.map_cons, List.map_nil, List.sum_cons,
      List.sum_nil]
    omega
  · obtain ⟨t', h5, h6⟩ := t3 (by simpa using hk2)
    exact ⟨t', by rw [e4]; exact h5, by rw [e4]; exact h6.grows hw2 g4⟩

theorem AnyAt.poll {first : Option (Fut Unit)} {script : List (Nat × Option (Fut Unit))} {k T left : Nat} {S : Slotted}
    (hp : ∀ x ∈ script, 0 < x.1) (h : AnyAt first script k T left S) :
    Alive S.poll (∃ k' left', AnyAt first script k' T left' S.poll) := by
  by_cases hk : k < script.length ∧ left = 0
  · obtain ⟨hk, rfl⟩ := hk
    rcases h.next hp hk with h | ⟨h, -⟩
    · exact .inl h
    · exact .inr ⟨_, _, h⟩
  · obtain ⟨c, h1, h2⟩ := h.held
    obtain ⟨a1, a2⟩ := pollSlot_none h.message h2
    obtain ⟨m1, hd1, o1, w1, e1, g1⟩ := pollSlot_grows S
    have hx : S.pollSlot.pollBlock = S.pollSlot := by
      rcases Nat.lt_or_ge k script.length with hl | hl
      · obtain ⟨t, ht, hlt⟩ := h.timer hl
        obtain ⟨n, rfl⟩ := Nat.exists_eq_succ_of_ne_zero (fun h0 => hk ⟨hl, h0⟩)
        have := (hlt.grows h.fresh g1).pos
        rw [e1]
        simp only [Slotted.pollBlock, h.rest, List.drop_eq_getElem_cons hl, ht, this, Bool.false_eq_true, if_false]
      · rw [e1]
        simp only [Slotted.pollBlock, h.rest, List.drop_eq_nil_of_le hl]
    unfold Alive Slotted.poll
    split
    · next hh => exact .inl hh
    split
    · next hh => exact .inl hh
    rw [hx, a1]
    refine .inr ⟨k, left, ?_, a1, h.le, ⟨c, h1, a2⟩, by rw [e1]; exact h.rest, h.bound, h.time, fun hl => ?_⟩
    · rw [e1]; exact g1.fresh h.fresh
    · obtain ⟨t, ht, hlt⟩ := h.timer hl
      exact ⟨t, by rw [e1]; exact ht, by rw [e1]; exact hlt.grows h.fresh g1⟩

theorem hangs_step {S : Slotted} (h : S.hangs = true) (e : Event) : (S.step e).hangs = true := by
  have hp : ∀ w, Slotted.hangs (Slotted.poll { S with world := w }) = true := fun w => by
    have : Slotted.hangs { S with world := w } = true := h
    simp only [Slotted.poll, this, if_true]
  cases e with
  | type i s => simp only [Slotted.step]; split <;> exact h
  | click i =>
    simp only [Slotted.step]
    split
    · exact hp _
    · exact h
  | advance ms => exact h
  | poll => exact hp S.world

theorem AnyAt.step {first : Option (Fut Unit)} {script : List (Nat × Option (Fut Unit))} {k T left : Nat} {S : Slotted}
    (hp : ∀ x ∈ script, 0 < x.1) (h : AnyAt first script k T left S) (e : Event) :
    Alive (S.step e) (∃ k' left', AnyAt first script k' (T + Flow.time [e]) left' (S.step e)) := by
  cases e with
  | type i s =>
    simp only [Slotted.step]
    split
    · exact .inr ⟨k, left, h.fresh.prop _, h.message, h.le, h.held, h.rest, h.bound, h.time, h.timer⟩
    · exact .inr ⟨k, left, h⟩
  | poll => exact h.poll hp
  | advance ms =>
    refine .inr ⟨k, left - ms, ⟨fun j hj => ?_, h.fresh.listens, h.fresh.due, h.fresh.apart⟩, h.message, h.le, h.held, h.rest, ?_, ?_, fun hl => ?_⟩
    · simp [Slotted.step, later, h.fresh.fired j hj, h.fresh.due j hj]
    · have := h.bound; omega
    · have := h.time
      simp only [Flow.time]; omega
    · obtain ⟨t, h1, h2⟩ := h.timer hl
      exact ⟨t, h1, h2.advance ms⟩
  | click i =>
    simp only [Slotted.step]
    split
    · next n _ =>
      refine AnyAt.poll hp (left := left) ⟨⟨fun j hj => ?_, h.fresh.listens, h.fresh.due, h.fresh.apart⟩, h.message, h.le, h.held, h.rest, h.bound, h.time,
        fun hl => ?_⟩
      · simp [h.fresh.fired j hj, h.fresh.listens j hj]
      · obtain ⟨t, h1, h2⟩ := h.timer hl
        exact ⟨t, h1, h2.click h.fresh n⟩
    · exact .inr ⟨k, left, h⟩

theorem anyAt_run {first : Option (Fut Unit)} {script : List (Nat × Option (Fut Unit))} (hp : ∀ x ∈ script, 0 < x.1) (es : List Event) :
    Alive ((Slotted.mount first script).run (.poll :: es)) (∃ k left, AnyAt first script k (time es) left
      ((Slotted.mount first script).run (.poll :: es))) := by
  unfold Slotted.run
  induction es using List.reverseRecOn with
  | append_singleton es e ih =>
    rw [← List.cons_append, List.foldl_append, time_append]
    rcases ih with ih | ⟨k, left, ih⟩
    · exact .inl (hangs_step ih e)
    · exact ih.step hp e
  | nil =>
    have hw : Fresh World.init := run_fresh (.pure ()) []
    show Alive (Slotted.mount first script).poll (∃ k left, AnyAt first script k 0 left (Slotted.mount first script).poll)
    obtain ⟨a1, a2, -⟩ := pollSlot_change (S := Slotted.mount first script) rfl
    obtain ⟨m1, hd1, o1, w1, e1, g1⟩ := pollSlot_grows (Slotted.mount first script)
    have hw1 := g1.fresh hw
    have hm1 : m1 = none := by rw [e1] at a1; exact a1
    subst hm1
    obtain ⟨t2, w2, e2, g2, -, t3⟩ := wait_spec (S := ⟨none, hd1, o1, script, none, w1⟩) hw1 hp
    have hpb : (Slotted.mount first script).pollSlot.pollBlock = ⟨none, hd1, o1, script, t2, w2⟩ := by
      rw [e1]
      simp only [Slotted.mount]
      rw [← e2]
      cases script <;> simp [Slotted.pollBlock, Slotted.wait]
    unfold Alive Slotted.poll
    split
    · next hh => exact .inl hh
    split
    · next hh => exact .inl hh
    rw [hpb]
    refine .inr ⟨0, wait script, g2.fresh hw1, rfl, Nat.zero_le _, ⟨first, rfl, ?_⟩, rfl, Nat.le_refl _, by simp, fun hl => ?_⟩
    · rw [e1] at a2; exact a2
    · exact t3 (by rintro rfl; simp at hl)

/-- **C83, any contents.** The contents may do what they like: wait for clicks, start timers, show other things, or finish. Once the executor has run, the slot always
holds exactly one of them (or is empty, if cleared), in their order, and not before the waits up to it are over; and if the executor runs
after the next wait, the page shows the next content, just started, and nothing of the one before. The only exception is a content that
never returns from a poll, which stops the whole app. -/
theorem slot_any_in_time (first : Option (Fut Unit)) (script : List (Nat × Option (Fut Unit))) (es : List Event)
    (hp : ∀ x ∈ script, 0 < x.1) :
    let S := (Slotted.mount first script).run (.poll :: es)
    S.hangs = true ∨ ∃ k c, (first :: script.map (·.2))[k]? = some c ∧ HoldsAny c S.held ∧
      ((script.take k).map (·.1)).sum ≤ time es ∧
      ∀ ms d, script[k]? = some d → d.1 ≤ ms →
        let S' := (Slotted.mount first script).run (.poll :: es ++ [.advance ms, .poll])
        S'.hangs = true ∨ ShowsFirst d.2 S'.page := by
  rcases anyAt_run (first := first) hp es with h | ⟨k, left, h⟩
  · exact .inl h
  · obtain ⟨c, h1, h2⟩ := h.held
    refine .inr ⟨k, c, h1, h2, ?_, fun ms d hd hms => ?_⟩
    · have := h.time
      have := h.bound
      omega
    · obtain ⟨hk, hd⟩ := List.getElem?_eq_some_iff.1 hd
      have hwt : wait (script.drop k) = d.1 := by rw [List.drop_eq_getElem_cons hk, hd]; rfl
      have hl := h.bound
      have h3 : AnyAt first script k (time es + ms) 0 (((Slotted.mount first script).run (.poll :: es)).step (.advance ms)) := by
        refine ⟨⟨fun j hj => ?_, h.fresh.listens, h.fresh.due, h.fresh.apart⟩, h.message, h.le, h.held, h.rest, Nat.zero_le _, ?_, fun hl' => ?_⟩
        · simp [Slotted.step, later, h.fresh.fired j hj, h.fresh.due j hj]
        · have := h.time; omega
        · obtain ⟨t, h4, h5⟩ := h.timer hl'
          have := h5.advance ms
          rw [Nat.sub_eq_zero_of_le (by omega)] at this
          exact ⟨t, h4, this⟩
      have hr : (Slotted.mount first script).run (.poll :: es ++ [.advance ms, .poll]) =
          (((Slotted.mount first script).run (.poll :: es)).step (.advance ms)).poll := by
        simp only [Slotted.run, List.foldl_append]; rfl
      simp only [hr]
      rcases h3.next hp hk with h4 | ⟨-, h4⟩
      · exact .inl h4
      · rw [hd] at h4; exact .inr h4

/-- A button that is shown until it is clicked. -/
def okOnce : Fut Unit :=
  .create fun b => .bind (.race (.node .button b false (.text "OK" false)) (.click b none)) fun _ => .pure ()

/-- The first content finishes before the change; the change comes all the same, and so does one that comes before the click. -/
example : ((Slotted.mount (some okOnce) [(7, some (.text "a" false)), (5, none)]).run [.poll]).page = [.elem .button "" "" [.text "OK"]] ∧
    ((Slotted.mount (some okOnce) [(7, some (.text "a" false)), (5, none)]).run [.poll, .click 0]).page = [] ∧
    ((Slotted.mount (some okOnce) [(7, some (.text "a" false)), (5, none)]).run [.poll, .click 0, .advance 7, .poll]).page = [.text "a"] ∧
    ((Slotted.mount (some okOnce) [(7, some (.text "a" false)), (5, none)]).run [.poll, .advance 7, .click 0, .click 0]).page = [.text "a"] :=
  ⟨rfl, rfl, rfl, rfl⟩

example : ∃ (k : Nat) (c : Option (Fut Unit)), (some okOnce :: [some (.text "a" false), none])[k]? = some c ∧
    HoldsAny c ((Slotted.mount (some okOnce) [(7, some (.text "a" false)), (5, none)]).run (.poll :: [.click 0, .advance 8, .poll])).held := by
  rcases slot_any_in_time (some okOnce) [(7, some (.text "a" false)), (5, none)] [.click 0, .advance 8, .poll] (by simp) with
    h | ⟨k, c, h1, h2, -⟩
  · exact absurd h (by decide)
  · exact ⟨k, c, h1, h2⟩

/-! ## The two versions of the guide -/

/-- `show_button_and_remove`, `dynamic_slot.rs:8-36` -/
def slotVersion : Slotted :=
  .plain (some buttonUi) [(3000, some (.text "The button is gone!")), (3000, none)]

def slotPlan : Plan := .start [(3000, some (.text "The button is gone!")), (3000, none)]

/-- The two specifications agree. -/
def Agree : Show → Plan → Prop
  | .start, P => P = slotPlan
  | .button left, P => P = { slotPlan with shown := some (some buttonUi), left := left }
  | .text left, P => P = ⟨some (some (.text "The button is gone!")), left, [(3000, none)]⟩
  | .gone, P => P.shown = some none ∧ P.script = []

theorem agree_step {s : Show} {P : Plan} (h : Agree s P) (e : Event) : Agree (s.step e) (P.step (some buttonUi) e) := by
  rcases s with _ | left | left | _
  · cases h
    cases e with
    | advance ms => simp [Show.step, Plan.step, Agree, slotPlan, Plan.start]
    | _ => rfl
  · cases h
    rcases e with ⟨i, x⟩ | i | ms | _
    · cases left <;> rfl
    · cases left <;> cases i <;> rfl
    · rfl
    · cases left <;> rfl
  · cases h
    rcases e with ⟨i, x⟩ | i | ms | _ <;> cases left <;> first | rfl | exact ⟨rfl, rfl⟩
  · obtain ⟨sh, left, sc⟩ := P
    obtain ⟨h1, h2⟩ := h
    simp only at h1 h2
    subst h1 h2
    rcases e with ⟨i, x⟩ | i | ms | _ <;> cases left <;> exact ⟨rfl, rfl⟩

theorem plan_show (es : List Event) : (Plan.run (some buttonUi) slotPlan.script es).page = (Show.run es).page := by
  have h : Agree (Show.run es) (Plan.run (some buttonUi) slotPlan.script es) := by
    unfold Show.run Plan.run
    induction es using List.reverseRecOn with
    | nil => rfl
    | append_singleton es e ih =>
      rw [List.foldl_append, List.foldl_append]
      exact agree_step ih e
  generalize Show.run es = s at h
  generalize Plan.run (some buttonUi) slotPlan.script es = P at h
  rcases s with _ | left | left | _
  · cases h; rfl
  · cases h; rfl
  · cases h; rfl
  · simp only [Plan.page, h.1]; rfl

/-- **C83, the guide.** The version with a `DynamicSlot` and the one with `race` (C78) show the same at all times, whatever happens. -/
theorem slot_same_as_race (es : List Event) : (slotVersion.run es).page = pageAfter showAndRemove es := by
  rw [showAndRemove_page, slotVersion, slot_page _ _ _ (by simp) (.inl (by
    intro ui h
    simp only [Option.some.injEq, List.map_cons, List.map_nil, List.mem_cons, List.not_mem_nil, or_false, reduceCtorEq] at h
    rcases h with h | h <;> subst h <;> rfl))]
  exact plan_show es

end Verif.Flow.Guide
