import Verif.Events.Lemmas
import Mathlib.Data.List.Induction
import Mathlib.Data.List.Nodup
/-!
# C84: the links of the guide

`examples/guide-project/src/events/mod.rs:22-56` and the text around it in `guide/src/events/README.md`: a link whose clicks are
stopped with `prevent_default`, once, in a loop, or with the stream. The event streams are those of `Events/Model` (C40); here
they are together with the browser's dispatch of a click, with the block that waits, and with other event streams, also on the same link,
that other blocks and tasks make, poll and drop at any moment.
-/
namespace Verif.Apps.Link
open Verif.Events

/-- What is joined with `link.render(..)`. -/
inductive Program
  /-- `let ev = link.until_click().await; ev.prevent_default();` (`events/mod.rs:29-34`) -/
  | once
  /-- the same in a `loop` (`README.md:71-72`) -/
  | loop
  /-- `link.until_click().for_each(|ev| ev.prevent_default())` (`events/mod.rs:48-53`) -/
  | stream
deriving DecidableEq

/-- How far the block is. -/
inductive Block
  | unstarted
  /-- it awaits this event stream -/
  | waits (i : Nat)
  | done
deriving DecidableEq

/-- The app: the event streams and listeners, the block, the events on which it has called `prevent_default`, how often the user has clicked, and
which of the clicks opened the link. -/
structure App where
  dom : World
  block : Block
  prevented : List Ev
  clicks : Nat
  opened : List Ev

def mount : App := ⟨init, .unstarted, [], 0, []⟩

/-- A call on the event streams, and what a poll returned. -/
def call (W : World) (op : Op) : World × Option Ev :=
  match step W op with
  | some (W', o) => (W', o.polled.join)
  | none => (W, none)

/-- `link.until_click()` (the link is target 0 and `click` type 0) and the first poll of it, with the waker of the block, which is 1. The first
poll never returns an event (`event_handling.rs:104-129`). -/
def start (A : App) : App :=
  { A with
    dom := (call (call A.dom (.new 0 0)).1 (.poll A.dom.streams.length 1)).1
    block := .waits A.dom.streams.length }

/-- A poll of the block. -/
def pollBlock (p : Program) (A : App) : App :=
  match A.block with
  | .unstarted => start A
  | .done => A
  | .waits i =>
    match call A.dom (.poll i 1) with
    | (W, none) => { A with dom := W }
    | (W, some e) =>
      match p with
      -- the temporary `EventFutureStream` is dropped after `.await`
      | .once => { A with dom := (call W (.drop i)).1, block := .done, prevented := A.prevented ++ [e] }
      | .loop => start { A with dom := (call W (.drop i)).1, prevented := A.prevented ++ [e] }
      -- `for_each` of futures-lite polls the stream until it is pending
      | .stream =>
        match call W (.poll i 1) with
        | (W', none) => { A with dom := W', prevented := A.prevented ++ [e] }
        | (W', some e') => { A with dom := W', prevented := A.prevented ++ [e, e'] }

/-- Is this about the stream of the block, or a click on the link? -/
def touches (b : Block) : Op → Bool
  | .new _ _ => false
  | .setCapture j _ => b = .waits j
  | .setPassive j _ => b = .waits j
  | .poll j _ => b = .waits j
  | .drop j => b = .waits j
  | .deliver l _ => l.target == 0 && l.type == 0

/-- What other blocks and tasks do. -/
def others (A : App) (ops : List Op) : App :=
  ops.foldl (fun A op => if touches A.block op then A else { A with dom := (call A.dom op).1 }) A

/-- The browser calls one listener: the callback (`event_handling.rs:106-113`) stores the event and wakes, and `run_now` polls the block if it was woken
(C82), and whatever else was. A listener that has been removed in the meantime is not called. -/
def visit (p : Program) (e : Ev) (env : List Op) (l : Listener) (A : App) : App :=
  match step A.dom (.deliver l e) with
  | some (W, o) =>
    let A := { A with dom := W }
    others (if o.woke = some 1 then pollBlock p A else A) env
  | none => A

/-- The browser calls the listeners that there were when the dispatch began. -/
def dispatch (p : Program) (e : Ev) : List Listener → List (List Op) → App → App
  | [], _, A => A
  | l :: ls, envs, A => dispatch p e ls envs.tail (visit p e (envs.headD []) l A)

/-- What happens. -/
inductive Event
  /-- the executor runs and polls the block, for whatever reason -/
  | run
  /-- other code does something with event streams -/
  | other (op : Op)
  /-- the user clicks on the link; after the `k`-th listener other tasks do the `k`-th of these -/
  | click (envs : List (List Op))

/-- Before the executor has run the link is not on the page. After the dispatch of a click the browser opens the link, unless
`prevent_default` has been called on the event. -/
def App.step (p : Program) (A : App) : Event → App
  | .run => pollBlock p A
  | .other op => others A [op]
  | .click envs =>
    if A.block = .unstarted then A
    else
      let B := dispatch p A.clicks (A.dom.listeners.filter fun l => l.target == 0 && l.type == 0) envs
        { A with clicks := A.clicks + 1 }
      { B with opened := if A.clicks ∈ B.prevented then B.opened else B.opened ++ [A.clicks] }

def App.run (p : Program) (es : List Event) : App := es.foldl (App.step p) mount

/-! ## Specification -/

/-- The clicks (numbered from 0) on which `prevent_default` should have been called after `n` clicks. -/
def stopped : Program → Nat → List Ev
  | .once, n => (List.range n).take 1
  | .loop, n => List.range n
  | .stream, n => List.range n

/-- The clicks that should have opened the link. -/
def followed : Program → Nat → List Ev
  | .once, n => (List.range n).drop 1
  | .loop, _ => []
  | .stream, _ => []

def Event.isRun : Event → Bool
  | .run => true
  | _ => false

def Event.isClick : Event → Bool
  | .click _ => true
  | _ => false

/-- The number of clicks since the executor has run for the first time. -/
def clicked (es : List Event) : Nat := ((es.dropWhile fun e => !e.isRun).filter Event.isClick).length

/-! ## Proof -/

/-- The stream of the block: waiting, with the waker of the block and without options. -/
structure Mine (H : History) (i : Nat) : Prop where
  made : H.made[i]? = some (0, 0)
  view : H.view i = ⟨false, false, some 1, false, none⟩

theorem live_stream {W : World} {H : History} (h : Inv W H) {i : Nat} (hi : i < H.made.length) (hd : (H.view i).dropped = false) :
    ∃ s, W.streams[i]?.join = some s := by
  have hl : i < W.streams.length := by rw [h.length]; exact hi
  have hg := h.gone i
  rw [hd] at hg
  rw [List.getElem?_eq_getElem hl] at hg ⊢
  cases hs : W.streams[i] with
  | none => rw [hs] at hg; simp at hg
  | some s => exact ⟨s, rfl⟩

theorem call_poll {W : World} {H : History} (h : Inv W H) {i : Nat} (hi : i < H.made.length) (hd : (H.view i).dropped = false)
    (w : Waker) : ∃ W', call W (.poll i w) = (W', (H.view i).unread) ∧ Inv W' (H.next (.poll i w)) := by
  obtain ⟨s, hs⟩ := live_stream h hi hd
  have : ∃ W' o, step W (.poll i w) = some (W', o) := by
    simp only [step, hs, Option.bind_eq_bind, Option.bind_some]
    split <;> exact ⟨_, _, rfl⟩
  obtain ⟨W', o, ho⟩ := this
  obtain ⟨h1, rfl⟩ := inv_step h ho
  exact ⟨W', by simp only [call, ho, History.obs, Option.join_some], h1⟩

theorem call_drop {W : World} {H : History} (h : Inv W H) {i : Nat} (hi : i < H.made.length) (hd : (H.view i).dropped = false) :
    Inv (call W (.drop i)).1 (H.next (.drop i)) := by
  obtain ⟨s, hs⟩ := live_stream h hi hd
  have : ∃ W' o, step W (.drop i) = some (W', o) := by
    simp only [step, hs, Option.bind_eq_bind, Option.bind_some]
    exact ⟨_, _, rfl⟩
  obtain ⟨W', o, ho⟩ := this
  obtain ⟨h1, rfl⟩ := inv_step h ho
  simpa only [call, ho] using h1

theorem Mine.lt {H : History} {i : Nat} (h : Mine H i) : i < H.made.length := (List.getElem?_eq_some_iff.1 h.made).1

/-- What the block knows, with the position of its stream among the JavaScript functions. -/
structure Waiting (W : World) (H : History) (i c : Nat) : Prop where
  inv : Inv W H
  mine : Mine H i
  place : H.order[c]? = some i

theorem Mine.place {W : World} {H : History} {i : Nat} (h : Inv W H) (m : Mine H i) : ∃ c, Waiting W H i c := by
  have : i ∈ H.order := (h.polled i).2 (by rw [m.view]; simp)
  obtain ⟨c, hc⟩ := List.mem_iff_getElem?.1 this
  exact ⟨c, h, m, hc⟩

/-- A poll without an event. -/
theorem Waiting.poll {W : World} {H : History} {i c : Nat} (h : Waiting W H i c) :
    ∃ W' H', call W (.poll i 1) = (W', none) ∧ Waiting W' H' i c ∧ H'.order = H.order := by
  obtain ⟨W', h1, h2⟩ := call_poll h.inv h.mine.lt (by rw [h.mine.view]) 1
  have ho : (H.next (.poll i 1)).order = H.order := by
    simp only [History.next, History.upd, h.mine.view]; simp
  refine ⟨W', _, by rw [h1, h.mine.view], ⟨h2, ⟨h.mine.made, ?_⟩, by rw [ho]; exact h.place⟩, ho⟩
  simp only [History.next, History.upd, if_true, h.mine.view]

/-- A new stream. -/
theorem start_waits {A : App} {H : History} (h : Inv A.dom H) :
    ∃ H' i c, (start A).block = .waits i ∧ Waiting (start A).dom H' i c ∧ H.order.length ≤ c ∧ H.order <+: H'.order := by
  obtain ⟨h1, -⟩ := inv_step (op := .new 0 0) h rfl
  have hi : A.dom.streams.length = H.made.length := h.length
  have hu := h.untouched H.made.length (Nat.le_refl _)
  obtain ⟨W', h2, h3⟩ := call_poll (i := H.made.length) h1 (by simp [History.next])
    (by simp only [History.next, hu]) 1
  have hs : (start A).dom = W' := by
    simp only [start, hi]
    rw [show (call A.dom (.new 0 0)).1 = { A.dom with streams := A.dom.streams ++ [some (.new 0 0)] } from rfl, h2]
  have ho : ((H.next (.new 0 0)).next (.poll H.made.length 1)).order = H.order ++ [H.made.length] := by
    simp only [History.next, History.upd, hu, if_true]
  refine ⟨_, H.made.length, H.order.length, by simp only [start, hi], ⟨hs ▸ h3, ⟨?_, ?_⟩, ?_⟩, Nat.le_refl _, ?_⟩
  · simp [History.next, History.upd]
  · simp only [History.next, History.upd, hu, if_true]
  · rw [ho]; simp
  · rw [ho]; exact List.prefix_append ..

/-- Others do not touch the stream of the block. -/
theorem other_inv {W : World} {H : History} (h : Inv W H) (op : Op) :
    ∃ H', Inv (call W op).1 H' ∧ H.order <+: H'.order ∧ ∀ i, touches (.waits i) op = false → Mine H i → Mine H' i := by
  unfold call
  cases ho : Events.step W op with
  | none => exact ⟨H, h, List.prefix_rfl, fun i _ m => m⟩
  | some r =>
    obtain ⟨W', o⟩ := r
    obtain ⟨h1, -⟩ := inv_step h ho
    refine ⟨_, h1, ?_, fun i ht m => ?_⟩
    · cases op with
      | poll j w => simp only [History.next, History.upd]; split
                    · exact List.prefix_append ..
                    · exact List.prefix_rfl
      | deliver l e => simp only [History.next]; split <;> exact List.prefix_rfl
      | _ => exact List.prefix_rfl
    · cases op with
      | new t y =>
        refine ⟨?_, m.view⟩
        simp only [History.next]
        rw [List.getElem?_append_left m.lt]; exact m.made
      | setCapture j b =>
        have : i ≠ j := by rintro rfl; simp [touches] at ht
        exact ⟨m.made, by simp only [History.next, History.upd, if_neg this, m.view]⟩
      | setPassive j b =>
        have : i ≠ j := by rintro rfl; simp [touches] at ht
        exact ⟨m.made, by simp only [History.next, History.upd, if_neg this, m.view]⟩
      | poll j w =>
        have : i ≠ j := by rintro rfl; simp [touches] at ht
        exact ⟨m.made, by simp only [History.next, History.upd, if_neg this, m.view]⟩
      | drop j =>
        have : i ≠ j := by rintro rfl; simp [touches] at ht
        exact ⟨m.made, by simp only [History.next, History.upd, if_neg this, m.view]⟩
      | deliver l e =>
        have hl : l ∈ W.listeners := by
          by_contra hn
          simp [Events.step, hn] at ho
        rw [h.listeners] at hl
        obtain ⟨j, hj, -, hw⟩ := callback_left hl
        have : i ≠ j := by
          rintro rfl
          rw [hw] at ht
          simp [touches, History.wanted, m.made] at ht
        simp only [History.next, hj]
        exact ⟨m.made, by simp only [History.upd, if_neg this, m.view]⟩

/-- The state of the app, apart from a dispatch. `n` is the least position of the next stream. -/
def Fine (p : Program) (A : App) (H : History) : Prop :=
  Inv A.dom H ∧
  match A.block with
  | .unstarted => True
  | .waits i => Mine H i
  | .done => p = .once

theorem others_fine {p : Program} {A : App} {H : History} (h : Fine p A H) (ops : List Op) :
    ∃ H' W, others A ops = { A with dom := W } ∧ Fine p { A with dom := W } H' ∧ H.order <+: H'.order := by
  unfold others
  induction ops generalizing A H with
  | nil => exact ⟨H, A.dom, rfl, h, List.prefix_rfl⟩
  | cons op ops ih =>
    simp only [List.foldl_cons]
    split
    · exact ih h
    · next ht =>
      obtain ⟨H1, h1, h2, h3⟩ := other_inv h.1 op
      have hf : Fine p { A with dom := (call A.dom op).1 } H1 := by
        refine ⟨h1, ?_⟩
        have := h.2
        cases hb : A.block with
        | unstarted => trivial
        | waits i =>
          rw [hb] at this ht
          exact h3 i (by simpa using ht) this
        | done => rw [hb] at this; exact this
      obtain ⟨H2, W, e1, h4, h5⟩ := ih hf
      exact ⟨H2, W, e1, h4, h2.trans h5⟩

/-- A poll that finds no event. -/
theorem pollBlock_fine {p : Program} {A : App} {H : History} (h : Fine p A H) (hb : A.block ≠ .unstarted) :
    ∃ H' W, pollBlock p A = { A with dom := W } ∧ Fine p { A with dom := W } H' ∧ H'.order = H.order := by
  obtain ⟨dom, block, pr, cl, op⟩ := A
  cases block with
  | unstarted => exact absurd rfl hb
  | done => exact ⟨H, dom, rfl, h, rfl⟩
  | waits i =>
    obtain ⟨c, hc⟩ := Mine.place h.1 h.2
    obtain ⟨W', H', h1, h2, h3⟩ := hc.poll
    exact ⟨H', W', by simp only [pollBlock, h1], ⟨h2.inv, h2.mine⟩, h3⟩

/-- The block does not wait for the listener `l`. -/
def Apart (A : App) (H : History) (l : Listener) : Prop := ∀ i, A.block = .waits i → H.order[l.callback]? ≠ some i

theorem Apart.grows {A : App} {H H' : History} {l : Listener} {W : World} (h : Apart A H l) (hl : l.callback < H.order.length)
    (ho : H.order <+: H'.order) : Apart { A with dom := W } H' l := by
  intro i hi hx
  refine h i hi ?_
  obtain ⟨t, ht⟩ := ho
  rw [← ht, List.getElem?_append_left hl] at hx
  exact hx

/-- A listener that is not the block's. -/
theorem visit_apart {p : Program} {A : App} {H : History} {l : Listener} (h : Fine p A H) (hb : A.block ≠ .unstarted) (ha : Apart A H l)
    (e : Ev) (env : List Op) :
    ∃ H' W, visit p e env l A = { A with dom := W } ∧ Fine p { A with dom := W } H' ∧ H.order <+: H'.order := by
  unfold visit
  cases ho : Events.step A.dom (.deliver l e) with
  | none => exact ⟨H, A.dom, rfl, h, List.prefix_rfl⟩
  | some r =>
    obtain ⟨W1, o⟩ := r
    obtain ⟨h1, -⟩ := inv_step h.1 ho
    have hord : (H.next (.deliver l e)).order = H.order := by simp only [History.next]; split <;> rfl
    have hf : Fine p { A with dom := W1 } (H.next (.deliver l e)) := by
      refine ⟨h1, ?_⟩
      have h2 := h.2
      cases hk : A.block with
      | unstarted => trivial
      | done => rw [hk] at h2; exact h2
      | waits i =>
        rw [hk] at h2
        have := ha i hk
        simp only [History.next]
        split
        · next j hj =>
          have : i ≠ j := by rintro rfl; exact this hj
          exact ⟨h2.made, by simp only [History.upd, if_neg this, h2.view]⟩
        · exact h2
    simp only
    split
    · obtain ⟨H2, W2, e2, f2, o2⟩ := pollBlock_fine hf hb
      obtain ⟨H3, W3, e3, f3, o3⟩ := others_fine f2 env
      refine ⟨H3, W3, by rw [e2, e3], f3, ?_⟩
      rw [← hord, ← o2]; exact o3
    · obtain ⟨H3, W3, e3, f3, o3⟩ := others_fine hf env
      exact ⟨H3, W3, e3, f3, hord ▸ o3⟩

/-- The rest of a dispatch in which the block has had its turn. -/
theorem dispatch_apart {p : Program} {e : Ev} {L : List Listener} {envs : List (List Op)} {A : App} {H : History} (h : Fine p A H)
    (hb : A.block ≠ .unstarted) (hl : ∀ l ∈ L, l.callback < H.order.length) (ha : ∀ l ∈ L, Apart A H l) :
    ∃ H' W, dispatch p e L envs A = { A with dom := W } ∧ Fine p { A with dom := W } H' := by
  induction L generalizing A H envs with
  | nil => exact ⟨H, A.dom, rfl, h⟩
  | cons l ls ih =>
    obtain ⟨H1, W1, e1, f1, o1⟩ := visit_apart h hb (ha l (by simp)) e (envs.headD [])
    have hlt : ∀ l ∈ ls, l.callback < H.order.length := fun l hm => hl l (List.mem_cons_of_mem _ hm)
    obtain ⟨H2, W2, e2, f2⟩ := ih (envs := envs.tail) (A := { A with dom := W1 }) f1 hb
      (fun l hm => Nat.lt_of_lt_of_le (hlt l hm) o1.length_le)
      (fun l hm => (ha l (List.mem_cons_of_mem _ hm)).grows (hlt l hm) o1)
    exact ⟨H2, W2, by rw [dispatch, e1, e2], f2⟩

/-- How far the block is after an event. -/
def Handled (p : Program) (b : Block) : Prop := match p with | .once => b = .done | _ => ∃ i, b = .waits i

/-- The block gets an event. -/
theorem pollBlock_event {p : Program} {A : App} {H : History} {i c : Nat} {e : Ev} (h : Inv A.dom H) (hb : A.block = .waits i)
    (hm : H.made[i]? = some (0, 0)) (hv : H.view i = ⟨false, false, some 1, false, some e⟩) (hc : H.order[c]? = some i) :
    ∃ H' W b, pollBlock p A = { A with dom := W, block := b, prevented := A.prevented ++ [e] } ∧
      Fine p { A with dom := W, block := b, prevented := A.prevented ++ [e] } H' ∧ Handled p b ∧ H.order <+: H'.order ∧
      ∀ j, b = .waits j → ∀ c' < H.order.length, c' ≠ c → H'.order[c']? ≠ some j := by
  have hi : i < H.made.length := (List.getElem?_eq_some_iff.1 hm).1
  obtain ⟨W1, e1, h1⟩ := call_poll h hi (by rw [hv]) 1
  have ho1 : (H.next (.poll i 1)).order = H.order := by
    simp only [History.next, History.upd, hv]; simp
  have hv1 : (H.next (.poll i 1)).view i = ⟨false, false, some 1, false, none⟩ := by
    simp only [History.next, History.upd, if_true, hv]
  have hm1 : (H.next (.poll i 1)).made[i]? = some (0, 0) := hm
  rw [hv] at e1
  have hdrop := call_drop h1 (i := i) hi (by rw [hv1])
  have hod : ((H.next (.poll i 1)).next (.drop i)).order = H.order := ho1
  cases p with
  | once =>
    refine ⟨_, (call W1 (.drop i)).1, .done, by simp only [pollBlock, hb, e1], ⟨hdrop, rfl⟩, rfl, hod ▸ List.prefix_rfl,
      fun j hj => by cases hj⟩
  | loop =>
    obtain ⟨H', j, c', b1, w1, g1, o1⟩ := start_waits
      (A := { A with dom := (call W1 (.drop i)).1, prevented := A.prevented ++ [e] }) hdrop
    rw [hod] at g1 o1
    refine ⟨H', _, .waits j, ?_, ⟨w1.inv, w1.mine⟩, ⟨j, rfl⟩, o1, ?_⟩
    · simp only [pollBlock, hb, e1]
      rw [← b1]; rfl
    · intro j' hj' k hk _ hx
      cases hj'
      have := (List.nodup_iff_getElem?_ne_getElem?.1 w1.inv.nodup) k c' (by omega) (List.getElem?_eq_some_iff.1 w1.place).1
      exact this (hx.trans w1.place.symm)
  | stream =>
    have w1 : Waiting W1 (H.next (.poll i 1)) i c := ⟨h1, ⟨hm1, hv1⟩, ho1 ▸ hc⟩
    obtain ⟨W2, H2, e2, w2, o2⟩ := w1.poll
    refine ⟨H2, W2, .waits i, by simp only [pollBlock, hb, e1, e2], ⟨w2.inv, w2.mine⟩, ⟨i, rfl⟩,
      (by rw [o2, ho1]; exact List.prefix_rfl), ?_⟩
    intro j hj k hk hne hx
    cases hj
    rw [o2, ho1] at hx
    have hk' := (List.getElem?_eq_some_iff.1 hc).1
    rcases Nat.lt_or_gt_of_ne hne with hlt | hlt
    · exact (List.nodup_iff_getElem?_ne_getElem?.1 h.nodup) k c hlt hk' (hx.trans hc.symm)
    · exact (List.nodup_iff_getElem?_ne_getElem?.1 h.nodup) c k hlt hk (hc.trans hx.symm)

/-- A dispatch to the listener of the block, among others. -/
theorem dispatch_event {p : Program} {e : Ev} {L : List Listener} {envs : List (List Op)} {A : App} {H : History} {i c : Nat}
    (h : Fine p A H) (hb : A.block = .waits i) (hc : H.order[c]? = some i) (hl : ∀ l ∈ L, l.callback < H.order.length)
    (hn : (L.map (·.callback)).Nodup) (hm : (⟨0, 0, c, false, false⟩ : Listener) ∈ L) :
    ∃ H' W b, dispatch p e L envs A = { A with dom := W, block := b, prevented := A.prevented ++ [e] } ∧
      Fine p { A with dom := W, block := b, prevented := A.prevented ++ [e] } H' ∧ Handled p b := by
  induction L generalizing A H envs with
  | nil => cases hm
  | cons l ls ih =>
    have hlt : ∀ l ∈ ls, l.callback < H.order.length := fun l hm => hl l (List.mem_cons_of_mem _ hm)
    simp only [List.map_cons, List.nodup_cons] at hn
    have hmine : Mine H i := by have := h.2; rw [hb] at this; exact this
    by_cases hlc : l = ⟨0, 0, c, false, false⟩
    · -- its turn
      have hcb : l.callback = c := by rw [hlc]
      have hin : l ∈ A.dom.listeners := by
        rw [h.1.listeners, hlc]
        have := left_callback hc (by rw [hmine.view]; rfl)
        simpa only [History.wanted, hmine.made, hmine.view, Option.getD_some] using this
      have hobs : ∃ W1, Events.step A.dom (.deliver l e) = some (W1, { woke := some 1 }) := by
        obtain ⟨s, hs⟩ := live_stream h.1 hmine.lt (by rw [hmine.view])
        have : ∃ W1 o, Events.step A.dom (.deliver l e) = some (W1, o) := by
          simp only [Events.step, if_pos hin, h.1.closures, hcb, hc, hs, Option.bind_eq_bind, Option.bind_some]
          exact ⟨_, _, rfl⟩
        obtain ⟨W1, o, ho⟩ := this
        obtain ⟨-, rfl⟩ := inv_step h.1 ho
        exact ⟨W1, by rw [ho]; simp only [History.obs, hcb, hc, hmine.view, Bool.false_eq_true, if_false]⟩
      obtain ⟨W1, ho⟩ := hobs
      obtain ⟨h1, -⟩ := inv_step h.1 ho
      have hnext : H.next (.deliver l e) = H.upd i fun v => { v with unread := some e } := by
        simp only [History.next, hcb, hc]
      rw [hnext] at h1
      obtain ⟨H2, W2, b, e2, f2, k2, o2, a2⟩ := pollBlock_event (p := p) (A := { A with dom := W1 }) (c := c) (e := e) h1 hb hmine.made
        (by simp only [History.upd, if_true, hmine.view]) hc
      obtain ⟨H3, W3, e3, f3, o3⟩ := others_fine f2 (envs.headD [])
      have hv : visit p e (envs.headD []) l A = { A with dom := W3, block := b, prevented := A.prevented ++ [e] } := by
        simp only [visit, ho, if_true, e2, e3]
      have hbb : b ≠ .unstarted := by
        rintro rfl
        cases p <;> simp [Handled] at k2
      obtain ⟨H4, W4, e4, f4⟩ := dispatch_apart (e := e) (L := ls) (envs := envs.tail) f3 hbb
        (fun l hm => Nat.lt_of_lt_of_le (hlt l hm) (o2.trans o3).length_le)
        (fun l' hm' => by
          have : Apart { A with dom := W2, block := b, prevented := A.prevented ++ [e] } H2 l' := by
            intro j hj
            refine a2 j hj _ (hlt l' hm') ?_
            intro hx
            exact hn.1 (List.mem_map.2 ⟨l', hm', by rw [hx, hcb]⟩)
          exact this.grows (Nat.lt_of_lt_of_le (hlt l' hm') o2.length_le) o3)
      exact ⟨H4, W4, b, by rw [dispatch, hv, e4], f4, k2⟩
    · have hm' : (⟨0, 0, c, false, false⟩ : Listener) ∈ ls := by
        rcases List.mem_cons.1 hm with h | h
        · exact absurd h.symm hlc
        · exact h
      have hcb : l.callback ≠ c := by
        intro hx
        exact hn.1 (List.mem_map.2 ⟨_, hm', hx.symm⟩)
      have ha : Apart A H l := by
        intro j hj hx
        rw [hb] at hj
        cases hj
        have hk := (List.getElem?_eq_some_iff.1 hc).1
        rcases Nat.lt_or_gt_of_ne hcb with hlt | hlt
        · exact (List.nodup_iff_getElem?_ne_getElem?.1 h.1.nodup) _ c hlt hk (hx.trans hc.symm)
        · exact (List.nodup_iff_getElem?_ne_getElem?.1 h.1.nodup) c _ hlt (hl l (by simp)) (hc.trans hx.symm)
      obtain ⟨H1, W1, e1, f1, o1⟩ := visit_apart h (by rw [hb]; simp) ha e (envs.headD [])
      have hc1 : H1.order[c]? = some i := by
        obtain ⟨t, ht⟩ := o1
        rw [← ht, List.getElem?_append_left (List.getElem?_eq_some_iff.1 hc).1]; exact hc
      obtain ⟨H2, W2, b, e2, f2, k2⟩ := ih (envs := envs.tail) (A := { A with dom := W1 }) f1 hb hc1
        (fun l hm => Nat.lt_of_lt_of_le (hlt l hm) o1.length_le) hn.2 hm'
      exact ⟨H2, W2, b, by rw [dispatch, e1, e2], f2, k2⟩

theorem left_nodup (H : History) : (H.left.map (·.callback)).Nodup := by
  have key : ∀ (xs : List Nat) (k : Nat), (((xs.zipIdx k).filterMap fun (i, c) =>
      if (H.view i).dropped && !(H.view i).capture then none else some (H.wanted c i)).map (·.callback)).Pairwise (· < ·) ∧
      ∀ c ∈ ((xs.zipIdx k).filterMap fun (i, c) =>
        if (H.view i).dropped && !(H.view i).capture then none else some (H.wanted c i)).map (·.callback), k ≤ c := by
    intro xs
    induction xs with
    | nil => simp
    | cons x xs ih =>
      intro k
      obtain ⟨h1, h2⟩ := ih (k + 1)
      simp only [List.zipIdx_cons, List.filterMap_cons]
      split
      · exact ⟨h1, fun c hc => Nat.le_of_succ_le (h2 c hc)⟩
      · next b hb =>
        have hbk : b.callback = k := by
          split at hb
          · cases hb
          · cases hb; rfl
        simp only [List.map_cons, List.pairwise_cons, List.mem_cons, hbk]
        refine ⟨⟨fun c hc => h2 c hc, h1⟩, ?_⟩
        rintro c (rfl | hc)
        · exact Nat.le_refl _
        · exact Nat.le_of_succ_le (h2 c hc)
  exact ((key H.order 0).1).imp Nat.ne_of_lt

/-- What the app has done, by how often the user has clicked on the link. -/
structure Good (p : Program) (A : App) : Prop where
  fine : ∃ H, Fine p A H
  unstarted : A.block = .unstarted → A.clicks = 0
  prevented : A.prevented = stopped p A.clicks
  opened : A.opened = followed p A.clicks
  once : p = .once → (A.block = .done ↔ A.clicks ≠ 0)

theorem good_click {p : Program} {A : App} (h : Good p A) (hb : A.block ≠ .unstarted) (envs : List (List Op)) :
    Good p (A.step p (.click envs)) := by
  obtain ⟨H, hf⟩ := h.fine
  set L := A.dom.listeners.filter fun l => l.target == 0 && l.type == 0 with hL
  have hleft : ∀ l ∈ L, l ∈ H.left := fun l hl => by
    rw [← hf.1.listeners]; exact (List.mem_filter.1 hl).1
  have hlt : ∀ l ∈ L, l.callback < H.order.length := fun l hl => by
    obtain ⟨j, hj, -⟩ := callback_left (hleft l hl)
    exact (List.getElem?_eq_some_iff.1 hj).1
  have hs : A.step p (.click envs) =
      let B := dispatch p A.clicks L envs { A with clicks := A.clicks + 1 }
      { B with opened := if A.clicks ∈ B.prevented then B.opened else B.opened ++ [A.clicks] } := by
    simp only [App.step, if_neg hb, hL]
  rw [hs]
  have hcases : A.block = .done ∨ ∃ i, A.block = .waits i := by
    cases hk : A.block with
    | unstarted => exact absurd hk hb
    | done => exact .inl rfl
    | waits i => exact .inr ⟨i, rfl⟩
  rcases hcases with hk | ⟨i, hk⟩
  · -- the block is done
    have hp : p = .once := by have := hf.2; rw [hk] at this; exact this
    subst hp
    have hn : A.clicks ≠ 0 := (h.once rfl).1 hk
    obtain ⟨H', W, e1, f1⟩ := dispatch_apart (p := .once) (e := A.clicks) (L := L) (envs := envs)
      (A := { A with clicks := A.clicks + 1 }) (H := H) hf hb hlt (fun l _ i hi => by rw [hk] at hi; cases hi)
    simp only [e1]
    have hpr : A.prevented = (List.range A.clicks).take 1 := h.prevented
    have hop : A.opened = (List.range A.clicks).drop 1 := h.opened
    have hnot : A.clicks ∉ A.prevented := by
      rw [hpr]; intro hx
      exact absurd (List.mem_range.1 (List.mem_of_mem_take hx)) (Nat.lt_irrefl _)
    obtain ⟨n, hn'⟩ := Nat.exists_eq_succ_of_ne_zero hn
    refine ⟨⟨H', f1⟩, fun hx => absurd hx hb, ?_, ?_, fun _ => ⟨fun _ => Nat.succ_ne_zero _, fun _ => hk⟩⟩
    · simp only [hpr, stopped, hn', List.range_succ_eq_map, List.take_succ_cons, List.take_zero]
    · simp only [if_neg hnot, hop, followed]
      rw [List.range_succ, List.drop_append_of_le_length (by simp; omega)]
  · have hm : Mine H i := by have := hf.2; rw [hk] at this; exact this
    obtain ⟨c, hc⟩ := Mine.place hf.1 hm
    have hin : (⟨0, 0, c, false, false⟩ : Listener) ∈ L := by
      rw [hL, List.mem_filter]
      refine ⟨?_, rfl⟩
      rw [hf.1.listeners]
      have := left_callback hc.place (by rw [hm.view]; rfl)
      simpa only [History.wanted, hm.made, hm.view, Option.getD_some] using this
    have hnd : (L.map (·.callback)).Nodup := by
      refine List.Nodup.sublist ((List.filter_sublist (l := A.dom.listeners)).map _) ?_
      rw [hf.1.listeners]
      exact left_nodup H
    obtain ⟨H', W, b, e1, f1, k1⟩ := dispatch_event (p := p) (e := A.clicks) (L := L) (envs := envs)
      (A := { A with clicks := A.clicks + 1 }) (H := H) hf hk hc.place hlt hnd hin
    simp only [e1]
    have hin : A.clicks ∈ A.prevented ++ [A.clicks] := by simp
    simp only [if_pos hin]
    cases p with
    | once =>
      have h0 : A.clicks = 0 := by
        by_contra hx
        rw [(h.once rfl).2 hx] at hk
        cases hk
      have hb' : b = .done := k1
      refine ⟨⟨H', f1⟩, fun hx => ?_, ?_, ?_, fun _ => ⟨fun _ => Nat.succ_ne_zero _, fun _ => hb'⟩⟩
      · simp only [hb'] at hx; cases hx
      · simp only [h.prevented, h0]; rfl
      · simp only [h.opened, h0]; rfl
    | loop =>
      obtain ⟨j, hj⟩ := k1
      refine ⟨⟨H', f1⟩, fun hx => ?_, ?_, h.opened, nofun⟩
      · simp only [hj] at hx; cases hx
      · simp only [h.prevented, stopped, List.range_succ]
    | stream =>
      obtain ⟨j, hj⟩ := k1
      refine ⟨⟨H', f1⟩, fun hx => ?_, ?_, h.opened, nofun⟩
      · simp only [hj] at hx; cases hx
      · simp only [h.prevented, stopped, List.range_succ]

theorem good_run (p : Program) (es : List Event) : Good p (App.run p es) := by
  unfold App.run
  induction es using List.reverseRecOn with
  | nil =>
    refine ⟨⟨{}, inv_init, trivial⟩, fun _ => rfl, by cases p <;> rfl, by cases p <;> rfl, fun _ => ?_⟩
    simp [mount]
  | append_singleton es e ih =>
    rw [List.foldl_append]
    generalize List.foldl (App.step p) mount es = A at ih
    show Good p (A.step p e)
    obtain ⟨H, hf⟩ := ih.fine
    cases e with
    | other op =>
      obtain ⟨H', W, e1, f1, -⟩ := others_fine hf [op]
      simp only [App.step, e1]
      exact ⟨⟨H', f1⟩, ih.unstarted, ih.prevented, ih.opened, ih.once⟩
    | run =>
      by_cases hb : A.block = .unstarted
      · obtain ⟨H', i, c, b1, w1, -, -⟩ := start_waits hf.1
        have hs : A.step p .run = start A := by simp only [App.step, pollBlock, hb]
        rw [hs]
        refine ⟨⟨H', w1.inv, by rw [b1]; exact w1.mine⟩, fun hx => (by rw [b1] at hx; cases hx), ih.prevented, ih.opened, fun _ => ?_⟩
        have : (start A).clicks = 0 := ih.unstarted hb
        rw [b1, this]; simp
      · obtain ⟨H', W, e1, f1, -⟩ := pollBlock_fine hf hb
        simp only [App.step, e1]
        exact ⟨⟨H', f1⟩, ih.unstarted, ih.prevented, ih.opened, ih.once⟩
    | click envs =>
      by_cases hb : A.block = .unstarted
      · have : A.step p (.click envs) = A := by simp only [App.step, if_pos hb]
        rw [this]; exact ih
      · exact good_click ih hb envs

theorem others_same (A : App) (ops : List Op) : (others A ops).block = A.block ∧ (others A ops).clicks = A.clicks := by
  unfold others
  induction ops generalizing A with
  | nil => exact ⟨rfl, rfl⟩
  | cons op ops ih =>
    simp only [List.foldl_cons]
    split
    · exact ih A
    · exact ih _

theorem pollBlock_same (p : Program) (A : App) : (pollBlock p A).block ≠ .unstarted ∧ (pollBlock p A).clicks = A.clicks := by
  unfold pollBlock
  split
  · exact ⟨nofun, rfl⟩
  · next h => exact ⟨by rw [h]; nofun, rfl⟩
  · next i h =>
    split
    · exact ⟨by simp [h], rfl⟩
    · cases p with
      | once => exact ⟨nofun, rfl⟩
      | loop => exact ⟨nofun, rfl⟩
      | stream => simp only; split <;> exact ⟨by simp [h], rfl⟩

theorem dispatch_same (p : Program) (e : Ev) (L : List Listener) (envs : List (List Op)) (A : App) (h : A.block ≠ .unstarted) :
    (dispatch p e L envs A).block ≠ .unstarted ∧ (dispatch p e L envs A).clicks = A.clicks := by
  induction L generalizing A envs with
  | nil => exact ⟨h, rfl⟩
  | cons l ls ih =>
    have hv : (visit p e (envs.headD []) l A).block ≠ .unstarted ∧ (visit p e (envs.headD []) l A).clicks = A.clicks := by
      unfold visit
      split
      · next W o _ =>
        simp only
        split
        · rw [(others_same _ _).1, (others_same _ _).2]
          exact pollBlock_same p { A with dom := W }
        · rw [(others_same _ _).1, (others_same _ _).2]
          exact ⟨h, rfl⟩
      · exact ⟨h, rfl⟩
    obtain ⟨h1, h2⟩ := ih envs.tail _ hv.1
    exact ⟨h1, h2.trans hv.2⟩

/-- The app counts the clicks. -/
theorem run_clicks (p : Program) (es : List Event) : (App.run p es).clicks = clicked es := by
  have later : ∀ (es : List Event) (A : App), A.block ≠ .unstarted →
      (es.foldl (App.step p) A).clicks = A.clicks + (es.filter Event.isClick).length := by
    intro es
    induction es with
    | nil => simp
    | cons e es ih =>
      intro A hA
      rw [List.foldl_cons]
      cases e with
      | run =>
        have := pollBlock_same p A
        rw [show A.step p .run = pollBlock p A from rfl, ih _ this.1, this.2]; rfl
      | other op =>
        have := others_same A [op]
        rw [ih _ (by simp only [App.step, this.1]; exact hA)]
        simp only [App.step, this.2]; rfl
      | click envs =>
        have := dispatch_same p A.clicks (A.dom.listeners.filter fun l => l.target == 0 && l.type == 0) envs
          { A with clicks := A.clicks + 1 } hA
        rw [ih _ (by simp only [App.step, if_neg hA]; exact this.1)]
        simp only [App.step, if_neg hA, this.2, List.filter_cons, Event.isClick, if_true, List.length_cons]
        omega
  have before : ∀ (es : List Event) (A : App), A.block = .unstarted → A.clicks = 0 →
      (es.foldl (App.step p) A).clicks = clicked es := by
    intro es
    induction es with
    | nil => intro A _ h; exact h
    | cons e es ih =>
      intro A hA h0
      rw [List.foldl_cons]
      cases e with
      | run =>
        have := pollBlock_same p A
        rw [show A.step p .run = pollBlock p A from rfl, later _ _ this.1]
        simp [this.2, h0, clicked, Event.isRun, Event.isClick]
      | other op =>
        have := others_same A [op]
        rw [ih _ (by simp only [App.step, this.1]; exact hA) (by simp only [App.step, this.2]; exact h0)]
        simp [clicked, Event.isRun]
      | click envs =>
        have hs : A.step p (.click envs) = A := by simp only [App.step, if_pos hA]
        rw [hs, ih A hA h0]
        simp [clicked, Event.isRun]
  exact before es mount rfl rfl

/-- **C84.** `prevent_default` is called exactly once on each click that the program means to stop, before the browser would open the link, and
exactly the others open it: with one `until_click().await` all but the first, in a loop and with `for_each` none. Whatever other event
streams there are on the link or elsewhere, and whatever is done with them between and during the clicks. -/
theorem link_clicks (p : Program) (es : List Event) :
    (App.run p es).prevented = stopped p (clicked es) ∧ (App.run p es).opened = followed p (clicked es) := by
  have h := good_run p es
  rw [← run_clicks p es]
  exact ⟨h.prevented, h.opened⟩

/-- **C84.** The loop and the stream: however often the user clicks, the link does not open. -/
theorem never_opens (p : Program) (hp : p ≠ .once) (es : List Event) : (App.run p es).opened = [] := by
  rw [(link_clicks p es).2]
  cases p with
  | once => exact absurd rfl hp
  | loop => rfl
  | stream => rfl

/-- **C84.** Once: the first click does not open the link, every later one does. -/
theorem opens_after_first (es : List Event) (n : Nat) :
    n ∈ (App.run .once es).opened ↔ 0 < n ∧ n < clicked es := by
  rw [(link_clicks .once es).2, followed, List.mem_iff_getElem?]
  constructor
  · rintro ⟨k, hk⟩
    rw [List.getElem?_drop] at hk
    obtain ⟨h1, h2⟩ := List.getElem?_eq_some_iff.1 hk
    simp at h1 h2
    omega
  · rintro ⟨h1, h2⟩
    exact ⟨n - 1, by rw [List.getElem?_drop, List.getElem?_range (by omega)]; congr 1; omega⟩

/-- Three clicks, with a second stream on the same link that another block polls with the same waker before the block of the program starts a new stream, and drops
during the second click. -/
example : let es := [.other (.new 0 0), .other (.poll 0 1), .run, .click [[.poll 0 1]], .run, .click [[.drop 0]], .click []]
    clicked es = 3 ∧ (App.run .loop es).dom.listeners.length = 1 ∧ (App.run .loop es).opened = [] ∧
    (App.run .stream es).prevented = [0, 1, 2] ∧ (App.run .once es).opened = [1, 2] := by
  refine ⟨rfl, rfl, never_opens _ (by decide) _, (link_clicks _ _).1, (link_clicks _ _).2⟩

/-! ## No listener is left behind -/

/-- What is in the browser if there are no other streams. -/
def Alone (A : App) : Prop :=
  match A.block with
  | .unstarted => A.dom.listeners = []
  | .done => A.dom.listeners = []
  | .waits i => ∃ c, A.dom.listeners = [⟨0, 0, c, false, false⟩] ∧ A.dom.streams[i]? = some (some ⟨0, 0, some c, none, 1, none⟩) ∧
      A.dom.closures[c]? = some i

theorem alone_start {A : App} (h : A.dom.listeners = []) : Alone (start A) := by
  obtain ⟨⟨ss, ls, cs⟩, b, pr, cl, op⟩ := A
  simp only at h
  subst h
  refine ⟨cs.length, ?_⟩
  simp [start, call, Events.step, Stream.poll, Stream.new, Stream.listener, addListener, dummy]

theorem alone_poll {p : Program} {A : App} (h : Alone A) : Alone (pollBlock p A) := by
  obtain ⟨⟨ss, ls, cs⟩, b, pr, cl, op⟩ := A
  cases b with
  | unstarted => exact alone_start h
  | done => exact h
  | waits i =>
    obtain ⟨c, h1, h2, h3⟩ := h
    simp only at h1 h2 h3
    have hi := (List.getElem?_eq_some_iff.1 h2).1
    simp only [pollBlock, call, Events.step, h2, Option.join_some, Option.bind_eq_bind, Option.bind_some, Stream.poll]
    exact ⟨c, h1, by simp [hi], h3⟩

theorem alone_event {p : Program} {A : App} {i c : Nat} {e : Ev} (hb : A.block = .waits i)
    (h1 : A.dom.listeners = [⟨0, 0, c, false, false⟩])
    (h2 : A.dom.streams[i]? = some (some ⟨0, 0, some c, some e, 1, none⟩)) (h3 : A.dom.closures[c]? = some i) :
    Alone (pollBlock p A) := by
  obtain ⟨⟨ss, ls, cs⟩, b, pr, cl, op⟩ := A
  simp only at h1 h2 h3 hb
  subst hb h1
  have hi := (List.getElem?_eq_some_iff.1 h2).1
  have hp : call ⟨ss, [⟨0, 0, c, false, false⟩], cs⟩ (.poll i 1) =
      (⟨ss.set i (some ⟨0, 0, some c, none, 1, none⟩), [⟨0, 0, c, false, false⟩], cs⟩, some e) := by
    simp [call, Events.step, h2, Stream.poll]
  have hd : (call ⟨ss.set i (some ⟨0, 0, some c, none, 1, none⟩), [⟨0, 0, c, false, false⟩], cs⟩ (.drop i)).1.listeners = [] := by
    simp [call, Events.step, hi, removeListener, Stream.unlistener, Listener.same]
  simp only [pollBlock, hp]
  cases p with
  | once => exact hd
  | loop => exact alone_start hd
  | stream =>
    have hp2 : call ⟨ss.set i (some ⟨0, 0, some c, none, 1, none⟩), [⟨0, 0, c, false, false⟩], cs⟩ (.poll i 1) =
        (⟨ss.set i (some ⟨0, 0, some c, none, 1, none⟩), [⟨0, 0, c, false, false⟩], cs⟩, none) := by
      simp [call, Events.step, hi, Stream.poll]
    simp only [hp2]
    exact ⟨c, rfl, by simp [hi], h3⟩

theorem alone_click {p : Program} {A : App} (h : Alone A) : Alone (A.step p (.click [])) := by
  by_cases hb : A.block = .unstarted
  · have : A.step p (.click []) = A := by simp only [App.step, if_pos hb]
    rw [this]; exact h
  · obtain ⟨⟨ss, ls, cs⟩, b, pr, cl, op⟩ := A
    cases b with
    | unstarted => exact absurd rfl hb
    | done =>
      have h : ls = [] := h
      subst h
      rfl
    | waits i =>
      obtain ⟨c, h1, h2, h3⟩ := h
      simp only at h1 h2 h3
      subst h1
      have hi := (List.getElem?_eq_some_iff.1 h2).1
      have hs : Events.step ⟨ss, [⟨0, 0, c, false, false⟩], cs⟩ (.deliver ⟨0, 0, c, false, false⟩ cl) =
          some (⟨ss.set i (some ⟨0, 0, some c, some cl, 1, none⟩), [⟨0, 0, c, false, false⟩], cs⟩, { woke := some 1 }) := by
        simp [Events.step, h2, h3, Stream.callback]
      have := alone_event (p := p) (A := ⟨⟨ss.set i (some ⟨0, 0, some c, some cl, 1, none⟩), [⟨0, 0, c, false, false⟩], cs⟩, .waits i, pr, cl + 1, op⟩)
        (e := cl) rfl rfl (by simp [hi]) h3
      simp only [App.step, reduceCtorEq, if_false, List.filter_cons, BEq.rfl, Bool.and_self, if_true, List.filter_nil, dispatch,
        visit, List.headD_nil, hs, others, List.foldl_nil]
      exact this

/-- **C84, no leak.** If the app has no other event streams, there is never more than one listener on the page, however often the user has clicked. -/
theorem one_listener (p : Program) (es : List Event) (h : ∀ e ∈ es, e = .run ∨ e = .click []) :
    (App.run p es).dom.listeners.length ≤ 1 := by
  have ha : Alone (App.run p es) := by
    unfold App.run
    induction es using List.reverseRecOn with
    | nil => rfl
    | append_singleton es e ih =>
      rw [List.foldl_append]
      have ih := ih fun e he => h e (by simp [he])
      rcases h e (by simp) with rfl | rfl
      · exact alone_poll ih
      · exact alone_click ih
  unfold Alone at ha
  split at ha
  · simp [ha]
  · simp [ha]
  · obtain ⟨c, h1, -⟩ := ha
    simp [h1]

example : (App.run .loop [.run, .click [], .click [], .run, .click []]).dom.listeners = [⟨0, 0, 3, false, false⟩] ∧
    (App.run .once [.run, .click [], .click []]).dom.listeners = [] := ⟨rfl, rfl⟩

/-! ## Clicks by the app itself -/

/-- A task of the app calls `link.click()` while it is polled: the same listeners, but `run_now` returns at once (`executor.rs:52-53`), and the block is
polled after the browser has opened the link, and after this and other tasks have done something more. -/
def nested (p : Program) (ops : List Op) (A : App) : App :=
  let B := (A.dom.listeners.filter fun l => l.target == 0 && l.type == 0).foldl
    (fun (A : App) l => { A with dom := ((Events.step A.dom (.deliver l A.clicks)).map (·.1)).getD A.dom }) A
  pollBlock p (others { B with
    clicks := A.clicks + 1
    opened := if A.clicks ∈ B.prevented then B.opened else B.opened ++ [A.clicks] } ops)

/-- **C84, not for such clicks**: the block calls `prevent_default`, but too late. -/
theorem nested_opens (p : Program) :
    (nested p [] (App.run p [.run])).clicks = 1 ∧ (nested p [] (App.run p [.run])).prevented = [0] ∧
    (nested p [] (App.run p [.run])).opened = [0] := by
  cases p <;> exact ⟨rfl, rfl, rfl⟩

end Verif.Apps.Link
