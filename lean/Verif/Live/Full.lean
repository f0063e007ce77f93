import Verif.Cell.Loop
import Verif.XBow.Loop
import Verif.Live.Cell
import Verif.Live.Events
import Verif.Live.Store
import Verif.Live.Family
import Verif.Live.Form
/-!
# C67, C70: apps with cells, stores, events and inputs, and loops that read and then wait
-/
namespace Verif.Live
open XBow.Data (Data Layer getOpt setOpt)

/-- What an app waits for: its cells, its stores, the event streams of each of its windows, and pages with
form elements and their event streams. -/
inductive Thing
  | cell (n : Nat)
  | store (n : Nat)
  | events (n : Nat)
  | page (n : Nat)
deriving DecidableEq

section
variable {D : Nat → Type} {V S O : Type} {hash : XBow.Path → BitVec 64} {enc : Layer → XBow.Seg}

abbrev things (D : Nat → Type) (hash : XBow.Path → BitVec 64) (enc : Layer → XBow.Seg) : Thing → Source
  | .cell n => cellSource (D n)
  | .store _ => storeSource hash enc
  | .events _ => eventSource
  | .page _ => pageSource

/-- Any number of cells (with values of any types), stores, event streams and pages. -/
abbrev fullSource (D : Nat → Type) (hash : XBow.Path → BitVec 64) (enc : Layer → XBow.Seg) : Source :=
  .family (things D hash enc)

/-- What there is at the beginning: cells that are new, stores with some data, no streams, form
elements that are empty. A cell or store that the
app makes later is one that was not used until then. -/
def start (cells : ∀ n, Cell.Sys (D n)) (data : Nat → Data) : (fullSource D hash enc).σ
  | .cell n => cells n
  | .store n => XBow.World.init (data n)
  | .events _ => Events.init
  | .page _ => Page.init

variable {cells : ∀ n, Cell.Sys (D n)} {data : Nat → Data}
  {es : List (Event (fullSource D hash enc) V S O)} {w : World (fullSource D hash enc) V S O}

/-- What happened to a cell. -/
abbrev ofCell (w : World (fullSource D hash enc) V S O) (n : Nat) : List (Cell.Op (D n) × Cell.Out) :=
  part (things D hash enc) (.cell n) w.hist

abbrev cellNow (w : World (fullSource D hash enc) V S O) (n : Nat) : Cell.Sys (D n) := w.src (.cell n)

/-- What happened to a store. -/
abbrev ofStore (w : World (fullSource D hash enc) V S O) (n : Nat) : List XBow.Event :=
  (part (things D hash enc) (.store n) w.hist).map (·.2)

abbrev storeNow (w : World (fullSource D hash enc) V S O) (n : Nat) : XBow.World := w.src (.store n)

/-- What happened to the event streams. -/
abbrev ofEvents (w : World (fullSource D hash enc) V S O) (n : Nat) : List (Events.Op × Events.Obs) :=
  part (things D hash enc) (.events n) w.hist

/-- What happened to a page. -/
abbrev ofPage (w : World (fullSource D hash enc) V S O) (n : Nat) : List (PageOp × PageOut) :=
  part (things D hash enc) (.page n) w.hist

abbrev pageNow (w : World (fullSource D hash enc) V S O) (n : Nat) : Page := w.src (.page n)

/-- **C70.** Whenever the app is idle and the browser has no listeners to call any more, a loop that reads an input and
then waits for its events has read what is in the input now. This is for any number of inputs and any number of loops;
a loop may read several inputs and wait for an event of any of them (`race`). -/
theorem idle_form (h : run (init (start cells data)) es = some w) (hm : ∃ t, .app (.mount t) ∈ es) (hidle : Idle w)
    {n : Nat} (hc : (pageNow w n).calls = []) {t y i : Nat} {x : List Char} (hk : Awaited w ⟨.page n, i⟩)
    (hr : ReadThenListens t y i (ofPage w n) x) : (pageNow w n).value t = x :=
  told_read_current (told_part (idle_not_woken h hm hidle hk)) hc hr

/-- **C51 and C67 for cells, C52 for events, C53 and C67 for stores,** in an app that waits for any number of them.
Whenever the browser is idle:

* a cell that is not mutably borrowed has the value that an awaited `for_each` was called with last, and the value
  that a loop has read that is now waiting in `until_change`; an awaited `until_change` would not be ready now;
* a stream that is awaited has yielded the last event delivered to it;
* the data at a path of a store is what an awaited `for_each` was called with last, what an awaited
  `signal_stream(true)` has yielded last, and what a loop has read that is now waiting in `until_change`. -/
theorem idle_app (h : run (init (start cells data)) es = some w) (hm : ∃ t, .app (.mount t) ∈ es) (hidle : Idle w) :
    (∀ (n : Nat) (v : D n), Cell.init v = some (cells n) → (cellNow w n).cell.writing = false →
      (Awaited w ⟨.cell n, none⟩ → (cellNow w n).seen.getLast? = some (Cell.current v (ofCell w n))) ∧
      ∀ i : Nat, Awaited w ⟨.cell n, some i⟩ →
        (∀ wk s' o, Cell.step (cellNow w n) (.poll i wk) = some (s', o) → o = .polled false) ∧
        ∀ x : D n, Cell.ReadThenWaits v i (ofCell w n) x → x = Cell.current v (ofCell w n)) ∧
    (∀ n i : Nat, Awaited w ⟨.events n, i⟩ →
      (Events.yielded i ((ofEvents w n).map (·.1)) ((ofEvents w n).map (·.2))).getLast? =
        (Events.delivered i {} ((ofEvents w n).map (·.1))).getLast?) ∧
    ∀ (n i : Nat) (p : List Layer) (h' : List XBow.Event), Awaited w ⟨.store n, i⟩ → Follows enc p i (ofStore w n) h' →
      ((∀ e ∈ h', (∃ wk, e.op = .pollForEach p i wk) ∨ (XBow.Leaves i e ∧ XBow.Announced enc p e)) →
        ∀ v, getOpt p (storeNow w n).data = some v → XBow.lastOf (XBow.calledAt i) h' = some v) ∧
      ((∀ e ∈ h', (∃ wk, e.op = .pollSignal true p i wk) ∨ (XBow.Leaves i e ∧ XBow.Announced enc p e)) →
        ∀ v, getOpt p (storeNow w n).data = some v → XBow.lastOf (XBow.yieldedAt i) h' = some v) ∧
      ((∀ e ∈ h', (∃ wk, e.op = .sub (.poll i wk)) ∨ (XBow.Leaves i e ∧ XBow.Announced enc p e)) →
        ∀ x, XBow.ReadThenWaits p i h' x → x = getOpt p (storeNow w n).data) := by
  refine ⟨?_, ?_, ?_⟩
  · intro n v h0 hf
    refine ⟨fun hk => ?_, fun i hk => ?_⟩
    · exact told_cell_forEach h0 (told_part (idle_not_woken h hm hidle hk)) hf
    · have ht := told_part (idle_not_woken h hm hidle hk)
      refine ⟨fun wk s' o hp => told_cell_listener h0 ht hp, fun x hr => ?_⟩
      obtain ⟨n', pre, mid, out, s1, s2, heq, hreach, e, r2, hno, hch⟩ := told_listener h0 ht
      obtain ⟨-, -, -, -, -, -, -, hist, -⟩ := ht
      have hR : Cell.Reach v (ofCell w n) (cellNow w n) := ⟨cells n, h0, (cell_hist hist).1⟩
      have hh := Cell.read_then_waits hR hr
      rw [← Cell.reach_data hR]
      exact (Cell.Holds.now hreach e r2 hno hch hh hf).symm
  · intro n i hk
    exact told_event_yielded (told_part (idle_not_woken h hm hidle hk))
  · intro n i p h' hk hf
    have ht := told_part (idle_not_woken h hm hidle hk)
    refine ⟨fun hn v hv => told_store_forEach ht hf hn hv, fun hn v hv => told_store_signal ht hf hn hv, fun hn x hr => ?_⟩
    obtain ⟨h1, mid, s1, op, r, rfl, hc, hw, ⟨wk, rfl⟩, hrun, hmid⟩ := told_follower ht hf
      (fun op => ∃ wk, op = .sub (.poll i wk)) hn (by
        rintro s op r hw ⟨wk, rfl⟩
        obtain ⟨_, _, rd, -, k, -⟩ := XBow.sub_poll_eq hw
        exact ⟨_, _, k⟩)
    rw [same_data hrun fun e he => (hmid e he).2]
    obtain ⟨_, _, _, -, -, k⟩ := XBow.sub_poll_eq hw
    rw [k]
    exact (XBow.read_then_waits hc hw (fun e he => hn e (List.mem_append_left _ he)) hrun
      (fun e he => (hmid e he).1) hr).symm

end
end Verif.Live
