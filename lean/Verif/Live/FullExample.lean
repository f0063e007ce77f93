import Verif.Live.Full
/-!
# A concrete app that waits for a cell, a store and events

The app of `Verif.Live.Example`. Its leaf is a loop that reads a cell and a path of a store, and then waits until one of
them changes or an event comes (`race`).
-/
namespace Verif.Live
open XBow.Data (Data Layer getOpt setOpt)

abbrev exSource : Source := fullSource (fun _ => Nat) XBow.sampleHash XBow.sampleEnc

abbrev onCell (o : Cell.Op Nat) : exSource.Op := ⟨.cell 2, o⟩
abbrev onStore (o : XBow.WOp) : exSource.Op := ⟨.store 0, o⟩
abbrev onEvents (o : Events.Op) : exSource.Op := ⟨.events 0, o⟩

/-- The loop reads 3, waits, is woken because the cell was changed to 5 and then the store, reads 5, and waits. The
stream is kept, the listeners are new. -/
def exFull : List (Event exSource Nat Nat (List Nat)) :=
  exEvents exSource
    [onCell .borrow, onCell .dropRef, onEvents (.new 3 7), onCell .listen,
      onStore (.sub (.listen (XBow.samplePath.map XBow.sampleEnc))),
      onCell (.poll 0 (some 0)), onStore (.sub (.poll 0 (some 1))), onEvents (.poll 0 3)]
    [onCell .borrowMut, onCell (.write 5), onCell .dropGuard, onStore (.write [.field 1] (.leaf 4))]
    [onCell (.poll 0 (some 3)), onCell (.dropListener 0), onStore (.sub (.drop 0)),
      onCell .borrow, onCell .dropRef, onCell .listen, onStore (.sub (.listen (XBow.samplePath.map XBow.sampleEnc))),
      onCell (.poll 1 (some 4)), onStore (.sub (.poll 1 (some 5))), onEvents (.poll 0 7)]

/-- What the examples look at. -/
def fullView (w : World exSource Nat Nat (List Nat)) :=
  ((App.view w.app, Nested.view w.app.sys), w.todo, w.awaits, w.given.map (·.place))


/-- What happened to the store. -/
def exStoreTrace : List (XBow.WOp × XBow.Trace) :=
  [(.sub (.listen (XBow.samplePath.map XBow.sampleEnc)), [(.listen (XBow.samplePath.map XBow.sampleEnc), .unit)]),
    (.sub (.poll 0 (some 1)), [(.poll 0 (some 1), .polled false)]),
    (.write [.field 1] (.leaf 4), [(.change [1], .woken [])]),
    (.sub (.drop 0), [(.drop 0, .unit)]),
    (.sub (.listen (XBow.samplePath.map XBow.sampleEnc)), [(.listen (XBow.samplePath.map XBow.sampleEnc), .unit)]),
    (.sub (.poll 1 (some 5)), [(.poll 1 (some 5), .polled false)])]

/-- What happened to the cell. -/
def exCellHist : List (Cell.Op Nat × Cell.Out) :=
  [(.borrow, .unit), (.dropRef, .unit), (.listen, .unit), (.poll 0 (some 0), .polled false), (.borrowMut, .unit),
    (.write 5, .unit), (.dropGuard, .woken [some 0]), (.poll 0 (some 3), .polled true), (.dropListener 0, .unit),
    (.borrow, .unit), (.dropRef, .unit), (.listen, .unit), (.poll 1 (some 4), .polled false)]

theorem exFull_view : (Cell.init 3).bind (fun s0 => (run (init (start (fun _ => s0) fun _ => XBow.sampleData 1 2))
    exFull).map fun w => (fullView w, (cellNow w 2).cell.writing, ofCell w 2,
      (ofStore w 0).map (fun e => (e.op, e.trace)), (ofStore w 0).map (fun e => getOpt XBow.samplePath e.before))) =
    some (((exView (Z := exSource) ⟨.cell 2, some 1⟩).1, [],
      [(⟨.events 0, (0 : Nat)⟩, 6), (⟨.store 0, (1 : Nat)⟩, 5), (⟨.cell 2, some (1 : Nat)⟩, 4)],
      List.replicate 7 (.sub 1 1)), false, exCellHist, exStoreTrace, List.replicate 6 (some (.leaf 1))) := by rfl

/-- The app is idle, all three are awaited, and the loop has read 5 from the cell and 1 from the store. -/
example : ∃ s0 w h', Cell.init 3 = some s0 ∧
    run (init (start (fun _ => s0) fun _ => XBow.sampleData 1 2)) exFull = some w ∧ Idle w ∧
    Awaited w ⟨.cell 2, some (1 : Nat)⟩ ∧ Awaited w ⟨.store 0, (1 : Nat)⟩ ∧ Awaited w ⟨.events 0, (0 : Nat)⟩ ∧
    (cellNow w 2).cell.writing = false ∧ Cell.ReadThenWaits 3 1 (ofCell w 2) 5 ∧
    Cell.current 3 (ofCell w 2) = 5 ∧
    Follows XBow.sampleEnc XBow.samplePath 1 (ofStore w 0) h' ∧
    (∀ e ∈ h', (∃ wk, e.op = .sub (.poll 1 wk)) ∨
      (XBow.Leaves 1 e ∧ XBow.Announced XBow.sampleEnc XBow.samplePath e)) ∧
    XBow.ReadThenWaits XBow.samplePath 1 h' (some (.leaf 1)) := by
  obtain ⟨s0, h0, h⟩ := Option.bind_eq_some_iff.1 exFull_view
  obtain ⟨w, hw, hv⟩ := Option.map_eq_some_iff.1 h
  simp only [Prod.mk.injEq, fullView] at hv
  obtain ⟨⟨h1, h2, h3, h4⟩, h5, h6, h7, h8⟩ := hv
  have hall : Idle w ∧ ∀ k n, (k, n) ∈ w.awaits → n < 7 → Awaited w k := by
    simp only [exView, App.view, Nested.view, Prod.mk.injEq] at h1
    obtain ⟨⟨a1, a2, a3, a4⟩, b1, b2, b3, b4, b5, b6⟩ := h1
    refine ⟨⟨⟨by simp [a1], by simp [a1], b2⟩, h2⟩, ?_⟩
    intro k n hk hn
    have hg : (w.given.map (·.place))[n]? = some (.sub 1 1) := by
      rw [h4, List.getElem?_replicate, if_pos hn]
    rw [List.getElem?_map, Option.map_eq_some_iff] at hg
    obtain ⟨g, c3, c4⟩ := hg
    exact ⟨n, g, 0, hk, c3, ⟨by simp [a3], by simp [a4], by simp [b3]⟩,
      c4 ▸ Nested.ex_part b4 b5 b6 (by simp [b3])⟩
  obtain ⟨hi, hk⟩ := hall
  have hc : Cell.ReadThenWaits 3 1 (ofCell w 2) 5 := by
    rw [h6]
    exact ⟨exCellHist.take 9, [(.borrow, .unit), (.dropRef, .unit), (.listen, .unit)], some 4, .polled false, [], rfl,
      rfl, by simp, by simp⟩
  generalize hst : ofStore w 0 = st at h7 h8
  rcases st with _ | ⟨e0, _ | ⟨e1, _ | ⟨e2, _ | ⟨e3, _ | ⟨e4, _ | ⟨e5, _ | ⟨e6, r⟩⟩⟩⟩⟩⟩⟩
  all_goals simp only [exStoreTrace, List.map_cons, List.map_nil, List.cons.injEq, Prod.mk.injEq, and_true, reduceCtorEq,
    and_false] at h7
  obtain ⟨⟨a1, a2⟩, ⟨b1, b2⟩, ⟨c1, c2⟩, ⟨d1, d2⟩, ⟨f1, f2⟩, g1, g2⟩ := h7
  simp only [List.replicate, List.map_cons, List.map_nil, List.cons.injEq, and_true] at h8
  refine ⟨s0, w, [e5], h0, hw, hi, hk _ 4 (by simp [h3]) (by omega), hk _ 5 (by simp [h3]) (by omega),
    hk _ 6 (by simp [h3]) (by omega), h5, hc, by rw [h6]; rfl, ?_, ?_, ?_⟩
  · refine ⟨[e0, e1, e2, e3], e4, hst, f1, ?_⟩
    simp [makes, a1, b1, c1, d1]
  · intro e he
    simp only [List.mem_singleton] at he
    subst he
    exact .inl ⟨_, g1⟩
  · exact ⟨[], e5, [], _, rfl, g1, h8.2.2.2.2.2.symm, by simp⟩

/-- A loop that reads a cell, waits, is woken since it was changed to 5, and reads it again. Between this and the first
poll of its new listener something writes 6 to the cell, as in
`loop { use(cell.borrow()); race((async { *cell.borrow_mut() = 6; pending().await }, cell.until_change())).await }`. -/
def exStale : List (Event (cellSource Nat) Nat Nat (List Nat)) :=
  exEvents (cellSource Nat) [.listen, .poll 0 (some 0)] [.borrowMut, .write 5, .dropGuard]
    [.poll 0 (some 1), .dropListener 0, .borrow, .dropRef, .listen, .borrowMut, .write 6, .dropGuard, .poll 1 (some 2)]

theorem exStale_view : (Cell.init 3).bind (fun s0 => (run (init s0) exStale).map fun w =>
      ((App.view w.app, Nested.view w.app.sys), w.todo, w.awaits, w.given[2]?.map (·.place), w.src.cell.writing,
        w.hist)) =
    some ((exView (Z := cellSource Nat) (some 1)).1, [], [(some 1, 2)], some (.sub 1 1), false,
      [(.listen, .unit), (.poll 0 (some 0), .polled false), (.borrowMut, .unit), (.write 5, .unit),
        (.dropGuard, .woken [some 0]), (.poll 0 (some 1), .polled true), (.dropListener 0, .unit), (.borrow, .unit),
        (.dropRef, .unit), (.listen, .unit), (.borrowMut, .unit), (.write 6, .unit), (.dropGuard, .woken [none]),
        (.poll 1 (some 2), .polled false)]) := by rfl

/-- **C67, what goes wrong otherwise.** If the value is changed after it was read and before `until_change` is polled
for the first time, the loop is never told: the browser is idle, the loop is waiting, what it read is 5, and the value
is 6. -/
theorem early_change_is_not_seen : ∃ s0 w pre mid, Cell.init 3 = some s0 ∧ run (init s0) exStale = some w ∧ Idle w ∧
    Awaited w (some 1) ∧ w.src.cell.writing = false ∧ w.hist = pre ++ (.borrow, .unit) :: mid ∧
    (∀ e ∈ mid, ∀ wk b, e = (.poll 1 wk, .polled b) → b = false) ∧
    Cell.current 3 pre = 5 ∧ Cell.current 3 w.hist = 6 := by
  obtain ⟨s0, h0, h⟩ := Option.bind_eq_some_iff.1 exStale_view
  obtain ⟨w, hw, hv⟩ := Option.map_eq_some_iff.1 h
  simp only [Prod.mk.injEq] at hv
  obtain ⟨h1, h2, h3, h4, h5, h6⟩ := hv
  simp only [exView, App.view, Nested.view, Prod.mk.injEq] at h1
  obtain ⟨⟨a1, a2, a3, a4⟩, b1, b2, b3, b4, b5, b6⟩ := h1
  obtain ⟨g, c3, c4⟩ := Option.map_eq_some_iff.1 h4
  refine ⟨s0, w, w.hist.take 7, w.hist.drop 8, h0, hw, ⟨⟨by simp [a1], by simp [a1], b2⟩, h2⟩,
    ⟨2, g, 0, by simp [h3], c3, ⟨by simp [a3], by simp [a4], by simp [b3]⟩,
      c4 ▸ Nested.ex_part b4 b5 b6 (by simp [b3])⟩, h5, by rw [h6]; rfl, ?_, by rw [h6]; rfl, by rw [h6]; rfl⟩
  rw [h6]
  intro e he wk b heq
  subst heq
  simp at he
  exact he.2

end Verif.Live
