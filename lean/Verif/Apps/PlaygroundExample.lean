import Verif.Apps.Playground
import Verif.Apps.FlightExample
/-!
# A box of the x-bow playground that runs

The app of `Verif.Live.Example`; its leaf is a box of the playground. Then a box around it is clicked.
-/
namespace Verif.Apps
open Verif.Live

/-- The box of the path `[0, 1]`. Its classes are the elements 0 and 1 of the page. -/
def exBox : Box := ⟨[0, 1], 0, 1, 0, 1, 0⟩

def pollBox (wk : Nat) : List exSource.Op :=
  [onStore (.sub (.poll 0 (some wk))), onStore (.sub (.poll 1 (some (wk + 1)))), onC 0 (.poll 0 (some (wk + 2)))]

/-- The app is mounted; the box is polled and waits. -/
def exShow : List (Event exSource Nat Nat (List Nat)) :=
  let a := [onStore (.sub (.listen [0, 1])), onStore (.sub (.listenBubbling [0, 1])), onC 0 .listen] ++ pollBox 0
  [.app (.mount 0), .app .timer, .app .next] ++ ((Nested.exStart.drop 1).take 5).map (fun e => .app (.block e)) ++
  a.map .op ++ ((Nested.exStart.drop 6).take 4).map (fun e => .app (.block e)) ++ [.app .sleep]

/-- The box around it is clicked (192-194). The streams of the path and of the version are ready. -/
def exClick : List (Event exSource Nat Nat (List Nat)) :=
  let b := [onC 0 .borrowMut, onC 0 (.write 2), onC 0 .dropGuard, onStore (.sub (.change [0]))]
  let c := [onStore (.sub (.poll 0 (some 3)))] ++ exBox.closure .regular 0 2 ++ pollBox 4 ++ exBox.closure .version 2 2 ++ pollBox 7
  b.map .op ++ [.wake, .app (.block .propagate), .app (.block .propagate), .app (.block .propagate), .wake, .app (.block .propagate),
    .app .timer, .app .next, .app (.block .await), .app (.block .await)] ++
  c.map .op ++ ((Nested.exPoll.drop 3).map fun e => .app (.block e)) ++ [.app .sleep]

/-- An entry of the history of the store. -/
def xe (o : XBow.Op) (out : XBow.Out) : exSource.Op × exSource.Out :=
  (⟨.store 0, .sub o⟩, ⟨.store 0, .sub o, ⟨.sub o, [(o, out)], .none, XBow.sampleData 1 2, XBow.sampleData 1 2⟩⟩)

def begins : List (exSource.Op × exSource.Out) :=
  [xe (.listen [0, 1]) .unit, xe (.listenBubbling [0, 1]) .unit, ce 0 .listen .unit,
    xe (.poll 0 (some 0)) (.polled false), xe (.poll 1 (some 1)) (.polled false), ce 0 (.poll 0 (some 2)) (.polled false)]

def clicked : List (exSource.Op × exSource.Out) :=
  [ce 0 .dropGuard (.woken [some 2]), xe (.change [0]) (.woken [some 0]),
    xe (.poll 0 (some 3)) (.polled true), ce 0 .borrow .unit, ce 0 .dropRef .unit, isSet 0 ['f'], isSet 1 ['f'], isSet 0 ['t'],
    xe (.poll 0 (some 4)) (.polled false), xe (.poll 1 (some 5)) (.polled false), ce 0 (.poll 0 (some 6)) (.polled true),
    ce 0 .borrow .unit, ce 0 .dropRef .unit,
    xe (.poll 0 (some 7)) (.polled false), xe (.poll 1 (some 8)) (.polled false), ce 0 (.poll 0 (some 9)) (.polled false)]

theorem exClick_end : (Cell.init (1 : Nat)).bind (fun s0 => (run (init (start (fun _ => s0) fun _ => XBow.sampleData 1 2))
    exShow).bind fun w1 => (run w1 exClick).map fun w2 => (loopView w1, loopView w2)) =
    some (loopAt 3 [(⟨.cell 0, some (0 : Nat)⟩, 2), (⟨.store 0, (1 : Nat)⟩, 1), (⟨.store 0, (0 : Nat)⟩, 0)] begins,
      loopAt 10 [(⟨.cell 0, some (0 : Nat)⟩, 9), (⟨.store 0, (1 : Nat)⟩, 8), (⟨.store 0, (0 : Nat)⟩, 7)]
        (begins ++ [ce 0 .borrowMut .unit] ++ ce 0 (.write (2 : Nat)) .unit :: clicked)) := by rfl

theorem ce_other {h : List (exSource.Op × exSource.Out)} {o : Cell.Op Nat} {out : Cell.Out} (ht : o.touches 0 = false)
    (hv : ∀ v, o = .write v → v = versionAt h + 1) : exBox.Other h (ce 0 o out) := by
  refine ⟨fun op ev he => (by cases he), fun op o' he => (by cases he; exact ht), ?_, ?_, fun v he => ?_⟩
  · cases o <;> rfl
  · cases o <;> rfl
  · exact hv v (by cases he; rfl)

theorem change_other {h : List (exSource.Op × exSource.Out)} {p : XBow.Path} {out : XBow.Out} :
    exBox.Other h (xe (.change p) out) := by
  refine ⟨fun op ev he => ?_, fun op o' he => (by cases he), rfl, rfl, fun v he => by cases he⟩
  cases he
  refine ⟨fun x hx => ?_, fun x hx => ?_⟩ <;> rw [List.mem_singleton.1 hx] <;> rfl

/-- The history is one of the box. -/
theorem exClick_runs :
    exBox.Runs (begins ++ [ce 0 .borrowMut .unit] ++ ce 0 (.write (2 : Nat)) .unit :: clicked) (.running [] 2) := by
  have r1 : exBox.Runs (([] : List (exSource.Op × exSource.Out)) ++ [xe (.listen [0, 1]) .unit]) .one :=
    .step .start (.regular rfl rfl)
  have r2 := r1.step (e := xe (.listenBubbling [0, 1]) .unit) (.bubbling rfl rfl)
  have r3 := r2.step (e := ce 0 .listen .unit) (.version rfl)
  have r4 := r3.step (e := xe (.poll 0 (some 0)) (.polled false)) (.pending (.regular rfl))
  have r5 := r4.step (e := xe (.poll 1 (some 1)) (.polled false)) (.pending (.bubbling rfl))
  have r6 := r5.step (e := ce 0 (.poll 0 (some 2)) (.polled false)) (.pending .version)
  have r7 := r6.step (e := ce 0 .borrowMut .unit) (.other (ce_other rfl (by simp)))
  have r8 := r7.step (e := ce 0 (.write (2 : Nat)) .unit) (.other (ce_other rfl (fun v hv => by cases hv; rfl)))
  have r9 := r8.step (e := ce 0 .dropGuard (.woken [some 2])) (.other (ce_other rfl (by simp)))
  have r10 := r9.step (e := xe (.change [0]) (.woken [some 0])) (.other change_other)
  have r11 : exBox.Runs (_ ++ [xe (.poll 0 (some 3)) (.polled true)])
      (.running [onC 0 .borrow, onC 0 .dropRef, onPage (.set 0 ['f']), onPage (.set 1 ['f']), onPage (.set 0 ['t'])] 2) :=
    r10.step (.ready (.regular rfl))
  have r12 := r11.step (e := ce 0 .borrow .unit) (.acts rfl)
  have r13 := r12.step (e := ce 0 .dropRef .unit) (.acts rfl)
  have r14 := r13.step (e := isSet 0 ['f']) (.acts rfl)
  have r15 := r14.step (e := isSet 1 ['f']) (.acts rfl)
  have r16 := r15.step (e := isSet 0 ['t']) (.acts rfl)
  have r17 := r16.step (e := xe (.poll 0 (some 4)) (.polled false)) (.pending (.regular rfl))
  have r18 := r17.step (e := xe (.poll 1 (some 5)) (.polled false)) (.pending (.bubbling rfl))
  have r19 : exBox.Runs (_ ++ [ce 0 (.poll 0 (some 6)) (.polled true)]) (.running [onC 0 .borrow, onC 0 .dropRef] 2) :=
    r18.step (.ready .version)
  have r20 := r19.step (e := ce 0 .borrow .unit) (.acts rfl)
  have r21 := r20.step (e := ce 0 .dropRef .unit) (.acts rfl)
  have r22 := r21.step (e := xe (.poll 0 (some 7)) (.polled false)) (.pending (.regular rfl))
  have r23 := r22.step (e := xe (.poll 1 (some 8)) (.polled false)) (.pending (.bubbling rfl))
  exact r23.step (e := ce 0 (.poll 0 (some 9)) (.polled false)) (.pending .version)

theorem exClash : XBow.NoClash XBow.sampleHash [0, 1] [0] ∧ XBow.NoClashBubbling XBow.sampleHash [0, 1] [0] := by
  refine ⟨⟨?_, ?_⟩, ?_, ?_⟩
  · intro q' hq' e
    rw [← XBow.mem_visited] at hq'
    revert q'
    decide
  · intro q' p' hq' hp'
    rw [← XBow.mem_visited] at hq' hp'
    have : ∀ q' ∈ XBow.visited [0, 1], ∀ p' ∈ XBow.visited [0],
        XBow.regularKey XBow.sampleHash q' ≠ XBow.bubblingKey XBow.sampleHash p' := by decide
    exact this q' hq' p' hp'
  · intro p' hp' e
    rw [← XBow.mem_visited] at hp'
    revert p'
    decide
  · decide

/-- The hypotheses of `playground_click` are met, and the box is red. -/
example : ∃ (cells : Cell.Sys Nat) (w1 w2 : World exSource Nat Nat (List Nat)), Cell.init 1 = some cells ∧
    run (init (start (fun _ => cells) fun _ => XBow.sampleData 1 2)) exShow = some w1 ∧ (∃ t, .app (.mount t) ∈ exShow) ∧
    Idle w1 ∧ run w1 exClick = some w2 ∧ Idle w2 ∧ (cellNow w2 0).cell.writing = false ∧
    w2.hist = w1.hist ++ [ce 0 .borrowMut .unit] ++ ce 0 (.write (2 : Nat)) .unit :: clicked ∧
    (∀ p, ¬ Notified [ce 0 .borrowMut .unit] p) ∧ (∀ e ∈ clicked, ∀ v : Nat, e.1 ≠ ⟨.cell 0, .write v⟩) ∧
    exBox.Runs w2.hist (.running [] 2) ∧ (∀ k ∈ exBox.keys, Awaited w1 k) ∧ (∀ k ∈ exBox.keys, Awaited w2 k) ∧
    (∀ p, Notified clicked p ↔ p = [0]) ∧ (pageNow w2 0).value 0 = ['t'] ∧ (pageNow w2 0).value 1 = ['f'] := by
  obtain ⟨s0, h0, h⟩ := Option.bind_eq_some_iff.1 exClick_end
  obtain ⟨w1, hw1, h⟩ := Option.bind_eq_some_iff.1 h
  obtain ⟨w2, hw2, h⟩ := Option.map_eq_some_iff.1 h
  rw [Prod.mk.injEq] at h
  obtain ⟨a1, a2, -, -, a5⟩ := loopAt_idle h.1
  obtain ⟨b1, b2, -, b4, b5⟩ := loopAt_idle h.2
  have hmount : ∃ t, .app (.mount t) ∈ exShow := ⟨0, by simp [exShow]⟩
  have hk1 : ∀ k ∈ exBox.keys, Awaited w1 k := by
    intro k hk
    simp only [Box.keys, exBox, List.mem_cons, List.not_mem_nil, or_false] at hk
    rcases hk with rfl | rfl | rfl
    · exact a2 _ 0 (by simp) (by omega)
    · exact a2 _ 1 (by simp) (by omega)
    · exact a2 _ 2 (by simp) (by omega)
  have hk2 : ∀ k ∈ exBox.keys, Awaited w2 k := by
    intro k hk
    simp only [Box.keys, exBox, List.mem_cons, List.not_mem_nil, or_false] at hk
    rcases hk with rfl | rfl | rfl
    · exact b2 _ 7 (by simp) (by omega)
    · exact b2 _ 8 (by simp) (by omega)
    · exact b2 _ 9 (by simp) (by omega)
  have hh : w2.hist = w1.hist ++ [ce 0 .borrowMut .unit] ++ ce 0 (.write (2 : Nat)) .unit :: clicked := by rw [a5]; exact b5
  have ha : ∀ p, ¬ Notified [ce 0 .borrowMut .unit] p := by
    rintro p ⟨e, he, -⟩
    rw [show part _ (.store 0) [ce 0 .borrowMut .unit] = [] from rfl] at he
    cases he
  have hb : ∀ e ∈ clicked, ∀ v : Nat, e.1 ≠ ⟨.cell 0, .write v⟩ := by
    intro e he v hv
    simp only [clicked, List.mem_cons, List.not_mem_nil, or_false] at he
    rcases he with rfl | rfl | rfl | rfl | rfl | rfl | rfl | rfl | rfl | rfl | rfl | rfl | rfl | rfl | rfl | rfl <;> cases hv
  have hn : ∀ p, Notified clicked p ↔ p = [0] := by
    intro p
    have : part (things Nums XBow.sampleHash XBow.sampleEnc) (.store 0) clicked =
      [xe (.change [0]) (.woken [some 0]), xe (.poll 0 (some 3)) (.polled true), xe (.poll 0 (some 4)) (.polled false),
        xe (.poll 1 (some 5)) (.polled false), xe (.poll 0 (some 7)) (.polled false),
        xe (.poll 1 (some 8)) (.polled false)].map
          (fun e => ((.sub (match e.1 with | ⟨.store 0, .sub o⟩ => o | _ => .drop 0), match e.2 with | ⟨.store _, _, ev⟩ => ev | _ => ⟨.sub (.drop 0), [], .none, .leaf 0, .leaf 0⟩)
            : XBow.WOp × XBow.Event)) := by rfl
    simp only [Notified, this]
    simp [xe]
  have hr : exBox.Runs w2.hist (.running [] 2) := by rw [b5]; exact exClick_runs
  have := playground_click hw1 hmount a1 hw2 b1 h0 b4.1 hh rfl ha hb (by decide) hr hk1 hk2 hn exClash.1 exClash.2
  exact ⟨s0, w1, w2, h0, hw1, hmount, a1, hw2, b1, b4.1, hh, ha, hb, hr, hk1, hk2, hn,
    this.1.1 (by decide), this.2.2 (by decide)⟩

end Verif.Apps
