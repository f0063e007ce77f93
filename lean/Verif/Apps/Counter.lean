import Verif.Live.Fold
import Verif.Apps.Converter
/-!
# C75: counters

`examples/web-simple-examples/src/counter.rs`, the counter of `README.md` (43-62), and the one in the documentation of
`async_ui_web_html/src/lib.rs` (12-30) as components of a whole app (`Verif.Live.FoldSpec`). The elements 0, 1 and 2 of the
page are the text that is shown, the first and the second button. The event `click` is number 0. Simplified: `value` is an
integer, while in the code it is an `i32`, whose overflow is a panic or wraps. What `to_string` and `format!` give is
arbitrary.
-/
namespace Verif.Apps
open Verif.Live
open XBow.Data (Data Layer)

namespace Counter

/-- counter.rs 16-28: two buttons. -/
def two (num : Int → List Char) : Fold Int where
  watches := [(1, 0), (2, 0)]
  init := 0
  f z i _ := if i = 0 then z + 1 else z - 1
  shows z := [(0, num z)]

/-- lib.rs 22-28, README.md 51-57: one button. -/
def one (num : Int → List Char) : Fold Int where
  watches := [(1, 0)]
  init := 0
  f z _ _ := z + 1
  shows z := [(0, num z)]

end Counter

section
variable {σ : Type} {D : Nat → Type} {V S O : Type} {hash : XBow.Path → BitVec 64} {enc : Layer → XBow.Seg}
  {cells : ∀ n, Cell.Sys (D n)} {data : Nat → Data} {es : List (Event (fullSource D hash enc) V S O)}
  {w0 w1 w2 : World (fullSource D hash enc) V S O} {R : Fold σ}

/-- At most one event that the component waits for is caused: none, or the event `n` for the branch number `i`. -/
def Caused (R : Fold σ) (l : List (PageOp × PageOut)) : Option (Nat × Events.Ev) → Prop
  | none => R.Untouched l
  | some (i, n) => R.One l i n

/-- The component is waiting, and all its streams are awaited. -/
def Waits (R : Fold σ) (w : World (fullSource D hash enc) V S O) (z : σ) (keys : List Nat) : Prop :=
  R.Runs (ofPage w 0) (.waiting z keys) ∧ ∀ k ∈ keys, Awaited w ⟨.page 0, k⟩

/-- The app is idle again and again, with the component waiting. Between two such moments the user causes at most one of
the events that it waits for; `evs` are the events. Whatever else happens is arbitrary. -/
inductive Rounds (R : Fold σ) (w : World (fullSource D hash enc) V S O) (z : σ) (keys : List Nat) :
    List (Option (Nat × Events.Ev)) → World (fullSource D hash enc) V S O → σ → List Nat → Prop
  | nil : Rounds R w z keys [] w z keys
  | snoc {evs w1 z1 keys1 es w2 z2 keys2 l o} : Rounds R w z keys evs w1 z1 keys1 → run w1 es = some w2 →
      BothIdle w1 w2 l → R.Steps (ofPage w1 0) (.waiting z1 keys1) l (.waiting z2 keys2) →
      (∀ k ∈ keys2, Awaited w2 ⟨.page 0, k⟩) → Caused R l o → Rounds R w z keys (evs ++ [o]) w2 z2 keys2

/-- What the events make of the state. -/
def Fold.after (R : Fold σ) (z : σ) (evs : List (Option (Nat × Events.Ev))) : σ :=
  evs.foldl (fun z o => match o with | none => z | some (i, n) => R.f z i n) z

theorem runs_steps {h l : List (PageOp × PageOut)} {st st' : FoldState σ} (h1 : R.Runs h st) (h2 : R.Steps h st l st') :
    R.Runs (h ++ l) st' := by
  obtain ⟨h0, l0, rfl, h3⟩ := h1
  exact ⟨h0, l0 ++ l, by rw [List.append_assoc], fsteps_append h3 h2⟩

theorem page_hist (h : run (init (start cells data)) es = some w1) (n : Nat) :
    Hist pageSource Page.init (ofPage w1 n) (pageNow w1 n) :=
  (part_hist (run_linv (init_linv _) h).hist (.page n)).1

theorem rounds {z z' : σ} {keys keys' : List Nat} {evs : List (Option (Nat × Events.Ev))} (hnd : R.watches.Nodup)
    (h : run (init (start cells data)) es = some w1) (hm : ∃ t, .app (.mount t) ∈ es)
    (hw : Waits R w1 z keys) (hr : Rounds R w1 z keys evs w2 z' keys') :
    (∃ es', run w1 es' = some w2) ∧ Waits R w2 z' keys' ∧ z' = Fold.after R z evs := by
  induction hr with
  | nil => exact ⟨⟨[], rfl⟩, hw, rfl⟩
  | @snoc evs w2 z1 keys1 es2 w3 z2 keys2 l o _ hrun hi hst haw hc ih =>
    obtain ⟨⟨es1, i1⟩, ⟨i2, i3⟩, i4⟩ := ih
    have hrun2 := run_append h i1
    have hrun3 := run_append hrun2 hrun
    obtain ⟨t, hm⟩ := hm
    have hm2 : ∃ t, .app (.mount t) ∈ es ++ es1 := ⟨t, List.mem_append_left _ hm⟩
    have hm3 : ∃ t, .app (.mount t) ∈ es ++ es1 ++ es2 := ⟨t, by simp [hm]⟩
    have h1 := page_hist hrun2 0
    have h2 := page_hist hrun3 0
    rw [hi.page] at h2
    refine ⟨⟨_, run_append i1 hrun⟩, ⟨by rw [hi.page]; exact runs_steps i2 hst, haw⟩, ?_⟩
    have t1 : ∀ k ∈ keys1, Told pageSource Page.init (ofPage w2 0) (pageNow w2 0) k := fun k hk =>
      told_part (idle_not_woken hrun2 hm2 hi.before (i3 k hk))
    have t2 : ∀ k ∈ keys2, Told pageSource Page.init (ofPage w2 0 ++ l) (pageNow w3 0) k := fun k hk => by
      rw [← hi.page]; exact told_part (idle_not_woken hrun3 hm3 hi.now (haw k hk))
    rw [Fold.after, List.foldl_append]
    have i4 : z1 = List.foldl _ z evs := i4
    rw [← i4]
    cases o with
    | none => exact none_page h1 h2 i2 hst t1 hi.called hc
    | some p =>
      obtain ⟨i, n⟩ := p
      exact one_page hnd h1 h2 i2 hst t1 hi.called t2 hi.called' hc

/-- If nothing has been caused yet, the state is the first. -/
theorem not_yet {z : σ} {keys : List Nat} (h : run (init (start cells data)) es = some w1) (hw : Waits R w1 z keys)
    (hu : R.Untouched (ofPage w1 0)) : z = R.init := by
  obtain ⟨⟨h0, l, hl, hst⟩, -⟩ := hw
  have hh := page_hist h 0
  rw [hl] at hh hu
  obtain ⟨s0, h0', -⟩ := hist_append hh
  exact (quiet_steps hst h0' hh (fgood_round _ _ _) (fun e he => hu e (by simp [he])) (by simp [Fold.round])).1

theorem shown {z : σ} {keys : List Nat} (h : run (init (start cells data)) es = some w1) (hw : Waits R w1 z keys) {t : Nat}
    {v : List Char} (hv : lastOf t ((R.shows z).map fun x => .set x.1 x.2) = some v) : (pageNow w1 0).value t = v :=
  shows_page (page_hist h 0) hw.1 hv

theorem rounds_branch {z z' : σ} {keys keys' : List Nat} {evs : List (Option (Nat × Events.Ev))}
    (hr : Rounds R w1 z keys evs w2 z' keys') : ∀ i n, some (i, n) ∈ evs → i < R.watches.length := by
  induction hr with
  | nil => simp
  | @snoc evs w2 z1 keys1 es2 w3 z2 keys2 l o _ _ _ _ _ hc ih =>
    intro i n hi
    rcases List.mem_append.1 hi with hi | hi
    · exact ih i n hi
    · rw [List.mem_singleton] at hi
      subst hi
      obtain ⟨a, x, b, t, y, v, -, -, hw, -, -⟩ := hc
      exact (List.getElem?_eq_some_iff.1 hw).1

/-- How many of the events were for the branch number `i`. -/
def clicks (i : Nat) (evs : List (Option (Nat × Events.Ev))) : Nat := evs.countP fun o => o.map (·.1) = some i

/-- **C75.** If nobody has clicked a button before the app was idle for the first time, then whenever it is idle the counter
shows how often the first button has been clicked minus how often the second has been, provided the app was idle between any
two clicks. -/
theorem counter_counts {num : Int → List Char} {z z' : Int} {keys keys' : List Nat} {evs : List (Option (Nat × Events.Ev))}
    (h : run (init (start cells data)) es = some w1) (hm : ∃ t, .app (.mount t) ∈ es)
    (hw : Waits (Counter.two num) w1 z keys) (hu : (Counter.two num).Untouched (ofPage w1 0))
    (hr : Rounds (Counter.two num) w1 z keys evs w2 z' keys') :
    (pageNow w2 0).value 0 = num (clicks 0 evs - clicks 1 evs) := by
  obtain ⟨⟨es', hes⟩, hw', hz⟩ := rounds (by simp [Counter.two]) h hm hw hr
  have hz0 : z = 0 := not_yet h hw hu
  have hlt := rounds_branch hr
  refine shown (run_append h hes) hw' (t := 0) ?_
  have key : ∀ (evs : List (Option (Nat × Events.Ev))) (z : Int), (∀ i n, some (i, n) ∈ evs → i < 2) →
      Fold.after (Counter.two num) z evs = z + clicks 0 evs - clicks 1 evs := by
    intro evs
    induction evs with
    | nil => intro z _; simp [Fold.after, clicks]
    | cons o evs ih =>
      intro z hlt
      have ih := fun z => ih z fun i n hi => hlt i n (.tail _ hi)
      cases o with
      | none =>
        rw [show Fold.after (Counter.two num) z (none :: evs) = Fold.after (Counter.two num) z evs from rfl, ih]
        simp [clicks]
      | some p =>
        obtain ⟨i, n⟩ := p
        have := hlt i n (.head _)
        rw [show Fold.after (Counter.two num) z (some (i, n) :: evs) =
          Fold.after (Counter.two num) (if i = 0 then z + 1 else z - 1) evs from rfl, ih]
        obtain rfl | rfl : i = 0 ∨ i = 1 := by omega
        · simp [clicks]; omega
        · simp [clicks]; omega
  rw [hz, key evs z hlt, hz0, Int.zero_add]
  simp [Counter.two, lastOf, written]

/-- **C75, one button.** -/
theorem counter_one {num : Int → List Char} {z z' : Int} {keys keys' : List Nat} {evs : List (Option (Nat × Events.Ev))}
    (h : run (init (start cells data)) es = some w1) (hm : ∃ t, .app (.mount t) ∈ es)
    (hw : Waits (Counter.one num) w1 z keys) (hu : (Counter.one num).Untouched (ofPage w1 0))
    (hr : Rounds (Counter.one num) w1 z keys evs w2 z' keys') : (pageNow w2 0).value 0 = num (clicks 0 evs) := by
  obtain ⟨⟨es', hes⟩, hw', hz⟩ := rounds (by simp [Counter.one]) h hm hw hr
  have hz0 : z = 0 := not_yet h hw hu
  have hlt := rounds_branch hr
  refine shown (run_append h hes) hw' (t := 0) ?_
  have key : ∀ (evs : List (Option (Nat × Events.Ev))) (z : Int), (∀ i n, some (i, n) ∈ evs → i < 1) →
      Fold.after (Counter.one num) z evs = z + clicks 0 evs := by
    intro evs
    induction evs with
    | nil => intro z _; simp [Fold.after, clicks]
    | cons o evs ih =>
      intro z hlt
      have ih := fun z => ih z fun i n hi => hlt i n (.tail _ hi)
      cases o with
      | none =>
        rw [show Fold.after (Counter.one num) z (none :: evs) = Fold.after (Counter.one num) z evs from rfl, ih]
        simp [clicks]
      | some p =>
        obtain ⟨i, n⟩ := p
        obtain rfl : i = 0 := by have := hlt i n (.head _); omega
        rw [show Fold.after (Counter.one num) z (some (0, n) :: evs) =
          Fold.after (Counter.one num) (z + 1) evs from rfl, ih]
        simp [clicks]; omega
  rw [hz, key evs z hlt, hz0, Int.zero_add]
  simp [Counter.one, lastOf, written]

/-- **C75, any such component.** Whenever the app is idle, the state is what the events make of it one after the other, and it
is what is shown. -/
theorem fold_events {z z' : σ} {keys keys' : List Nat} {evs : List (Option (Nat × Events.Ev))} (hnd : R.watches.Nodup)
    (h : run (init (start cells data)) es = some w1) (hm : ∃ t, .app (.mount t) ∈ es)
    (hw : Waits R w1 z keys) (hu : R.Untouched (ofPage w1 0)) (hr : Rounds R w1 z keys evs w2 z' keys') :
    z' = (evs.filterMap id).foldl (fun z x => R.f z x.1 x.2) R.init ∧
      ∀ t v, (t, v) ∈ R.shows z' → ((R.shows z').map (·.1)).Nodup → (pageNow w2 0).value t = v := by
  obtain ⟨⟨es', hes⟩, hw', hz⟩ := rounds hnd h hm hw hr
  refine ⟨?_, fun t v hv hn => shown (run_append h hes) hw' ?_⟩
  · rw [hz, not_yet h hw hu, Fold.after, List.foldl_filterMap]
    congr 1
    funext z o
    cases o <;> rfl
  · obtain ⟨a, b, hab⟩ := List.append_of_mem hv
    rw [hab] at hn ⊢
    simp only [List.map_append, List.map_cons, List.nodup_append, List.nodup_cons] at hn
    have hb : (b.map fun x => PageOp.set x.1 x.2).filterMap (written t) = [] := by
      rw [List.filterMap_eq_nil_iff]
      intro o ho
      obtain ⟨x, hx, rfl⟩ := List.mem_map.1 ho
      have : x.1 ≠ t := fun h => hn.2.1.1 (List.mem_map.2 ⟨x, hx, h⟩)
      simp [written, this]
    simp [lastOf, List.filterMap_append, hb, written]

end
end Verif.Apps
