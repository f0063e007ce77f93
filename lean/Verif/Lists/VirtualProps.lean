import Verif.Lists.VirtualLemmas
import Verif.Lists.ModeledProps
/-!
# C37: VirtualizedList renders exactly the visible window

Two parts of the claim are false. When the number of items shrinks and the measurements say that
nothing has to be done, items beyond the end stay (`virtual_stale`). When the window is empty and
starts inside the next window, `update_visible` panics (`virtual_restart_panics`), which shrinking and
growing a scrolled list brings about (`virtual_shrink_grow_panics`). Proved for all other histories:
`virtual_window_partial`.
-/
namespace Verif.Lists
open Verif.Dom

/-- what the proof keeps -/
structure VInv (V : Virtual) (w : Window) (l : List Item) (given : List NodeId) : Prop where
  tracks : Tracks V.sys l given
  keys : l.map Item.key = upTo w.start w.stop
  same : V.start = w.start ∧ V.stop = w.stop ∧ V.num = w.num

theorem next_of_quiet {V : Virtual} {w : Window} (h : V.start = w.start ∧ V.stop = w.stop ∧ V.num = w.num) (g : Measured) :
    w.next g = if V.quiet g then w else { w with start := g.newStart, stop := min g.newEnd w.num } := by
  obtain ⟨h1, h2, h3⟩ := h
  unfold Window.next Virtual.quiet
  simp only [Bool.and_eq_true, Bool.or_eq_true, beq_iff_eq, h1, h2, h3]

theorem vInv_update {V : Virtual} {w : Window} {l : List Item} {given : List NodeId} (h : VInv V w l given)
    {g : Measured} {nodes : Nat → NodeId × NodeId}
    (hn : NewNodes V.sys.dom (virtualCalls nodes V.start V.stop g.newStart (min g.newEnd V.num)))
    (hr : ¬ w.restarts g) :
    ∃ V', V.updateVisible g nodes = some V' ∧
      VInv V' (w.next g) (if V.quiet g then l
        else (virtualCalls nodes V.start V.stop g.newStart (min g.newEnd V.num)).foldl specStep l) given ∧
      ∀ x ∈ l, x.key ∈ (w.next g).indices → x ∈ (if V.quiet g then l
        else (virtualCalls nodes V.start V.stop g.newStart (min g.newEnd V.num)).foldl specStep l) := by
  rw [indices_eq]
  unfold Window.restarts at hr
  rw [next_of_quiet h.same g] at hr ⊢
  unfold Virtual.updateVisible
  by_cases hq : V.quiet g = true
  · simp only [hq, if_true]
    exact ⟨V, rfl, h, fun x hx _ => hx⟩
  · have hq' : V.quiet g = false := by simpa using hq
    obtain ⟨h1, h2, h3⟩ := h.same
    have hkeys := h.keys
    simp only [hq', Bool.false_eq_true, if_false] at hr ⊢
    rw [← h1, ← h2] at hkeys
    rw [← h1, ← h2, ← h3] at hr
    rw [← h3]
    obtain ⟨k1, k2⟩ := virtualCalls_keys (mk := nodes) hr
    rw [← hkeys] at k1 k2
    obtain ⟨s', hrun, ht, -⟩ := run_calls _ h.tracks (callsOk_iff.2 k2) hn.1 hn.2
    refine ⟨⟨s', g.newStart, min g.newEnd V.num, V.num⟩, ?_, ⟨ht, ?_, rfl, rfl, rfl⟩, ?_⟩
    · simp only [hrun, bind, Option.bind, pure]
    · rw [keys_run, k1]
    · intro x hx hxk
      have hxo : x.key ∈ upTo V.start V.stop := hkeys ▸ List.mem_map_of_mem hx
      exact items_kept h.tracks (callsOk_iff.2 k2) hn.1 hn.2 hx (virtualCalls_keep hxo hxk)

theorem vInv_step {V : Virtual} {w : Window} {l : List Item} {given : List NodeId} (h : VInv V w l given) {op : VOp}
    (ha : VAllowed V w l op) :
    ∃ V', V.step op = some V' ∧ VInv V' (vSpec w op) (vItems V l op) (vGiven [op] ++ given) := by
  cases op with
  | visible g nodes =>
    obtain ⟨V', h1, h2, -⟩ := vInv_update h ha.1 ha.2
    exact ⟨V', h1, h2⟩
  | setNum n g nodes =>
    have h' : VInv { V with num := n } { w with num := n } l given := ⟨h.tracks, h.keys, h.same.1, h.same.2.1, rfl⟩
    obtain ⟨V', h1, h2, -⟩ := vInv_update h' ha.1 ha.2
    exact ⟨V', h1, h2⟩
  | env op =>
    obtain ⟨hc, ha⟩ := ha
    obtain ⟨s', h1, h2⟩ := tracks_env h.tracks hc ha
    refine ⟨{ V with sys := s' }, by simp only [Virtual.step, h1, Option.map_some], tracks_mono h2 ?_, ?_, h.same⟩
    · intro n hn
      rcases List.mem_append.1 hn with hn | hn
      · apply List.mem_append_left
        cases op with
        | content k ns => simpa [vGiven, givenBy] using hn
        | _ => cases hn
      · exact List.mem_append_right _ hn
    · simp only [vItems, vSpec, env_keys hc]
      exact h.keys

theorem vGiven_cons (op : VOp) (ops : List VOp) : vGiven (op :: ops) = vGiven [op] ++ vGiven ops := by
  cases op with
  | env op => cases op <;> simp [vGiven]
  | _ => rfl

/-- the items after a history -/
def vItemsRun (V : Virtual) (l : List Item) : List VOp → List Item
  | [] => l
  | op :: ops => match V.step op with
    | some V' => vItemsRun V' (vItems V l op) ops
    | none => l

theorem vInv_run (ops : List VOp) : ∀ {V : Virtual} {w : Window} {l : List Item} {given : List NodeId},
    VInv V w l given → VAllowedRun V w l ops →
    ∃ V', V.run ops = some V' ∧ VInv V' (ops.foldl vSpec w) (vItemsRun V l ops) (vGiven ops ++ given) := by
  induction ops with
  | nil => intro V w l given h _; exact ⟨V, rfl, h⟩
  | cons op ops ih =>
    intro V w l given h ha
    obtain ⟨V1, e1, h1⟩ := vInv_step h ha.1
    obtain ⟨V2, e2, h2⟩ := ih h1 (ha.2 V1 e1)
    refine ⟨V2, by simp only [Virtual.run, e1, bind, Option.bind, e2], ?_⟩
    simp only [vItemsRun, e1, List.foldl_cons]
    refine ⟨tracks_mono h2.tracks ?_, h2.keys, h2.same⟩
    intro n hn
    rw [vGiven_cons]
    simp only [List.mem_append] at hn ⊢
    grind

theorem vAllowedRun_append {ops ops' : List VOp} : ∀ {V : Virtual} {w : Window} {l : List Item},
    VAllowedRun V w l (ops ++ ops') → VAllowedRun V w l ops ∧
      ∀ V', V.run ops = some V' → VAllowedRun V' (ops.foldl vSpec w) (vItemsRun V l ops) ops' := by
  induction ops with
  | nil => intro V w l h; exact ⟨trivial, fun V' e => by cases e; exact h⟩
  | cons op ops ih =>
    intro V w l h
    refine ⟨⟨h.1, fun V1 e1 => (ih (h.2 V1 e1)).1⟩, ?_⟩
    intro V' e
    simp only [Virtual.run, Option.bind_eq_bind, Option.bind_eq_some_iff] at e
    obtain ⟨V1, e1, e2⟩ := e
    simp only [vItemsRun, e1, List.foldl_cons]
    exact (ih (h.2 V1 e1)).2 V' e2

theorem vInv_start {d0 : Dom} {L0 : DynList} (hg : Good ⟨d0, L0⟩ [] []) :
    VInv ⟨⟨d0, L0⟩, 0, 0, 0⟩ ⟨0, 0, 0⟩ [] [] := ⟨⟨⟨_, hg, fun _ h => h⟩, by simp⟩, rfl, rfl, rfl, rfl⟩

/-- **C37, partial.** Start with a new list in any document. Run any history of visibility updates
with any measurements, changes of the number of items, and anything that the rest of the program does,
in which no update goes from an empty window to one around its start. Nothing panics, and the document
shows exactly the indices of the window computed last, each once, in increasing order.

Missing: updates from an empty window to one around its start, which panic. -/
theorem virtual_window_partial {d : Dom} {frag ls le : NodeId} (hd : Proper d) (hf : d.kids frag = [])
    (hne : ls ≠ le) (ops : List VOp) :
    ∃ d0 L0, new d frag ls le = some (d0, L0) ∧
      (VAllowedRun ⟨⟨d0, L0⟩, 0, 0, 0⟩ ⟨0, 0, 0⟩ [] ops →
        ∃ V' l, Virtual.run ⟨⟨d0, L0⟩, 0, 0, 0⟩ ops = some V' ∧
          l.map Item.key = (ops.foldl vSpec ⟨0, 0, 0⟩).indices ∧
          ShowsAmong V'.sys.dom V'.sys.list l (vGiven ops)) := by
  obtain ⟨d0, L0, h, hg⟩ := good_new hd hf hne
  refine ⟨d0, L0, h, fun ha => ?_⟩
  obtain ⟨V', e, hi⟩ := vInv_run ops (vInv_start hg) ha
  refine ⟨V', _, e, by rw [indices_eq]; exact hi.keys, ?_⟩
  have := hi.tracks.shows
  rwa [List.append_nil] at this

/-- **C37, bounds, partial.** Right after an update that does something, no index beyond the number of
items is in the window. Missing: updates that do nothing, see `virtual_stale`. -/
theorem virtual_in_bounds_partial (w : Window) (g : Measured)
    (hq : ¬ ((g.farFront = true ∨ w.start = 0) ∧ (g.farBack = true ∨ w.stop = w.num))) :
    (w.next g).num = w.num ∧ ∀ (k : Nat), k ∈ (w.next g).indices → g.newStart ≤ k ∧ k < g.newEnd ∧ k < w.num := by
  simp only [Window.next, if_neg hq, true_and]
  intro k hk
  rw [indices_eq, mem_upTo] at hk
  simp only at hk
  omega

/-- **C37, items stay.** In such a history followed by a visibility update, every item whose index is
in the new window is still there, with the same markers and the same content. -/
theorem virtual_keeps_items_partial {d : Dom} {frag ls le : NodeId} (hd : Proper d) (hf : d.kids frag = [])
    (hne : ls ≠ le) (ops : List VOp) (g : Measured) (nodes : Nat → NodeId × NodeId) :
    ∃ d0 L0, new d frag ls le = some (d0, L0) ∧
      (VAllowedRun ⟨⟨d0, L0⟩, 0, 0, 0⟩ ⟨0, 0, 0⟩ [] (ops ++ [.visible g nodes]) →
        ∃ V1 V2 l1 l2, Virtual.run ⟨⟨d0, L0⟩, 0, 0, 0⟩ ops = some V1 ∧ V1.step (.visible g nodes) = some V2 ∧
          ShowsAmong V1.sys.dom V1.sys.list l1 (vGiven ops) ∧ ShowsAmong V2.sys.dom V2.sys.list l2 (vGiven ops) ∧
          ∀ x ∈ l1, x.key ∈ ((ops.foldl vSpec ⟨0, 0, 0⟩).next g).indices → x ∈ l2) := by
  obtain ⟨d0, L0, h, hg⟩ := good_new hd hf hne
  refine ⟨d0, L0, h, fun ha => ?_⟩
  obtain ⟨ha1, ha2⟩ := vAllowedRun_append ha
  obtain ⟨V1, e1, h1⟩ := vInv_run ops (vInv_start hg) ha1
  obtain ⟨⟨ha3, ha4⟩, -⟩ := ha2 V1 e1
  obtain ⟨V2, e2, h2, h3⟩ := vInv_update h1 ha3 ha4
  have s1 := h1.tracks.shows
  have s2 := h2.tracks.shows
  rw [List.append_nil] at s1 s2
  exact ⟨V1, V2, _, _, e1, e2, s1, s2, h3⟩

theorem restart_none {V : Virtual} {w : Window} {l : List Item} {given : List NodeId} (h : VInv V w l given)
    {g : Measured} (nodes : Nat → NodeId × NodeId) (hr : w.restarts g) : V.updateVisible g nodes = none := by
  obtain ⟨hr1, hr2, hr3⟩ := hr
  rw [next_of_quiet h.same g] at hr2 hr3
  unfold Virtual.updateVisible
  by_cases hq : V.quiet g = true
  · rw [if_pos hq] at hr2
    omega
  · simp only [hq] at hr2 hr3 ⊢
    obtain ⟨g1, g2, g3⟩ := h.same
    simp only [Bool.false_eq_true, if_false] at hr2 hr3 ⊢
    rw [g1, g2, g3]
    generalize min g.newEnd w.num = e at *
    generalize g.newStart = s at *
    have hitems : V.sys.list.items = [] := by
      have hk := h.keys
      rw [upTo_nil hr1, List.map_eq_nil_iff] at hk
      have := h.tracks.perm
      rw [hk] at this
      exact List.Perm.eq_nil this
    have hcalls : ∃ rest, virtualCalls nodes w.start w.stop s e = .insert s (some w.start) (nodes 0).1 (nodes 0).2 :: rest := by
      unfold virtualCalls virtualRemoved virtualRemaining
      rw [upTo_nil (by omega : min w.stop s ≤ w.start), upTo_nil (by omega : w.stop ≤ max w.start e),
        if_pos ⟨by omega, hr3⟩, upTo_cons (by omega : s < min e w.start)]
      exact ⟨_, rfl⟩
    obtain ⟨rest, hcalls⟩ := hcalls
    rw [hcalls]
    have : Verif.Lists.step V.sys (.insert s (some w.start) (nodes 0).1 (nodes 0).2) = none := by
      simp only [Verif.Lists.step, Verif.Lists.insert, DynList.after, DynList.get, hitems]
      rfl
    simp only [Verif.Lists.run, this, bind, Option.bind]

/-- **What happens otherwise.** After any such history, an update from an empty window to one around
its start panics, whether the number of items changes at the same time or not. -/
theorem virtual_restart_panics {d : Dom} {frag ls le : NodeId} (hd : Proper d) (hf : d.kids frag = [])
    (hne : ls ≠ le) (ops : List VOp) (n : Nat) (g : Measured) (nodes : Nat → NodeId × NodeId) :
    ∃ d0 L0, new d frag ls le = some (d0, L0) ∧
      (VAllowedRun ⟨⟨d0, L0⟩, 0, 0, 0⟩ ⟨0, 0, 0⟩ [] ops →
        ∃ V1, Virtual.run ⟨⟨d0, L0⟩, 0, 0, 0⟩ ops = some V1 ∧
          ((ops.foldl vSpec ⟨0, 0, 0⟩).restarts g → V1.step (.visible g nodes) = none) ∧
          ({ ops.foldl vSpec ⟨0, 0, 0⟩ with num := n }.restarts g → V1.step (.setNum n g nodes) = none)) := by
  obtain ⟨d0, L0, h, hg⟩ := good_new hd hf hne
  refine ⟨d0, L0, h, fun ha => ?_⟩
  obtain ⟨V1, e1, h1⟩ := vInv_run ops (vInv_start hg) ha
  exact ⟨V1, e1, fun hr => restart_none h1 nodes hr,
    fun hr => restart_none (V := { V1 with num := n }) (w := { ops.foldl vSpec ⟨0, 0, 0⟩ with num := n })
      (l := vItemsRun ⟨⟨d0, L0⟩, 0, 0, 0⟩ [] ops) (given := vGiven ops ++ []) ⟨h1.tracks, h1.keys, h1.same.1, h1.same.2.1, rfl⟩ nodes hr⟩

/-! ## concrete histories -/

/-- 100 items of 100 pixels in a root of 400 pixels; the list is scrolled to 5000; the list shrinks to
10 items; it is scrolled on to 5300, and all items are gone -/
def virtualDemo : List VOp :=
  [.setNum 100 (Rects.measure ⟨0, 0, 0, 0, 0, 400⟩ 0) (seqMk 1000),
    .env (.render 200 none),
    .visible (Rects.measure ⟨-5000, -5000, -3800, 5000, 0, 400⟩ 12) (seqMk 2000),
    .setNum 10 (Rects.measure ⟨-5000, -800, 1200, 5000, 0, 400⟩ 20) (seqMk 3000),
    .visible (Rects.measure ⟨-5300, -1100, 900, 4700, 0, 400⟩ 20) (seqMk 4000)]

/-- the windows along the way -/
example : (virtualDemo.take 1).foldl vSpec ⟨0, 0, 0⟩ = ⟨0, 12, 100⟩ := by decide
example : (virtualDemo.take 3).foldl vSpec ⟨0, 0, 0⟩ = ⟨42, 62, 100⟩ := by decide
example : (virtualDemo.take 4).foldl vSpec ⟨0, 0, 0⟩ = ⟨42, 62, 10⟩ := by decide
example : virtualDemo.foldl vSpec ⟨0, 0, 0⟩ = ⟨45, 10, 10⟩ := by decide

/-- `VAllowed`, computed -/
def newNodesB (sup : List NodeId) (d : Dom) (calls : List Op) : Bool :=
  decide (calls.flatMap madeBy).Nodup && (calls.flatMap madeBy).all (freshB sup d)

def restartsB (w : Window) (g : Measured) : Bool :=
  w.stop ≤ w.start && (w.next g).start < w.start && w.start < (w.next g).stop

def vAllowedB (sup : List NodeId) (V : Virtual) (w : Window) (l : List Item) : VOp → Bool
  | .visible g nodes =>
      newNodesB sup V.sys.dom (virtualCalls nodes V.start V.stop g.newStart (min g.newEnd V.num)) && !restartsB w g
  | .setNum n g nodes =>
      newNodesB sup V.sys.dom (virtualCalls nodes V.start V.stop g.newStart (min g.newEnd n)) &&
        !restartsB { w with num := n } g
  | .env op => !op.isCall && allowedB sup V.sys l op && opWithin sup op

def vAllowedRunB (sup : List NodeId) (V : Virtual) (w : Window) (l : List Item) : List VOp → Bool
  | [] => true
  | op :: ops => vAllowedB sup V w l op &&
      match V.step op with
      | none => true
      | some V' => vAllowedRunB sup V' (vSpec w op) (vItems V l op) ops

theorem newNodes_of {sup : List NodeId} {s : Sys} (hw : Within sup s) {calls : List Op}
    (h : newNodesB sup s.dom calls = true) : NewNodes s.dom calls := by
  simp only [newNodesB, Bool.and_eq_true, decide_eq_true_eq, List.all_eq_true] at h
  exact ⟨h.1, fun n hn => fresh_of hw (h.2 n hn)⟩

theorem restarts_of {w : Window} {g : Measured} (h : (!restartsB w g) = true) : ¬ w.restarts g := by
  rintro ⟨h1, h2, h3⟩
  simp [restartsB, h1, h2, h3] at h

theorem virtualCalls_within {sup : List NodeId} {mk : Nat → NodeId × NodeId} {a b s e : Nat} :
    ∀ op ∈ virtualCalls mk a b s e, opWithin sup op = true := by
  intro op hop
  unfold virtualCalls at hop
  simp only [List.mem_append] at hop
  rcases hop with (hop | hop) | hop
  · obtain ⟨r, hr, rfl⟩ := List.mem_map.1 hop
    rfl
  · obtain ⟨r, hr, x, y, rfl⟩ := insCalls_mem hop
    rfl
  · obtain ⟨r, hr, x, y, rfl⟩ := insCalls_mem hop
    rfl

theorem within_visible {sup : List NodeId} {V V' : Virtual} {g : Measured} {nodes : Nat → NodeId × NodeId}
    (hw : Within sup V.sys) (h : V.updateVisible g nodes = some V') : Within sup V'.sys := by
  unfold Virtual.updateVisible at h
  split at h
  · cases h; exact hw
  · simp only [Option.bind_eq_bind, Option.bind_eq_some_iff, pure, Option.some.injEq] at h
    obtain ⟨⟨s', as⟩, e1, e2⟩ := h
    subst e2
    exact within_run _ hw virtualCalls_within e1

theorem vAllowedRun_of {sup : List NodeId} (ops : List VOp) : ∀ {V : Virtual} {w : Window} {l : List Item},
    Within sup V.sys → vAllowedRunB sup V w l ops = true → VAllowedRun V w l ops := by
  induction ops with
  | nil => intro V w l _ _; trivial
  | cons op ops ih =>
    intro V w l hw h
    simp only [vAllowedRunB, Bool.and_eq_true] at h
    refine ⟨?_, ?_⟩
    · cases op with
      | visible g nodes =>
        have h1 := h.1
        simp only [vAllowedB, Bool.and_eq_true] at h1
        exact ⟨newNodes_of hw h1.1, restarts_of h1.2⟩
      | setNum n g nodes =>
        have h1 := h.1
        simp only [vAllowedB, Bool.and_eq_true] at h1
        exact ⟨newNodes_of hw h1.1, restarts_of h1.2⟩
      | env op =>
        have h1 := h.1
        simp only [vAllowedB, Bool.and_eq_true, Bool.not_eq_true'] at h1
        exact ⟨h1.1.1, allowed_of hw h1.1.2⟩
    · intro V' e
      have h2 := h.2
      rw [e] at h2
      refine ih ?_ h2
      cases op with
      | visible g nodes => exact within_visible hw e
      | setNum n g nodes => exact within_visible (V := { V with num := n }) hw e
      | env op =>
        have h1 := h.1
        simp only [vAllowedB, Bool.and_eq_true] at h1
        simp only [Virtual.step, Option.map_eq_some_iff] at e
        obtain ⟨⟨s', as⟩, e1, e2⟩ := e
        subst e2
        exact within_step hw h1.2 e1

theorem virtualDemo_allowed : VAllowedRun ⟨fresh, 0, 0, 0⟩ ⟨0, 0, 0⟩ [] virtualDemo :=
  vAllowedRun_of virtualDemo within_fresh (by decide +kernel)

theorem virtualDemo_allowed' : VAllowedRun ⟨fresh, 0, 0, 0⟩ ⟨0, 0, 0⟩ [] (virtualDemo.take 3) :=
  vAllowedRun_of _ within_fresh (by decide +kernel)

/-- the hypotheses of `virtual_window_partial` are met, with a window that has items -/
example : ∃ V' l, Virtual.run ⟨fresh, 0, 0, 0⟩ (virtualDemo.take 3) = some V' ∧
    l.map Item.key = [42, 43, 44, 45, 46, 47, 48, 49, 50, 51, 52, 53, 54, 55, 56, 57, 58, 59, 60, 61] ∧
    ShowsAmong V'.sys.dom V'.sys.list l (vGiven (virtualDemo.take 3)) := by
  obtain ⟨d0, L0, h, hr⟩ := virtual_window_partial (frag := 100) (ls := 1) (le := 2) proper_blank rfl (by decide)
    (virtualDemo.take 3)
  rw [new_blank] at h
  cases h
  obtain ⟨V', l, h1, h2, h3⟩ := hr virtualDemo_allowed'
  exact ⟨V', l, h1, h2.trans (by decide +kernel), h3⟩

/-- the hypotheses of `virtual_restart_panics` are met -/
example : VAllowedRun ⟨fresh, 0, 0, 0⟩ ⟨0, 0, 0⟩ [] virtualDemo ∧
    ({ virtualDemo.foldl vSpec ⟨0, 0, 0⟩ with num := 100 } : Window).restarts
      (Rects.measure ⟨-4100, 400, 400, 400, 0, 400⟩ 0) :=
  ⟨virtualDemo_allowed, by decide, by decide, by decide⟩

/-- **The claim is false, bounds.** The list has shrunk to 10 items, and the items 42 to 61 are still
displayed. -/
theorem virtual_stale : (Virtual.run ⟨fresh, 0, 0, 0⟩ (virtualDemo.take 4)).map
    (fun V => (V.num, V.sys.list.items.map Prod.fst)) =
    some (10, [42, 43, 44, 45, 46, 47, 48, 49, 50, 51, 52, 53, 54, 55, 56, 57, 58, 59, 60, 61]) := by
  decide +kernel

/-- **The claim is false, panic.** After that, letting the list grow again panics: the front spacer is
4500 pixels high and the browser has scrolled back to 4100. -/
theorem virtual_shrink_grow_panics : (Virtual.run ⟨fresh, 0, 0, 0⟩ virtualDemo).isSome = true ∧
    (Virtual.run ⟨fresh, 0, 0, 0⟩ (virtualDemo ++
      [.setNum 100 (Rects.measure ⟨-4100, 400, 400, 400, 0, 400⟩ 0) (seqMk 5000)])).isSome = false := by
  decide +kernel

end Verif.Lists
