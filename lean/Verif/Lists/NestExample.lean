import Verif.Lists.NestProps
import Verif.Lists.Render
import Verif.Lists.DynamicExample
/-!
# Concrete histories of nested lists

`NAllowed` speaks about all nodes and lists. `nallowedB` looks at those below a bound only.
-/
namespace Verif.Lists
open Verif.Dom

/-! ## where a list is rendered that is the content of an item -/

/-- An item's future is polled in a `Sibling` context before the end marker of the item. If it is the
future of `DynamicList::render`, the inner list is put directly before this marker, and the group of the
item is empty again afterwards. This is the step `.render i p (some stop)`. -/
theorem renderCtx_item (b : Build) (s : State) (parent : Ctx) (g : GroupId) (stop : NodeId) (L : DynList)
    (hg : s.groups g = []) :
    renderCtx b s (.sibling parent g stop) L =
      (render s.dom L parent.containingNode (some stop)).map fun r => ({ s with dom := r.1 }, r.2) := by
  simp only [renderCtx, render, Ctx.addChild, Ctx.removeChild, addHere, removeHere, hg, Group.firstFrom, Group.insert,
    List.find?_nil, Option.map_none, Option.none_or, panicIfDuplicate, Ctx.containingNode]
  cases h1 : s.dom.insertBefore parent.containingNode L.listStart (some stop) with
  | none => rfl
  | some d1 =>
    cases h2 : d1.insertBefore parent.containingNode L.listEnd (some L.listStart) with
    | none => cases b <;> simp [State.setGroup, h2]
    | some d2 =>
      cases h3 : d2.removeChild parent.containingNode L.listStart with
      | none => cases b <;> simp [State.setGroup, h2, h3, removeChildrenHere, Pos.isRoot, removeAll]
      | some d3 =>
        have hs : (fun h => if h = g then ([] : Group) else if h = g then [([], L.listStart)] else s.groups h) = s.groups := by
          funext h
          by_cases hh : h = g
          · subst hh; simp [hg]
          · simp [hh]
        cases h4 : d3.insertBefore parent.containingNode L.listStart (some L.listEnd) with
        | none => cases b <;> simp [State.setGroup, h2, h3, h4, removeChildrenHere, Pos.isRoot, removeAll]
        | some d4 =>
          by_cases hc : L.container = L.frag
          · cases h5 : insertAll parent.containingNode L.listEnd (d4.kids L.frag) d4 <;> cases b <;>
              simp [State.setGroup, h2, h3, h4, h5, hc, hs, removeChildrenHere, Pos.isRoot, removeAll]
          · cases b <;> simp [State.setGroup, hc, removeChildrenHere, Pos.isRoot]

/-! ## deciding what is allowed -/

def Forest.hasB (i : Nat) (x y : NodeId) : Forest → Forest → Bool
  | .nil, _ => false
  | .node _ r, m => r.hasB i x y m
  | .item _ _ _ n r, m => n.hasB i x y m || r.hasB i x y m
  | .list j x' y' n r, m => (j == i && x' == x && y' == y && decide (n = m)) || n.hasB i x y m || r.hasB i x y m

theorem Forest.has_of_b {i : Nat} {x y : NodeId} {f m : Forest} (h : f.hasB i x y m = true) : f.Has i x y m := by
  induction f with
  | nil => cases h
  | node n r ih => exact ih h
  | item k a b n r ih1 ih2 =>
    simp only [hasB, Bool.or_eq_true] at h
    exact h.imp ih1 ih2
  | list j a b n r ih1 ih2 =>
    simp only [hasB, Bool.or_eq_true, Bool.and_eq_true, beq_iff_eq, decide_eq_true_eq] at h
    rcases h with (⟨⟨⟨h1, h2⟩, h3⟩, h4⟩ | h) | h
    · exact Or.inl ⟨h1, h2, h3, h4⟩
    · exact Or.inr (Or.inl (ih1 h))
    · exact Or.inr (Or.inr (ih2 h))

def Forest.innerOf (i : Nat) (f : Forest) : Forest :=
  match f.pickList i with
  | .list _ _ _ m _ => m
  | _ => .nil

/-- the item that comes first, directly -/
def Forest.firstIs (b : Key) : Forest → Bool
  | .item k _ _ _ _ => k == b
  | _ => false

def Forest.adjB (a b : Key) : Forest → Bool
  | .nil => false
  | .node _ r => r.adjB a b
  | .item k _ _ _ r => (k == a && r.firstIs b) || r.adjB a b
  | .list _ _ _ _ r => r.adjB a b

theorem Forest.adj_b {a b : Key} {f : Forest} (h : f.adjacent a b) : f.adjB a b = true := by
  obtain ⟨p, xa, ya, ma, xb, yb, mb, q, rfl⟩ := h
  induction p with
  | nil =>
    show (((a == a) && (Forest.item b xb yb mb q).firstIs b) || _) = true
    simp [firstIs]
  | node n r ih => exact ih
  | item k x y m r _ ih =>
    show (_ || _) = true
    rw [Bool.or_eq_true]
    exact Or.inr ih
  | list i x y m r _ ih => exact ih

def Forest.markerB (n : NodeId) : Forest → Bool
  | .nil => false
  | .node _ r => r.markerB n
  | .item _ x y m r => n == x || n == y || m.markerB n || r.markerB n
  | .list _ x y m r => n == x || n == y || m.markerB n || r.markerB n

theorem Forest.marker_b {n : NodeId} {f : Forest} (h : f.Marker n) : f.markerB n = true := by
  induction f with
  | nil => cases h
  | node k r ih => exact ih h
  | item k x y m r ih1 ih2 =>
    simp only [markerB, Bool.or_eq_true, beq_iff_eq]
    rcases h with h | h | h | h
    · exact Or.inl (Or.inl (Or.inl h))
    · exact Or.inl (Or.inl (Or.inr h))
    · exact Or.inl (Or.inr (ih1 h))
    · exact Or.inr (ih2 h)
  | list i x y m r ih1 ih2 =>
    simp only [markerB, Bool.or_eq_true, beq_iff_eq]
    rcases h with h | h | h | h
    · exact Or.inl (Or.inl (Or.inl h))
    · exact Or.inl (Or.inl (Or.inr h))
    · exact Or.inl (Or.inr (ih1 h))
    · exact Or.inr (ih2 h)

/-- Beyond the bound there is nothing. -/
def Small (n : Nat) (w : World) (F : Page) : Prop :=
  (∀ c, n ≤ c → F.at_ c = .nil) ∧ ∀ i, n ≤ i → w.lists i = none

def freshN (n : Nat) (d : Dom) (x : NodeId) : Bool := (List.range n).all fun c => !(d.kids c).contains x

def notFrag (n : Nat) (w : World) (p : NodeId) : Bool :=
  (List.range n).all fun j => match w.lists j with | none => true | some L => L.frag != p

def notMarker (n : Nat) (F : Page) (x : NodeId) : Bool := (List.range n).all fun c => !(F.at_ c).markerB x

def Call.okB (n : Nat) (d : Dom) (f : Forest) : Call → Bool
  | .insert _ b x y => (match b with | none => true | some k => f.keys.contains k) && freshN n d x && freshN n d y && x != y
  | .remove _ => true
  | .moveBefore k b => f.keys.contains k && (match b with | none => true | some k' => f.keys.contains k' && k' != k)
  | .swap a b => f.keys.contains a && f.keys.contains b && !f.adjB a b
  | .retain _ => true

def refB (l : List NodeId) : Option NodeId → Bool
  | none => true
  | some r => l.contains r

def nallowedB (n : Nat) (w : World) (F : Page) : NOp → Bool
  | .create i frag x y => decide (i < n) && decide (frag < n) && (w.lists i).isNone && decide (F.at_ frag = .nil) &&
      notFrag n w frag && freshN n w.dom x && freshN n w.dom y && x != y
  | .call i c => decide (i < n) && (match w.lists i with
      | none => false
      | some L => (F.at_ L.container).hasB i L.listStart L.listEnd ((F.at_ L.container).innerOf i) &&
          c.okB n w.dom ((F.at_ L.container).innerOf i))
  | .render i p a => decide (i < n) && decide (p < n) && (match w.lists i with
      | none => false
      | some L => L.container == L.frag && notFrag n w p && refB (w.dom.kids p) a)
  | .unrender i src => decide (i < n) && decide (src < n) && decide (F.frag i < n) && (match w.lists i with
      | none => false
      | some L => L.container != L.frag && (w.dom.kids src).contains L.listStart)
  | .place c x r => decide (c < n) && notFrag n w c && notMarker n F x && decide (r ≠ some x) && refB (w.dom.kids c) r
  | .vanish c x => decide (c < n) && (w.dom.kids c).contains x && notMarker n F x

theorem fresh_n {n : Nat} {w : World} {F : Page} (h : NInv w F) (hs : Small n w F) {x : NodeId}
    (hx : freshN n w.dom x = true) : Fresh w.dom x := by
  intro c hc
  by_cases hcn : c < n
  · simp only [freshN, List.all_eq_true, List.mem_range] at hx
    have := hx c hcn
    simp at this
    exact this hc
  · rw [h.kids, hs.1 c (Nat.le_of_not_lt hcn)] at hc; cases hc

theorem notFrag_n {n : Nat} {w : World} {F : Page} (hs : Small n w F) {p : NodeId} (hp : notFrag n w p = true) :
    ∀ j L, w.lists j = some L → L.frag ≠ p := by
  intro j L hj
  by_cases hjn : j < n
  · simp only [notFrag, List.all_eq_true, List.mem_range] at hp
    have := hp j hjn
    rw [hj] at this
    simpa using this
  · rw [hs.2 j (by omega)] at hj; cases hj

theorem notMarker_n {n : Nat} {w : World} {F : Page} (hs : Small n w F) {x : NodeId} (hx : notMarker n F x = true) :
    ∀ c, ¬ (F.at_ c).Marker x := by
  intro c hc
  by_cases hcn : c < n
  · simp only [notMarker, List.all_eq_true, List.mem_range] at hx
    have := hx c hcn
    rw [Forest.marker_b hc] at this
    cases this
  · rw [hs.1 c (Nat.le_of_not_lt hcn)] at hc; cases hc

theorem ref_b {l : List NodeId} {a : Option NodeId} (h : refB l a = true) : ∀ r, a = some r → r ∈ l := by
  rintro r rfl
  simpa [refB] using h

theorem nallowed_of {n : Nat} {w : World} {F : Page} (h : NInv w F) (hs : Small n w F) {op : NOp}
    (hb : nallowedB n w F op = true) : NAllowed w F op := by
  cases op with
  | create i frag x y =>
    simp only [nallowedB, Bool.and_eq_true, decide_eq_true_eq, Option.isNone_iff_eq_none, bne_iff_ne, ne_eq] at hb
    obtain ⟨⟨⟨⟨⟨⟨⟨_, _⟩, h3⟩, h4⟩, h5⟩, h6⟩, h7⟩, h8⟩ := hb
    exact ⟨h3, h4, notFrag_n hs h5, fresh_n h hs h6, fresh_n h hs h7, h8⟩
  | call i c =>
    simp only [nallowedB, Bool.and_eq_true] at hb
    cases hL : w.lists i with
    | none => rw [hL] at hb; cases hb.2
    | some L =>
      rw [hL] at hb
      simp only [Bool.and_eq_true] at hb
      refine ⟨L, _, hL, Forest.has_of_b hb.2.1, ?_⟩
      have hc := hb.2.2
      cases c with
      | insert k b x y =>
        simp only [Call.okB, Bool.and_eq_true, bne_iff_ne, ne_eq] at hc
        refine ⟨?_, fresh_n h hs hc.1.1.2, fresh_n h hs hc.1.2, hc.2⟩
        rintro k rfl
        simpa using hc.1.1.1
      | remove k => trivial
      | moveBefore k b =>
        simp only [Call.okB, Bool.and_eq_true] at hc
        refine ⟨by simpa using hc.1, ?_⟩
        rintro k' rfl
        simpa using hc.2
      | swap a b =>
        simp only [Call.okB, Bool.and_eq_true, Bool.not_eq_true'] at hc
        refine ⟨by simpa using hc.1.1, by simpa using hc.1.2, fun ha => ?_⟩
        rw [Forest.adj_b ha] at hc
        cases hc.2
      | retain p => trivial
  | render i p a =>
    simp only [nallowedB, Bool.and_eq_true] at hb
    cases hL : w.lists i with
    | none => rw [hL] at hb; cases hb.2
    | some L =>
      rw [hL] at hb
      simp only [Bool.and_eq_true, beq_iff_eq] at hb
      exact ⟨L, hL, hb.2.1.1, notFrag_n hs hb.2.1.2, ref_b hb.2.2⟩
  | unrender i src =>
    simp only [nallowedB, Bool.and_eq_true] at hb
    cases hL : w.lists i with
    | none => rw [hL] at hb; cases hb.2
    | some L =>
      rw [hL] at hb
      simp only [Bool.and_eq_true, bne_iff_ne, ne_eq, List.contains_iff_mem] at hb
      exact ⟨L, hL, hb.2.1, hb.2.2⟩
  | place c x r =>
    simp only [nallowedB, Bool.and_eq_true, decide_eq_true_eq] at hb
    exact ⟨notFrag_n hs hb.1.1.1.2, notMarker_n hs hb.1.1.2, hb.1.2, ref_b hb.2⟩
  | vanish c x =>
    simp only [nallowedB, Bool.and_eq_true, List.contains_iff_mem] at hb
    exact ⟨hb.1.2, notMarker_n hs hb.2⟩

theorem small_step {n : Nat} {w w' : World} {F : Page} (hs : Small n w F) {op : NOp} {a : Option Bool}
    (hb : nallowedB n w F op = true) (he : nstep w op = some (w', a)) : Small n w' (nspec F op) := by
  have hset : ∀ d i L, i < n → ∀ j, n ≤ j → (w.set d i L).lists j = none := by
    intro d i L hi j hj
    show (if j = i then _ else _) = _
    rw [if_neg (by omega)]; exact hs.2 j hj
  have hif : ∀ {c p : NodeId} (f g : Forest), p < n → n ≤ c → g = .nil → (if c = p then f else g) = .nil := by
    intro c p f g h1 h2 h3
    rw [if_neg (by intro e; rw [e] at h2; exact absurd h1 (Nat.not_lt.2 h2))]; exact h3
  cases op with
  | create i frag x y =>
    simp only [nallowedB, Bool.and_eq_true, decide_eq_true_eq] at hb
    simp only [nstep, Option.map_eq_some_iff, Prod.mk.injEq] at he
    obtain ⟨r, -, rfl, -⟩ := he
    exact ⟨fun c hc => hif _ _ hb.1.1.1.1.1.1.2 hc (hs.1 c hc), hset _ _ _ hb.1.1.1.1.1.1.1⟩
  | call i c =>
    simp only [nallowedB, Bool.and_eq_true, decide_eq_true_eq] at hb
    simp only [nstep, Option.bind_eq_bind, Option.bind_eq_some_iff, pure, Option.some.injEq, Prod.mk.injEq] at he
    obtain ⟨L, -, r, -, rfl, -⟩ := he
    refine ⟨fun x hx => ?_, hset _ _ _ hb.1⟩
    show (F.at_ x).atList i c.spec = _
    rw [hs.1 x hx]; rfl
  | render i p q =>
    simp only [nallowedB, Bool.and_eq_true, decide_eq_true_eq] at hb
    simp only [nstep, Option.bind_eq_bind, Option.bind_eq_some_iff, pure, Option.some.injEq, Prod.mk.injEq] at he
    obtain ⟨L, -, r, -, rfl, -⟩ := he
    refine ⟨fun x hx => ?_, hset _ _ _ hb.1.1⟩
    show (if x = F.frag i then _ else if x = p then _ else _) = _
    by_cases hf : x = F.frag i
    · rw [if_pos hf]
    · rw [if_neg hf]; exact hif _ _ hb.1.2 hx (hs.1 x hx)
  | unrender i src =>
    simp only [nallowedB, Bool.and_eq_true, decide_eq_true_eq] at hb
    simp only [nstep, Option.bind_eq_bind, Option.bind_eq_some_iff, pure, Option.some.injEq, Prod.mk.injEq] at he
    obtain ⟨L, -, r, -, rfl, -⟩ := he
    exact ⟨fun x hx => hif _ _ hb.1.2 hx (hif _ _ hb.1.1.2 hx (hs.1 x hx)), hset _ _ _ hb.1.1.1⟩
  | place c x r =>
    simp only [nallowedB, Bool.and_eq_true, decide_eq_true_eq] at hb
    simp only [nstep, Option.map_eq_some_iff, Prod.mk.injEq] at he
    obtain ⟨d, -, rfl, -⟩ := he
    exact ⟨fun y hy => hif _ _ hb.1.1.1.1 hy (by rw [hs.1 y hy]; rfl), hs.2⟩
  | vanish c x =>
    simp only [nallowedB, Bool.and_eq_true, decide_eq_true_eq] at hb
    simp only [nstep, Option.map_eq_some_iff, Prod.mk.injEq] at he
    obtain ⟨d, -, rfl, -⟩ := he
    exact ⟨fun y hy => hif _ _ hb.1.1 hy (hs.1 y hy), hs.2⟩

def nallowedRunB (n : Nat) (w : World) (F : Page) : List NOp → Bool
  | [] => true
  | op :: ops => nallowedB n w F op &&
      match nstep w op with
      | none => true
      | some (w', _) => nallowedRunB n w' (nspec F op) ops

theorem nallowedRun_of {n : Nat} (ops : List NOp) : ∀ {w : World} {F : Page}, NInv w F → Small n w F →
    nallowedRunB n w F ops = true → NAllowedRun w F ops := by
  induction ops with
  | nil => intro w F _ _ _; trivial
  | cons op ops ih =>
    intro w F h hs hb
    simp only [nallowedRunB, Bool.and_eq_true] at hb
    have ha := nallowed_of h hs hb.1
    refine ⟨ha, ?_⟩
    intro w' a he
    obtain ⟨w1, a1, e1, h1⟩ := ninv_step h ha
    rw [he] at e1
    cases e1
    rw [he] at hb
    exact ih h1 (small_step hs hb.1 he) hb.2

/-! ## histories -/

set_option maxRecDepth 10000

theorem small_blank (n : Nat) : Small n (World.start blank) (Page.start blank) := ⟨fun _ _ => rfl, fun _ _ => rfl⟩

/-- List 0 (fragment 2) is rendered in node 1. Its item 7 renders list 1 (fragment 3), and the item 5 of
that renders list 2 (fragment 4), which has an item with the text 40. -/
def nest : List NOp :=
  [.create 0 2 10 11, .call 0 (.insert 7 none 12 13), .call 0 (.insert 8 none 14 15), .render 0 1 none,
   .create 1 3 20 21, .render 1 1 (some 13), .call 1 (.insert 5 none 22 23), .call 1 (.insert 6 none 24 25),
   .create 2 4 30 31, .render 2 1 (some 23), .call 2 (.insert 9 none 32 33), .place 1 40 (some 33)]

theorem nest_allowed : NAllowedRun (World.start blank) (Page.start blank) nest :=
  nallowedRun_of (n := 5) nest (ninv_start proper_blank) (small_blank 5) (by decide)

/-- The three lists are one inside the other. -/
example : (nspecRun (Page.start blank) nest).at_ 1 =
    .list 0 10 11 (.item 7 12 13 (.list 1 20 21 (.item 5 22 23 (.list 2 30 31 (.item 9 32 33 (.node 40 .nil) .nil) .nil)
      (.item 6 24 25 .nil .nil)) .nil) (.item 8 14 15 .nil .nil)) .nil := by decide

/-- And so the document is. -/
example : ∃ w as, nrun (World.start blank) nest = some (w, as) ∧
    w.dom.kids 1 = [10, 12, 20, 22, 30, 32, 40, 33, 31, 23, 24, 25, 21, 13, 14, 15, 11] := by
  obtain ⟨w, as, e, h⟩ := lists_nested_partial proper_blank nest nest_allowed
  exact ⟨w, as, e, by rw [h]; decide⟩

/-- Then the outer list moves its item 7 (with two lists in it) to the end, the middle list its item 5,
and the outer list is taken out and rendered again. -/
def nestMore : List NOp :=
  nest ++ [.call 0 (.moveBefore 7 none), .call 1 (.moveBefore 5 none), .unrender 0 1, .render 0 1 none,
    .call 2 (.remove 9), .vanish 1 40]

theorem nestMore_allowed : NAllowedRun (World.start blank) (Page.start blank) nestMore :=
  nallowedRun_of (n := 5) nestMore (ninv_start proper_blank) (small_blank 5) (by decide)

example : ((nspecRun (Page.start blank) nestMore).at_ 1).flat =
    [10, 14, 15, 12, 20, 24, 25, 22, 30, 31, 23, 21, 13, 11] := by decide

/-- The outer list is taken out: the middle list, in its item 7, has been rendered in node 1 and is in
fragment 2 now. -/
def nestOut : List NOp := nest ++ [.unrender 0 1]

theorem nestOut_allowed : NAllowedRun (World.start blank) (Page.start blank) nestOut :=
  nallowedRun_of (n := 5) nestOut (ninv_start proper_blank) (small_blank 5) (by decide)

/-- The hypotheses of `nested_moved_panics` and of `nested_call` are met, for the same list before and
after. -/
example : ((nrun (World.start blank) nestOut).bind fun r => (r.1.lists 1).map fun L =>
    (L.container, ((nspecRun (Page.start blank) nestOut).at_ 2).hasB 1 L.listStart L.listEnd
      (((nspecRun (Page.start blank) nestOut).at_ 2).innerOf 1))) = some (1, true) := by decide

/-- A program that adds an item to the middle list while the outer one is not rendered panics. -/
example : nrun (World.start blank) (nest ++ [.unrender 0 1, .call 1 (.insert 4 none 26 27)]) = none := by rfl

/-- So does one that does it after the outer list has been rendered in another node, 0. -/
example : nrun (World.start blank) (nest ++ [.unrender 0 1, .render 0 0 none, .call 1 (.insert 4 none 26 27)]) =
    none := by rfl

/-- And one that removes an item. -/
example : nrun (World.start blank) (nest ++ [.unrender 0 1, .call 1 (.remove 6)]) = none := by rfl

/-- But not one that does it when the outer list is back in the same node. -/
example : (nrun (World.start blank) (nest ++ [.unrender 0 1, .render 0 1 none, .call 1 (.insert 4 none 26 27)])).isSome =
    true := by decide

/-- The hypotheses of `nested_outer_dropped`. -/
example : ((nrun (World.start blank) nest).bind fun r => (r.1.lists 0).bind fun L0 => (r.1.lists 1).map fun L1 =>
    (L0.container, L1.container, L0.frag, ((nspecRun (Page.start blank) nest).at_ 1).hasB 0 L0.listStart L0.listEnd
      (((nspecRun (Page.start blank) nest).at_ 1).innerOf 0), (((nspecRun (Page.start blank) nest).at_ 1).innerOf 0).hasB 1
        L1.listStart L1.listEnd (((nspecRun (Page.start blank) nest).at_ 1).innerOf 1), (nstep r.1 (.unrender 0 1)).isSome)) =
    some (1, 1, 2, true, true, true) := by decide

/-- `nested_outer_dropped`, used: after `nest` the middle list is in an item of the outer one. -/
example {w' : World} {w : World} {as : List (Option Bool)} {a : Option Bool}
    (hr : nrun (World.start blank) nest = some (w, as)) (hd : nstep w (.unrender 0 1) = some (w', a)) :
    nstep w' (.call 1 (.insert 4 none 26 27)) = none ∧ nstep w' (.call 1 (.remove 6)) = none ∧
      nstep w' (.call 1 (.remove 77)) ≠ none := by
  have hl : w.lists 0 = some ⟨[(7, ⟨12, 13⟩), (8, ⟨14, 15⟩)], 1, 2, 10, 11⟩ ∧
      w.lists 1 = some ⟨[(5, ⟨22, 23⟩), (6, ⟨24, 25⟩)], 1, 3, 20, 21⟩ := by
    have h0 : (nrun (World.start blank) nest).map (fun r => (r.1.lists 0, r.1.lists 1)) =
        some (some ⟨[(7, ⟨12, 13⟩), (8, ⟨14, 15⟩)], 1, 2, 10, 11⟩, some ⟨[(5, ⟨22, 23⟩), (6, ⟨24, 25⟩)], 1, 3, 20, 21⟩) := by rfl
    rw [hr] at h0
    exact ⟨congrArg Prod.fst (Option.some.inj h0), congrArg Prod.snd (Option.some.inj h0)⟩
  have key := nested_outer_dropped proper_blank nest nest_allowed hr hl.2 hl.1
    (g := ((nspecRun (Page.start blank) nest).at_ 1).innerOf 0) (f := ((nspecRun (Page.start blank) nest).at_ 1).innerOf 1)
    (Forest.has_of_b (by decide)) (Forest.has_of_b (by decide)) rfl (by decide) hd
  refine ⟨(key _).2 trivial, (key _).2 ?_, fun h => absurd ((key _).1 h) ?_⟩
  · show (6 : Key) ∈ Forest.keys _
    decide
  · show ¬ (77 : Key) ∈ Forest.keys _
    decide

end Verif.Lists
