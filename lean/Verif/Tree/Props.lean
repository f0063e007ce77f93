import Verif.Tree.Lemmas
/-!
# C46: the document is the component tree
-/
namespace Verif.Tree
open Verif.Dom Verif.Drop

theorem tops_eq (f : Fut) (ctx : Ctx) : tops f = (f.shownHere ctx).map (·.node) := by
  induction f generalizing ctx with
  | done => rfl
  | both x y ihx ihy => simp [tops, Fut.shownHere, ihx ctx, ihy ctx]
  | block f ih => exact ih ctx
  | slot i f ih => exact ih (.child ctx i)
  | node id g mode a child ih => cases mode <;> rfl
  | item g r a child ih => rfl
  | comb a f ih => exact ih ctx
  | list a f ih => rfl

theorem sourceBefore_of_children {ctx : Ctx} {i j : Nat} {x y : Shown} (h : i < j)
    (hx : Below (.child ctx i) x) (hy : Below (.child ctx j) y) : SourceBefore x.path y.path := by
  obtain ⟨-, s, hs⟩ := hx
  obtain ⟨-, t, ht⟩ := hy
  simp only [Ctx.path, List.append_assoc, List.cons_append, List.nil_append] at hs ht
  exact .inr ⟨ctx.path, i, j, s, t, hs.symm, ht.symm, h⟩

theorem Good.sorted {k : Option Nat} {f : Fut} (h : Good k f) (ctx : Ctx) :
    (f.shownHere ctx).Pairwise fun x y => SourceBefore x.path y.path := by
  induction h generalizing ctx with
  | idle => exact List.Pairwise.nil
  | block _ ih => exact ih ctx
  | @node id mode a child _ _ _ => cases mode <;> simp [Fut.shownHere]
  | comb _ ih => exact ih ctx
  | nil => exact List.Pairwise.nil
  | cons _ _ hr ihf ihr =>
    simp only [Fut.shownHere]
    refine List.pairwise_append.2 ⟨ihf _, ihr _, ?_⟩
    intro x hx y hy
    obtain ⟨j, hj, hb⟩ := hr.shown_sub _ rfl ctx y hy
    exact sourceBefore_of_children (by omega) (shownHere_below _ _ _ hx) hb

theorem sourceBefore_irrefl (a : List Nat) : ¬ SourceBefore a a := by
  rw [← lexCmp_lt_iff, (lexCmp_eq_iff a a).2 rfl]
  simp

theorem sourceBefore_asymm {a b : List Nat} (h : SourceBefore a b) : ¬ SourceBefore b a := by
  rw [← lexCmp_lt_iff] at *
  rw [← lexCmp_swap, h]
  simp

theorem eq_of_sorted {l l' : List Shown} (h : l.Pairwise fun x y => SourceBefore x.path y.path)
    (h' : l'.Pairwise fun x y => SourceBefore x.path y.path) (hm : ∀ x, x ∈ l ↔ x ∈ l') : l = l' := by
  have nd : ∀ l : List Shown, l.Pairwise (fun x y => SourceBefore x.path y.path) → l.Nodup := by
    intro l hl
    apply hl.imp
    rintro x y hxy rfl
    exact sourceBefore_irrefl _ hxy
  apply List.Perm.eq_of_pairwise (le := fun x y => SourceBefore x.path y.path) _ h h'
    ((List.perm_ext_iff_of_nodup (nd l h) (nd l' h')).2 hm)
  intro x y _ _ hxy hyx
  exact absurd hyx (sourceBefore_asymm hxy)

/-- The children of a node, without those of other code, are what runs in it displays. -/
theorem ours_eq {P : Places} {D : Display} {st : State} {g : GroupId} {c : NodeId} {f : Fut}
    {k : Option Nat} (hi : Inv P D st) (hf : Good k f) (hP : (P g).1 = c)
    (hinj : ∀ x ∈ D.shown, (P x.group).1 = c → x.group = g)
    (hr : f.RunsAt (.container g c) D) : ours st.dom D.foreign c = tops f := by
  rw [tops_eq f (.container g c)]
  have h1 : (st.groups g).map (fun e => (⟨g, e.1.reverse, e.2⟩ : Shown)) = f.shownHere (.container g c) := by
    apply eq_of_sorted
    · rw [List.pairwise_map]
      apply (hi.sorted g).imp
      intro a b hab
      rwa [cmp_eq_lex, lexCmp_lt_iff] at hab
    · exact hf.sorted _
    · intro x
      rw [hr x]
      simp only [List.mem_map]
      constructor
      · rintro ⟨e, he, rfl⟩
        exact ⟨(hi.agree g e.1 e.2).1 he, rfl, List.nil_prefix⟩
      · rintro ⟨hx, hg, -⟩
        have hg : x.group = g := hg
        subst hg
        refine ⟨(x.path.reverse, x.node), ?_, by simp⟩
        rw [hi.agree]; simpa using hx
  rw [← h1, List.map_map]
  show _ = (st.groups g).map (·.2)
  have hsub : List.Sublist ((st.groups g).map (·.2)) (ours st.dom D.foreign c) := by
    have hs := hi.order g
    rw [hP] at hs
    have : ((st.groups g).map (·.2)).filter (fun n => !D.foreign.contains (c, n)) =
        (st.groups g).map (·.2) := by
      rw [List.filter_eq_self]
      intro n hn
      obtain ⟨e, he, rfl⟩ := List.mem_map.1 hn
      have := hi.sep _ ((hi.agree g e.1 e.2).1 he) c
      simpa using this
    rw [← this]
    exact hs.filter _
  have hnd : (ours st.dom D.foreign c).Nodup := (hi.nodup c).filter _
  have hperm : ((st.groups g).map (·.2)).Perm (ours st.dom D.foreign c) := by
    refine (List.perm_ext_iff_of_nodup (hi.groupNodup g) hnd).2 fun n => ⟨fun h => hsub.subset h, ?_⟩
    intro hn
    simp only [ours, List.mem_filter, hi.mem, Display.In, Bool.not_eq_true', List.contains_eq_mem,
      decide_eq_false_iff_not] at hn
    rcases hn with ⟨⟨x, hx, rfl, hxc⟩ | hn, hnf⟩
    · have := hinj x hx hxc
      subst this
      exact List.mem_map.2 ⟨(x.path.reverse, x.node), by rw [hi.agree]; simpa using hx, rfl⟩
    · exact absurd hn hnf
  exact (hsub.eq_of_length hperm.length_eq).symm

/-- The same for everything inside. -/
theorem contents_ok {P : Places} {D : Display} {st : State} {f : Fut} {k : Option Nat}
    (hi : Inv P D st) (hf : Good k f) (hP : ∀ g ∈ ids f, P g = (g, none))
    (hinj : ∀ g ∈ ids f, ∀ x ∈ D.shown, (P x.group).1 = g → x.group = g) (h : Inner D f) :
    Contents st.dom D.foreign f := by
  induction hf with
  | idle => trivial
  | block _ ih => exact ih hP hinj h
  | @node id mode a child _ hc ih =>
    simp only [ids, List.mem_cons] at hP hinj
    refine ⟨ours_eq hi hc ?_ (hinj id (.inl rfl)) h.2.1,
      ih (fun g hg => hP g (.inr hg)) (fun g hg => hinj g (.inr hg)) h.2.2⟩
    rw [hP id (.inl rfl)]
  | comb _ ih => exact ih hP hinj h
  | nil => trivial
  | cons _ _ _ ihf ihr =>
    simp only [ids, List.mem_append] at hP hinj
    exact ⟨ihf (fun g hg => hP g (.inl hg)) (fun g hg => hinj g (.inl hg)) h.1,
      ihr (fun g hg => hP g (.inr hg)) (fun g hg => hinj g (.inr hg)) h.2⟩

/-- Where the groups are: the root group in the mount node, every other group in the element with
the same number. -/
def places (r : GroupId) (node : NodeId) : Places := fun g => if g = r then (node, none) else (g, none)

structure AppInv (r : GroupId) (A : App) (D : Display) : Prop where
  group : A.group = r
  node : A.node < r
  foreign : D.foreign = A.foreign
  flag : A.t.d.flag = none
  inv : Inv (places r A.node) D A.t.d.st
  good : Good none A.fut
  glob : Global (places r A.node) r A.t.next D
  loc : Local (places r A.node) r A.t.next D (.container r A.node) A.fut

theorem AppInv.rendered {r : GroupId} {A : App} {D : Display} (h : AppInv r A D) : A.Rendered := by
  have hn := h.node
  constructor
  · rw [← h.foreign]
    refine ours_eq (g := r) h.inv h.good (by simp [places]) ?_ h.loc.runs
    intro x hx hxc
    have := (h.glob.group x hx).1
    simp only [places] at hxc
    split at hxc
    · assumption
    · rw [← hxc] at hn; exact absurd this (Nat.not_le_of_lt hn)
  · rw [← h.foreign]
    refine contents_ok h.inv h.good h.loc.placeIds ?_ h.loc.inner
    intro g hg x hx hxc
    have h1 := (h.loc.lt g hg).1
    simp only [places] at hxc
    split at hxc
    · rw [← hxc] at h1; exact absurd h1 (Nat.not_le_of_lt hn)
    · exact hxc

theorem Global.mono {P : Places} {r n m : Nat} {D : Display} (h : Global P r n D) (hm : n ≤ m) :
    Global P r m D :=
  ⟨fun x hx => Nat.lt_of_lt_of_le (h.node x hx) hm,
    fun x hx => ⟨(h.group x hx).1, Nat.lt_of_lt_of_le (h.group x hx).2 hm⟩,
    fun c x hx => Nat.lt_of_lt_of_le (h.foreign c x hx) hm, fun g hg => h.place g (Nat.le_trans hm hg),
    Nat.le_trans h.low hm⟩

theorem AppInv.step (b : Build) {r : GroupId} {A : App} {D : Display} (h : AppInv r A D) (e : Event)
    (he : e.Narrow) : ∃ A' D', A.step b e = some A' ∧ AppInv r A' D' := by
  obtain ⟨node, group, fut, ⟨⟨st, flag⟩, next⟩, foreign⟩ := A
  obtain ⟨hgr, hn, hfo, hfl, hi, hg, hG, hL⟩ := h
  simp only at *
  subst hgr hfl
  cases e with
  | poll script =>
    obtain ⟨f', st', n', D', rdy, hp, hi', hf', hc⟩ :=
      poll_ok b script he (.container group node) fut next D st hg hi hG hL
    exact ⟨_, D', by simp [App.step, hp]; rfl, ⟨rfl, hn, hc.foreign.trans hfo, rfl, hi', hf', hc.glob,
      hc.loc⟩⟩
  | foreignInsert c ref =>
    simp only [App.step]
    cases hins : st.dom.insertBefore c next ref with
    | none => exact ⟨_, D, rfl, ⟨rfl, hn, hfo, rfl, hi, hg, hG, hL⟩⟩
    | some dom =>
      have hok : (Op.foreignInsert c next ref).Ok (places group node) D := by
        constructor
        · rintro c' (⟨x, hx, hxn, -⟩ | hx)
          · exact Nat.lt_irrefl _ (hxn ▸ hG.node x hx)
          · exact Nat.lt_irrefl _ (hG.foreign _ _ hx)
        · intro r hr
          subst hr
          rw [← hi.mem]
          apply Classical.byContradiction
          intro hno
          simp [Dom.insertBefore, hno] at hins
      obtain ⟨s', hex, hi'⟩ := hi.foreignInsert b c next ref hok
      simp only [Op.exec, hins, Option.bind_eq_bind, Option.bind_some, Option.pure_def,
        Option.some.injEq] at hex
      subst hex
      refine ⟨_, _, rfl, ⟨rfl, hn, ?_, rfl, hi', hg, ?_, ?_⟩⟩
      · simp [Display.step, hfo]
      · have hG' := hG.mono (Nat.le_succ next)
        refine ⟨hG'.node, hG'.group, ?_, hG'.place, hG'.low⟩
        intro c' x hx
        simp only [Display.step, List.mem_cons, Prod.mk.injEq] at hx
        rcases hx with ⟨-, rfl⟩ | hx
        · exact Nat.lt_succ_self _
        · exact hG'.foreign c' x hx
      · refine ⟨hL.nodup, fun i hi => ⟨(hL.lt i hi).1, Nat.lt_succ_of_lt (hL.lt i hi).2⟩,
          ⟨hL.ctxLt.1, Nat.lt_succ_of_lt hL.ctxLt.2⟩, hL.ctxNot, hL.place, hL.placeIds, hL.index, ?_,
          hL.runs, ?_, ?_⟩
        · intro r hr; cases hr
        · exact Inner.mono hg hL.inner (fun _ _ => Iff.rfl) fun _ hx => .inl hx
        · intro c' x hx
          simp only [Display.step, List.mem_cons, Prod.mk.injEq] at hx
          rcases hx with ⟨-, rfl⟩ | hx
          · intro hi; exact Nat.lt_irrefl _ (hL.lt _ hi).2
          · exact hL.foreign c' x hx
  | foreignRemove c n =>
    simp only [App.step]
    split
    · next hmem =>
      have hok : (Op.foreignRemove c n).Ok (places group node) D := by
        refine ⟨hfo ▸ hmem, ?_⟩
        intro g
        simp only [places]
        split <;> simp
      obtain ⟨s', hex, hi'⟩ := hi.foreignRemove b c n hok
      simp only [Op.exec, Option.bind_eq_bind, Option.bind_eq_some_iff, Option.pure_def,
        Option.some.injEq] at hex
      obtain ⟨dom, hrem, rfl⟩ := hex
      rw [hrem]
      have hsub : ∀ c' x, (c', x) ∈ (D.step (.foreignRemove c n)).foreign → (c', x) ∈ D.foreign := by
        intro c' x hx
        simp only [Display.step, List.mem_filter] at hx
        exact hx.1
      refine ⟨_, _, rfl, ⟨rfl, hn, ?_, rfl, hi', hg, ?_, ?_⟩⟩
      · simp [Display.step, hfo]
      · exact ⟨hG.node, hG.group, fun c' x hx => hG.foreign c' x (hsub c' x hx), hG.place, hG.low⟩
      · refine ⟨hL.nodup, hL.lt, hL.ctxLt, hL.ctxNot, hL.place, hL.placeIds, hL.index, ?_,
          hL.runs, ?_, fun c' x hx => hL.foreign c' x (hsub c' x hx)⟩
        · intro r hr; cases hr
        · exact Inner.mono hg hL.inner (fun _ _ => Iff.rfl) fun _ hx => .inl hx
    · exact ⟨_, D, rfl, ⟨rfl, hn, hfo, rfl, hi, hg, hG, hL⟩⟩

theorem AppInv.mount (app : Shape) (node : NodeId) (dom : Dom) (foreign : List (NodeId × NodeId))
    (next : Nat) (hd : Document dom foreign next) (hn : node < next) (ha : app.Narrow) :
    AppInv next (App.mount app node dom foreign next) ⟨[], foreign⟩ := by
  have hf := Shape.make_fresh app (next + 1) ha
  have hle := hf.le
  refine ⟨rfl, hn, rfl, rfl, ?_, hf.good, ⟨?_, ?_, ?_, ?_, ?_⟩, ⟨hf.nodup, ?_, ?_, ?_, ?_, ?_, ?_, ?_, ?_,
    ?_, ?_⟩⟩
  · exact Inv.start ⟨rfl, fun _ => rfl, hd.once, hd.all, hd.parent⟩
  · intro x hx; cases hx
  · intro x hx; cases hx
  · intro c x hx
    exact Nat.lt_of_lt_of_le (hd.used c x hx) (Nat.le_of_succ_le hle)
  · intro g hg
    have : next < g := Nat.lt_of_lt_of_le hle hg
    have : g ≠ next := fun h => Nat.lt_irrefl g (h ▸ this)
    simp [places, this]
  · exact Nat.le_of_succ_le hle
  · intro i hi
    exact ⟨Nat.le_of_succ_le (hf.range i hi).1, (hf.range i hi).2⟩
  · exact ⟨Nat.le_refl _, hle⟩
  · intro hi
    exact Nat.lt_irrefl _ (hf.range _ hi).1
  · simp [places, Ctx.group, Ctx.home, Ctx.marker, App.mount]
  · intro g hg
    have : g ≠ next := fun h => Nat.lt_irrefl g ((h.symm ▸ (hf.range g hg).1 : next + 1 ≤ g) |> fun h' => by omega)
    simp [places, this]
  · intro i hi; cases hi
  · intro r hr; cases hr
  · intro x
    show x ∈ (app.make (next + 1)).1.shownHere _ ↔ _
    rw [hf.hidden]; simp
  · exact hf.inner _ (by intro x hx; cases hx)
  · intro c x hx hi
    have h1 := hd.used c x hx
    exact Nat.lt_irrefl _ (Nat.lt_trans h1 (hf.range x hi).1)

/-- **C46.** Mount any app, let it be polled any number of times with user code doing anything, and
let other code insert and remove its own nodes anywhere: there is never a panic, and after every
event the document shows exactly the component tree of the app as it is now. -/
theorem document_is_component_tree (b : Build) (app : Shape) (node : NodeId) (dom : Dom)
    (foreign : List (NodeId × NodeId)) (next : Nat) (events : List Event)
    (hdoc : Document dom foreign next) (hnode : node < next) (happ : app.Narrow)
    (hev : ∀ e ∈ events, e.Narrow) :
    ∃ A, (App.mount app node dom foreign next).run b events = some A ∧ A.Rendered := by
  have : ∀ (events : List Event) (A : App) (D : Display), AppInv next A D →
      (∀ e ∈ events, e.Narrow) → ∃ A' D', A.run b events = some A' ∧ AppInv next A' D' := by
    intro events
    induction events with
    | nil => intro A D h _; exact ⟨A, D, rfl, h⟩
    | cons e es ih =>
      intro A D h hev
      obtain ⟨A1, D1, hs, h1⟩ := h.step b e (hev e (by simp))
      obtain ⟨A2, D2, hr, h2⟩ := ih A1 D1 h1 fun e he => hev e (by simp [he])
      exact ⟨A2, D2, by simp [App.run, hs, hr], h2⟩
  obtain ⟨A, D, hr, h⟩ := this events _ _ (AppInv.mount app node dom foreign next hdoc hnode happ) hev
  exact ⟨A, hr, h.rendered⟩

/-! A concrete run. The mount node 0 contains the foreign node 1. The app is an `async` block that
awaits `join((block, element(block)))`; all addresses of blockers are the same. The second
subfuture is polled first, then the first one awaits an element; other code inserts a node between
the two; the content of the second element awaits an element; and finally the first subfuture moves on
to a `join` of two elements of which one has been polled. -/

def exApp : Shape := .block

def exFork (x y : Shape) : Shape := .comb 7 (.cons x (.cons y .nil))

def exEvents : List Event :=
  [.poll (.create (exFork .block (.element 7 .block)) (.await (.sub 1 (.content .pend) .pend) .pend)),
   .poll (.await (.sub 0 (.create (.element 7 .block) (.await (.content .pend) .pend)) .pend) .pend),
   .foreignInsert 0 (some 3),
   .poll (.await (.sub 1 (.content (.create (.element 7 .block) (.await (.content .pend) .pend)))
     .pend) .pend),
   .poll (.await (.sub 0 (.cancel (.create (exFork (.element 7 .block) (.element 7 .block))
     (.await (.sub 1 (.content .pend) .pend) .pend))) .pend) .pend)]

def exDom : Dom := ⟨fun c => if c = 0 then [1] else []⟩

theorem exDocument : Document exDom [(0, 1)] 2 := by
  refine ⟨?_, ?_, ?_, ?_⟩
  · intro c; simp only [exDom]; split <;> simp
  · intro c n; simp only [exDom]; split <;> simp_all
  · intro c c' n h h'; simp_all
  · intro c n h; simp_all

example : Document exDom [(0, 1)] 2 ∧ (0 : NodeId) < 2 ∧ exApp.Narrow ∧ ∀ e ∈ exEvents, e.Narrow := by
  refine ⟨exDocument, by decide, trivial, ?_⟩
  intro e he
  simp only [exEvents, List.mem_cons, List.not_mem_nil, or_false] at he
  rcases he with rfl | rfl | rfl | rfl | rfl <;>
    simp [Event.Narrow, Script.Narrow, Shape.Narrow, Shapes.NarrowFrom, exFork]

/-- The document after that run: the mount node contains the foreign nodes 1 and 5, the second
element of the new `join` (8), and the element 3; element 3 contains 6. -/
example : ((App.mount exApp 0 exDom [(0, 1)] 2).run .release exEvents).map
    (fun A => (A.t.d.st.dom.kids 0, A.t.d.st.dom.kids 3, tops A.fut)) =
    some ([1, 5, 8, 3], [6], [8, 3]) := by
  decide +kernel

end Verif.Tree
