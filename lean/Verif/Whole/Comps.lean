import Verif.Whole.Keeps
import Verif.Tree.Props
/-! # The components of an app with lists: the app itself and the items -/
namespace Verif.Whole
open Verif.Dom Verif.Drop Verif.Lists Verif.Tree

/-- `omega` for identifiers -/
macro "om" : tactic => `(tactic| ((try dsimp only [GroupId, NodeId] at *); omega))

theorem shownHere_congr (f : Fut) (ctx ctx' : Ctx) (hg : ctx.group = ctx'.group) (hp : ctx.path = ctx'.path) :
    f.shownHere ctx = f.shownHere ctx' := by
  induction f generalizing ctx ctx' with
  | done => rfl
  | both x y ihx ihy => simp only [Fut.shownHere, ihx ctx ctx' hg hp, ihy ctx ctx' hg hp]
  | block f ih => exact ih ctx ctx' hg hp
  | slot i f ih => exact ih _ _ hg (by simp only [Ctx.path, hp])
  | node id g mode a child ih => cases mode <;> simp only [Fut.shownHere, hg, hp]
  | item g r a child ih => rfl
  | comb a f ih => exact ih ctx ctx' hg hp
  | list a f ih => rfl

/-- The component `f` with the group `g`. -/
structure Comp (r n : Nat) (D : Display) (g : GroupId) (f : Fut) : Prop where
  good : Good none f
  nodup : (ids f).Nodup
  lt : ∀ i ∈ ids f, r ≤ i ∧ i < n
  gLt : r ≤ g ∧ g < n
  gNot : g ∉ ids f
  runs : ∀ x, x ∈ f.shownHere (.container g g) ↔ x ∈ D.shown ∧ x.group = g
  inner : Inner D f
  foreign : ∀ c x, (c, x) ∈ D.foreign → x ∉ ids f

theorem below_iff {ctx : Ctx} {g : GroupId} (hg : ctx.group = g) (hp : ctx.path = []) (x : Shown) :
    Below ctx x ↔ x.group = g := by
  simp [Below, hg, hp]

theorem Comp.local {P : Places} {r n : Nat} {D : Display} {g : GroupId} {f : Fut} {ctx : Ctx}
    (h : Comp r n D g f) (hg : ctx.group = g) (hp : ctx.path = []) (hP : P g = (ctx.home, ctx.marker))
    (hI : ∀ i ∈ ids f, P i = (i, none)) (hm : ∀ r, ctx.marker = some r → (ctx.home, r) ∈ D.foreign) :
    Local P r n D ctx f := by
  refine ⟨h.nodup, h.lt, hg ▸ h.gLt, hg ▸ h.gNot, hg ▸ hP, hI, ?_, hm, ?_, h.inner, h.foreign⟩
  · rw [hp]; intro i hi; cases hi
  · intro x
    rw [below_iff hg hp, ← h.runs, shownHere_congr f ctx (.container g g) hg hp]

theorem Comp.of_local {P : Places} {r n : Nat} {D : Display} {g : GroupId} {f : Fut} {ctx : Ctx}
    (h : Local P r n D ctx f) (hf : Good none f) (hg : ctx.group = g) (hp : ctx.path = []) : Comp r n D g f := by
  refine ⟨hf, h.nodup, h.lt, hg ▸ h.ctxLt, hg ▸ h.ctxNot, ?_, h.inner, h.foreign⟩
  intro x
  rw [← below_iff hg hp, ← h.runs, shownHere_congr f ctx (.container g g) hg hp]

/-- All components: their groups are different, and no element belongs to two of them. -/
structure Comps (r n : Nat) (D : Display) (cs : List (GroupId × Fut)) : Prop where
  each : ∀ p ∈ cs, Comp r n D p.1 p.2
  keys : (cs.map (·.1)).Nodup
  not : ∀ p ∈ cs, ∀ q ∈ cs, p.1 ∉ ids q.2
  apart : ∀ p ∈ cs, ∀ q ∈ cs, p.1 ≠ q.1 → ∀ i ∈ ids p.2, i ∉ ids q.2

theorem Comp.mono {r n n' : Nat} {D D' : Display} {g : GroupId} {f : Fut} (h : Comp r n D g f) (hn : n ≤ n')
    (hs : ∀ x, x.group = g ∨ x.group ∈ ids f → (x ∈ D'.shown ↔ x ∈ D.shown))
    (hN : ∀ x ∈ D'.shown, x ∈ D.shown ∨ x.node ∉ ids f)
    (hf : ∀ c x, (c, x) ∈ D'.foreign → x ∉ ids f) : Comp r n' D' g f := by
  refine ⟨h.good, h.nodup, fun i hi => ⟨(h.lt i hi).1, Nat.lt_of_lt_of_le (h.lt i hi).2 hn⟩,
    ⟨h.gLt.1, Nat.lt_of_lt_of_le h.gLt.2 hn⟩, h.gNot, ?_,
    Inner.mono h.good h.inner (fun x hx => hs x (.inr hx)) hN, hf⟩
  intro x
  rw [h.runs]
  constructor
  · rintro ⟨h1, h2⟩; exact ⟨(hs x (.inl h2)).2 h1, h2⟩
  · rintro ⟨h1, h2⟩; exact ⟨(hs x (.inl h2)).1 h1, h2⟩

/-- One component has changed (or is not there any more). -/
theorem Comps.change {P : Places} {r n n' : Nat} {D D' : Display} {cs cs' : List (GroupId × Fut)} {g : GroupId}
    {f f' : Fut} {ctx : Ctx} (h : Comps r n D cs) (hg : (g, f) ∈ cs) (hf' : Good none f')
    (hc : Change P r n D ctx f n' D' f') (hcg : ctx.group = g) (hcp : ctx.path = [])
    (hk : (cs'.map (·.1)).Nodup) (hm : ∀ p ∈ cs', p = (g, f') ∨ (p ∈ cs ∧ p.1 ≠ g)) : Comps r n' D' cs' := by
  have hnew := Comp.of_local hc.loc hf' hcg hcp
  have hlt : ∀ p ∈ cs, p.1 < n := fun p hp => (h.each p hp).gLt.2
  refine ⟨?_, hk, ?_, ?_⟩
  · intro p hp
    rcases hm p hp with rfl | ⟨hp, hne⟩
    · exact hnew
    · have he := h.each p hp
      refine he.mono hc.le ?_ ?_ ?_
      · intro x hx
        refine hc.same x ?_ ?_ ?_
        · rw [below_iff hcg hcp]
          intro e
          rcases hx with hx | hx
          · exact hne (hx.symm.trans e)
          · exact h.not (g, f) hg p hp (e ▸ hx)
        · intro hi
          rcases hx with hx | hx
          · exact h.not p hp (g, f) hg (hx ▸ hi)
          · exact h.apart p hp (g, f) hg hne _ hx hi
        · rcases hx with hx | hx
          · rw [hx]; exact he.gLt.2
          · exact (he.lt _ hx).2
      · intro x hx
        rcases hc.nodes x hx with h1 | h1 | h1
        · exact .inl h1
        · exact .inr fun h2 => h.apart p hp (g, f) hg hne _ h2 h1
        · exact .inr fun h2 => Nat.not_le_of_lt (he.lt _ h2).2 h1
      · rw [hc.foreign]; exact he.foreign
  · intro p hp q hq
    rcases hm p hp with rfl | ⟨hp, hne⟩ <;> rcases hm q hq with rfl | ⟨hq, hne'⟩
    · exact hnew.gNot
    · exact h.not (g, f) hg q hq
    · intro hi
      rcases hc.ids _ hi with hi | hi
      · exact h.not p hp (g, f) hg hi
      · exact Nat.not_le_of_lt (hlt p hp) hi.1
    · exact h.not p hp q hq
  · intro p hp q hq hpq i hi hj
    rcases hm p hp with rfl | ⟨hp, hne⟩ <;> rcases hm q hq with rfl | ⟨hq, hne'⟩
    · exact hpq rfl
    · rcases hc.ids _ hi with hi | hi
      · exact h.apart (g, f) hg q hq hpq i hi hj
      · exact Nat.not_le_of_lt ((h.each q hq).lt _ hj).2 hi.1
    · rcases hc.ids _ hj with hj | hj
      · exact h.apart p hp (g, f) hg hpq i hi hj
      · exact Nat.not_le_of_lt ((h.each p hp).lt _ hi).2 hj.1
    · exact h.apart p hp q hq hpq i hi hj

/-- Nothing has happened to the components. -/
theorem Comps.keep {r n n' : Nat} {D D' : Display} {cs : List (GroupId × Fut)} (h : Comps r n D cs) (hn : n ≤ n')
    (hs : D'.shown = D.shown) (hf : ∀ c x, (c, x) ∈ D'.foreign → (∃ c', (c', x) ∈ D.foreign) ∨ n ≤ x) :
    Comps r n' D' cs := by
  refine ⟨?_, h.keys, h.not, h.apart⟩
  intro p hp
  have he := h.each p hp
  refine he.mono hn (fun x _ => by rw [hs]) (fun x hx => .inl (hs ▸ hx)) ?_
  intro c x hx hi
  rcases hf c x hx with ⟨c', h1⟩ | h1
  · exact he.foreign c' x h1 hi
  · exact Nat.not_le_of_lt (he.lt x hi).2 h1

/-- A component that has just been created. -/
theorem Comps.add {r n k m g : Nat} {D : Display} {cs : List (GroupId × Fut)} {f : Fut}
    (h : Comps r n D cs) (hr : r ≤ n) (hnk : n ≤ g) (hgk : g < k) (hf : Fresh none f k m)
    (hs : ∀ x ∈ D.shown, x.node < n ∧ x.group < n) (hD : ∀ c x, (c, x) ∈ D.foreign → x < k) :
    Comps r m D ((g, f) :: cs) := by
  have hle := hf.le
  have hlt : ∀ p ∈ cs, p.1 < n := fun p hp => (h.each p hp).gLt.2
  refine ⟨?_, ?_, ?_, ?_⟩
  · intro p hp
    rcases List.mem_cons.1 hp with rfl | hp
    · refine ⟨hf.good, hf.nodup, ?_, ⟨by om, by om⟩, ?_, ?_, ?_, ?_⟩
      · intro i hi; have := hf.range i hi; om
      · intro hi; have := hf.range _ hi; om
      · intro x
        rw [hf.hidden]
        simp only [List.not_mem_nil, false_iff]
        rintro ⟨hx, e⟩
        have := (hs x hx).2
        om
      · exact hf.inner D fun x hx => by have := hs x hx; om
      · intro c x hx hi
        have := hD c x hx
        have := hf.range x hi
        om
    · exact (h.each p hp).mono (by om) (fun _ _ => Iff.rfl) (fun _ hx => .inl hx) (h.each p hp).foreign
  · rw [List.map_cons, List.nodup_cons]
    refine ⟨?_, h.keys⟩
    intro hg
    obtain ⟨p, hp, e⟩ := List.mem_map.1 hg
    have := hlt p hp
    om
  · intro p hp q hq hi
    rcases List.mem_cons.1 hp with rfl | hp <;> rcases List.mem_cons.1 hq with rfl | hq
    · have := hf.range _ hi; om
    · have := ((h.each q hq).lt _ hi).2; om
    · have := hf.range _ hi; have := hlt p hp; om
    · exact h.not p hp q hq hi
  · intro p hp q hq hpq i hi hj
    rcases List.mem_cons.1 hp with rfl | hp <;> rcases List.mem_cons.1 hq with rfl | hq
    · exact hpq rfl
    · have := hf.range _ hi; have := ((h.each q hq).lt _ hj).2; om
    · have := hf.range _ hj; have := ((h.each p hp).lt _ hi).2; om
    · exact h.apart p hp q hq hpq i hi hj

/-! ## the addresses of the blockers -/

mutual
theorem make_addrs : ∀ (s : Shape) (n : Nat), (s.make n).1.addrs = shapeAddrs s
  | .block, n => rfl
  | .element a child, n => by simp only [Shape.make, Fut.addrs, shapeAddrs, make_addrs child]
  | .comb a subs, n => by simp only [Shape.make, Fut.addrs, shapeAddrs, makes_addrs subs]
theorem makes_addrs : ∀ (s : Shapes) (i n : Nat), (s.make i n).1.addrs = shapesAddrs s
  | .nil, i, n => rfl
  | .cons first rest, i, n => by
    simp only [Shapes.make, Fut.addrs, shapesAddrs, make_addrs first, makes_addrs rest]
end

theorem setSub_addrs (i : Nat) (f' subs : Fut) : ∀ a ∈ (setSub i f' subs).addrs, a ∈ subs.addrs ∨ a ∈ f'.addrs := by
  fun_induction setSub i f' subs with
  | case1 rest f =>
    intro a ha
    simp only [Fut.addrs, List.mem_append] at ha ⊢
    rcases ha with ha | ha
    · exact .inr ha
    · exact .inl (.inr ha)
  | case2 rest j f e ih =>
    intro a ha
    simp only [Fut.addrs, List.mem_append] at ha ⊢
    rcases ha with ha | ha
    · exact .inl (.inl ha)
    · rcases ih a ha with h | h
      · exact .inl (.inr h)
      · exact .inr h
  | case3 f h => intro a ha; exact .inl ha

theorem subAt_addrs (i : Nat) (f subs : Fut) (h : subAt i subs = some f) : ∀ a ∈ f.addrs, a ∈ subs.addrs := by
  fun_induction subAt i subs with
  | case1 rest g =>
    intro a ha
    cases h
    simp [Fut.addrs, ha]
  | case2 rest j f e ih =>
    intro a ha
    simp [Fut.addrs, ih h a ha]
  | case3 f h => cases h

theorem poll_addrs (b : Build) (s : Script) (ctx : Ctx) (f : Fut) (t : TState) : ∀ (f' : Fut) (t' : TState) (r : Bool),
    poll b s ctx f t = some (f', t', r) → ∀ a ∈ f'.addrs, a ∈ f.addrs ∨ a ∈ scriptAddrs s := by
  fun_induction poll b s ctx f t with
  | case1 => intro f' t' r h a ha; cases h; exact .inl ha
  | case2 ctx t inner next f ih2 ih1 =>
    intro f' t' r h a ha
    simp only [Option.bind_eq_bind, Option.bind_eq_some_iff] at h
    obtain ⟨⟨f1, t1, r1⟩, h1, h⟩ := h
    simp only [scriptAddrs, List.mem_append]
    cases r1 with
    | false =>
      simp only [Bool.false_eq_true, if_false, Option.pure_def, Option.some.injEq, Prod.mk.injEq] at h
      obtain ⟨rfl, rfl, rfl⟩ := h
      rcases ih2 f1 t1 false h1 a ha with h2 | h2
      · exact .inl h2
      · exact .inr (.inl h2)
    | true =>
      simp only [if_true, Option.bind_eq_some_iff] at h
      obtain ⟨d, -, h⟩ := h
      rcases ih1 _ _ _ _ _ h a ha with h2 | h2
      · cases h2
      · exact .inr (.inr h2)
  | case3 ctx t next f ih1 =>
    intro f' t' r h a ha
    simp only [Option.bind_eq_bind, Option.bind_eq_some_iff] at h
    obtain ⟨d, -, h⟩ := h
    rcases ih1 _ _ _ _ h a ha with h2 | h2
    · cases h2
    · exact .inr h2
  | case4 =>
    rename_i component next ctx t f m hm ih1
    intro f' t' r h a ha
    simp only [scriptAddrs, List.mem_append]
    rcases ih1 _ _ _ h a ha with h2 | h2
    · right; left
      rw [← make_addrs component t.next, hm]
      exact h2
    · exact .inr (.inr h2)
  | case5 =>
    rename_i jp ih1
    intro f' t' r h a ha
    simp only [Option.bind_eq_bind, Option.bind_eq_some_iff] at h
    obtain ⟨st, -, y, hy, h⟩ := h
    cases hy
    simp only [jp] at h
    simp only [Option.bind_eq_bind, Option.bind_eq_some_iff, Option.pure_def, Option.some.injEq, Prod.mk.injEq] at h
    obtain ⟨⟨f1, t1, r1⟩, h1, rfl, rfl, rfl⟩ := h
    simp only [Fut.addrs, List.mem_cons] at ha ⊢
    rcases ha with ha | ha
    · exact .inl (.inl ha)
    · rcases ih1 _ _ _ _ h1 a ha with h2 | h2
      · exact .inl (.inr h2)
      · exact .inr h2
  | case6 =>
    rename_i jp mode _ ih1
    intro f' t' r h a ha
    simp only [Option.bind_eq_bind, Option.bind_eq_some_iff] at h
    obtain ⟨y, hy, h⟩ := h
    cases hy
    simp only [jp] at h
    simp only [Option.bind_eq_bind, Option.bind_eq_some_iff, Option.pure_def, Option.some.injEq, Prod.mk.injEq] at h
    obtain ⟨⟨f1, t1, r1⟩, h1, rfl, rfl, rfl⟩ := h
    simp only [Fut.addrs, List.mem_cons] at ha ⊢
    rcases ha with ha | ha
    · exact .inl (.inl ha)
    · rcases ih1 _ _ _ _ h1 a ha with h2 | h2
      · exact .inl (.inr h2)
      · exact .inr h2
  | case7 ctx t i inner next a0 subs f hs ih2 ih1 =>
    intro f' t' r h a ha
    simp only [Option.bind_eq_bind, Option.bind_eq_some_iff] at h
    obtain ⟨⟨f1, t1, r1⟩, h1, h⟩ := h
    simp only [scriptAddrs, List.mem_append, Fut.addrs, List.mem_cons]
    rcases ih1 _ _ _ _ _ h a ha with h2 | h2
    · rcases List.mem_cons.1 h2 with h2 | h2
      · exact .inl (.inl h2)
      · rcases setSub_addrs _ _ _ a h2 with h2 | h2
        · exact .inl (.inr h2)
        · rcases ih2 _ _ _ h1 a h2 with h2 | h2
          · exact .inl (.inr (subAt_addrs _ _ _ hs a h2))
          · exact .inr (.inl h2)
    · exact .inr (.inr h2)
  | case8 => intro f' t' r h a ha; cases h; exact .inl ha
  | case9 => intro f' t' r h a ha; cases h; exact .inl ha
  | case10 => intro f' t' r h a ha; cases h; exact .inl ha

/-! ## dropping an item -/

theorem item_drop (b : Build) {P : Places} {G : GroupId → Prop} {E : Display → State → Prop}
    (hK : Keeps b P G E) {r n : Nat} {D : Display} {st : State} {ctx ctx0 : Ctx} {f : Fut} {y : NodeId} {a : Addr}
    (hi : Inv P D st) (hE : E D st) (hf : Good none f) (hg : Global P r n D) (hl : Local P r n D ctx0 f)
    (hgr : ctx0.group = y) (hp : ctx0.path = []) (hh : ctx0.home = ctx.home) (ha : a ∉ f.addrs) :
    ∃ st' D', (Fut.item y y a f).drop b (some ctx) ⟨st, none⟩ = some ⟨st', none⟩ ∧ (Inv P D' st' ∧ E D' st') ∧
      Change P r n D ctx0 f n D' (.block .done) := by
  have hok : (Op.unrender ctx0).Ok P D := ⟨hl.place.symm, hl.index⟩
  obtain ⟨s', hs, hi'⟩ := stable_of_inv hi b ctx0 hok
  have hr : (Ctx.sibling ctx y y).removeChild b st [] = some s' := by
    have := hs.first
    rw [Ctx.removeChild_eq] at this ⊢
    simpa [Ctx.group, Ctx.home, Ctx.path, hgr, hp, hh] using this
  have hu : ∀ g ∈ f.unpolledGroups, s'.groups g = [] := by
    intro g hg'
    apply hs.groups
    rw [List.eq_nil_iff_forall_not_mem]
    intro e he
    exact Inner.unpolled hf hl.inner g hg' _ ((hi.agree g e.1 e.2).1 he) rfl
  refine ⟨s', _, ?_, ⟨hi', hK.unrender D st ctx0 s' hi hE hok hs.first⟩, unrender_change hg hl⟩
  simp [Fut.drop, blockOr, blockUntilDrop, hr, drop_blocked b (some ctx) f s' a ha hu, endBlock, release]

end Verif.Whole
