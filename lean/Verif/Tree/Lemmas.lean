import Verif.Tree.Spec
import Verif.Drop.Lemmas
/-! The invariant behind C46: what is on display belongs to the component tree. -/
namespace Verif.Tree
open Verif.Dom Verif.Drop

/-- The elements of a component, on display or not. -/
def ids : Fut → List Nat
  | .done => []
  | .both x y => ids x ++ ids y
  | .block f => ids f
  | .slot _ f => ids f
  | .node id _ _ _ child => id :: ids child
  | .item _ _ _ child => ids child
  | .comb _ f => ids f
  | .list _ f => ids f

def Below (ctx : Ctx) (x : Shown) : Prop := x.group = ctx.group ∧ ctx.path <+: x.path

/-- Inside the elements everything is where it belongs. -/
def Inner (D : Display) : Fut → Prop
  | .done => True
  | .both x y => Inner D x ∧ Inner D y
  | .block f => Inner D f
  | .slot _ f => Inner D f
  | .node id g mode _ child =>
    (mode = .shouldAdd → ∀ x ∈ D.shown, x.node ≠ id ∧ x.group ≠ g) ∧
    child.RunsAt (.container g id) D ∧ Inner D child
  | .item _ _ _ _ => True
  | .comb _ f => Inner D f
  | .list _ _ => True

/-- The futures that occur: components (`none`), or the subfutures of a combinator from number `i`
on (`some i`). -/
inductive Good : Option Nat → Fut → Prop
  | idle : Good none (.block .done)
  | block {f} : Good none f → Good none (.block f)
  | node {id mode a child} : mode ≠ .shouldNotAdd → Good none child →
      Good none (.node id id mode a child)
  | comb {a subs} : Good (some 0) subs → Good none (.comb a subs)
  | nil {i} : Good (some i) .done
  | cons {i f rest} : i + 1 < 2 ^ 32 → Good none f → Good (some (i + 1)) rest →
      Good (some i) (.both (.slot i f) rest)

theorem Good.noItems {k : Option Nat} {f : Fut} (h : Good k f) : f.NoItems := by
  induction h <;> simp_all [Fut.NoItems]

theorem shownHere_below (f : Fut) (ctx : Ctx) (x : Shown) (h : x ∈ f.shownHere ctx) :
    Below ctx x := by
  induction f generalizing ctx with
  | done => simp [Fut.shownHere] at h
  | both a b iha ihb =>
    simp only [Fut.shownHere, List.mem_append] at h
    exact h.elim (iha ctx) (ihb ctx)
  | block f ih => exact ih ctx h
  | slot i f ih =>
    obtain ⟨h1, h2⟩ := ih (.child ctx i) h
    exact ⟨h1, (List.prefix_append _ _).trans h2⟩
  | node id g mode a child ih =>
    cases mode <;> simp only [Fut.shownHere, List.not_mem_nil, List.mem_singleton] at h
    subst h; exact ⟨rfl, List.prefix_refl _⟩
  | item g r a child ih => simp [Fut.shownHere] at h
  | comb a f ih => exact ih ctx h
  | list a f ih => simp [Fut.shownHere] at h

theorem below_child_unique {ctx : Ctx} {i j : Nat} {x : Shown} (hi : Below (.child ctx i) x)
    (hj : Below (.child ctx j) x) : i = j := by
  obtain ⟨-, s, hs⟩ := hi
  obtain ⟨-, t, ht⟩ := hj
  simp only [Ctx.path] at hs ht
  rw [← hs] at ht
  simp only [List.append_assoc, List.append_cancel_left_eq, List.cons_append, List.nil_append,
    List.cons.injEq] at ht
  exact ht.1.symm

theorem Good.shown_sub {k : Option Nat} {f : Fut} (h : Good k f) :
    ∀ i, k = some i → ∀ ctx x, x ∈ f.shownHere ctx → ∃ j, i ≤ j ∧ Below (.child ctx j) x := by
  induction h with
  | idle => intro i h; cases h
  | block _ _ => intro i h; cases h
  | node _ _ _ => intro i h; cases h
  | comb _ _ => intro i h; cases h
  | nil => intro i _ ctx x hx; simp [Fut.shownHere] at hx
  | cons hlt hf hr ihf ihr =>
    intro i h ctx x hx
    cases h
    simp only [Fut.shownHere, List.mem_append] at hx
    cases hx with
    | inl hx => exact ⟨_, Nat.le_refl _, shownHere_below _ _ _ hx⟩
    | inr hx =>
      obtain ⟨j, h1, h2⟩ := ihr _ rfl ctx x hx
      exact ⟨j, by omega, h2⟩

/-- Taking one subfuture out of a combinator, and putting another one in its place. -/
structure Split (k i : Nat) (subs f pre post : Fut) : Prop where
  le : k ≤ i
  lt : i + 1 < 2 ^ 32
  good : Good none f
  self : setSub i f subs = subs
  ids : ∀ f', ids (setSub i f' subs) = ids pre ++ ids f' ++ ids post
  shown : ∀ f' ctx, (setSub i f' subs).shownHere ctx =
    pre.shownHere ctx ++ f'.shownHere (.child ctx i) ++ post.shownHere ctx
  inner : ∀ f' D, Inner D (setSub i f' subs) ↔ Inner D pre ∧ Inner D f' ∧ Inner D post
  preGood : Good (some k) pre
  postGood : Good (some (i + 1)) post
  goods : ∀ f', Good none f' → Good (some k) (setSub i f' subs)
  preNot : ∀ ctx x, x ∈ pre.shownHere ctx → ∃ j, j < i ∧ Below (.child ctx j) x
  postNot : ∀ ctx x, x ∈ post.shownHere ctx → ∃ j, i < j ∧ Below (.child ctx j) x

theorem Good.split {k : Option Nat} {subs : Fut} (h : Good k subs) :
    ∀ c i f, k = some c → subAt i subs = some f → ∃ pre post, Split c i subs f pre post := by
  induction h with
  | idle => intro c i f h; cases h
  | block _ _ => intro c i f h; cases h
  | node _ _ _ => intro c i f h; cases h
  | comb _ _ => intro c i f h; cases h
  | nil => intro c i f _ h; cases h
  | @cons j g rest hlt hg hr _ ihr =>
    intro c i f hc hs
    cases hc
    simp only [subAt] at hs
    split at hs
    · next hj =>
      cases hs; subst hj
      refine ⟨.done, rest, ⟨Nat.le_refl _, hlt, hg, ?_, ?_, ?_, ?_, ?_, ?_, ?_, ?_, ?_⟩⟩
      · simp [setSub]
      · intro f'; simp [setSub, Tree.ids]
      · intro f' ctx; simp [setSub, Fut.shownHere]
      · intro f' D; simp [setSub, Inner]
      · exact .nil
      · exact hr
      · intro f' hf'; simp only [setSub, if_true]; exact .cons hlt hf' hr
      · intro ctx x hx; simp [Fut.shownHere] at hx
      · intro ctx x hx
        obtain ⟨j', h1, h2⟩ := hr.shown_sub _ rfl ctx x hx
        exact ⟨j', by omega, h2⟩
    · next hj =>
      obtain ⟨pre, post, H⟩ := ihr _ i f rfl hs
      refine ⟨.both (.slot j g) pre, post, ⟨by have := H.le; omega, H.lt, H.good, ?_, ?_, ?_, ?_, ?_,
        ?_, ?_, ?_, H.postNot⟩⟩
      · simp [setSub, hj, H.self]
      · intro f'; simp [setSub, hj, Tree.ids, H.ids]
      · intro f' ctx; simp [setSub, hj, Fut.shownHere, H.shown]
      · intro f' D; simp [setSub, hj, Inner, H.inner, and_assoc]
      · exact .cons hlt hg H.preGood
      · exact H.postGood
      · intro f' hf'; simp only [setSub, hj, if_false]; exact .cons hlt hg (H.goods f' hf')
      · intro ctx x hx
        simp only [Fut.shownHere, List.mem_append] at hx
        cases hx with
        | inl hx => exact ⟨j, by have := H.le; omega, shownHere_below _ _ _ hx⟩
        | inr hx => exact H.preNot ctx x hx

/-- Identifiers from `n` on are unused; groups in use are from `r` on. -/
structure Global (P : Places) (r n : Nat) (D : Display) : Prop where
  node : ∀ x ∈ D.shown, x.node < n
  group : ∀ x ∈ D.shown, r ≤ x.group ∧ x.group < n
  foreign : ∀ c x, (c, x) ∈ D.foreign → x < n
  place : ∀ g, n ≤ g → P g = (g, none)
  low : r ≤ n

/-- The component `f` is what runs in the context `ctx`. -/
structure Local (P : Places) (r n : Nat) (D : Display) (ctx : Ctx) (f : Fut) : Prop where
  nodup : (ids f).Nodup
  lt : ∀ i ∈ ids f, r ≤ i ∧ i < n
  ctxLt : r ≤ ctx.group ∧ ctx.group < n
  ctxNot : ctx.group ∉ ids f
  place : P ctx.group = (ctx.home, ctx.marker)
  placeIds : ∀ g ∈ ids f, P g = (g, none)
  index : ∀ i ∈ ctx.path, i + 1 < 2 ^ 32
  marker : ∀ r, ctx.marker = some r → (ctx.home, r) ∈ D.foreign
  runs : ∀ x, x ∈ f.shownHere ctx ↔ x ∈ D.shown ∧ Below ctx x
  inner : Inner D f
  foreign : ∀ c x, (c, x) ∈ D.foreign → x ∉ ids f

structure Change (P : Places) (r n : Nat) (D : Display) (ctx : Ctx) (f : Fut)
    (n' : Nat) (D' : Display) (f' : Fut) : Prop where
  le : n ≤ n'
  glob : Global P r n' D'
  loc : Local P r n' D' ctx f'
  ids : ∀ i ∈ ids f', i ∈ ids f ∨ n ≤ i ∧ i < n'
  same : ∀ x, ¬ Below ctx x → x.group ∉ Tree.ids f → x.group < n → (x ∈ D'.shown ↔ x ∈ D.shown)
  nodes : ∀ x ∈ D'.shown, x ∈ D.shown ∨ x.node ∈ Tree.ids f ∨ n ≤ x.node
  foreign : D'.foreign = D.foreign

theorem Change.refl {P : Places} {r n : Nat} {D : Display} {ctx : Ctx} {f : Fut}
    (hg : Global P r n D) (hl : Local P r n D ctx f) : Change P r n D ctx f n D f :=
  ⟨Nat.le_refl _, hg, hl, fun _ h => .inl h, fun _ _ _ _ => Iff.rfl, fun _ h => .inl h, rfl⟩

theorem Change.trans {P : Places} {r n n' n'' : Nat} {D D' D'' : Display} {ctx : Ctx}
    {f f' f'' : Fut} (h : Change P r n D ctx f n' D' f') (h' : Change P r n' D' ctx f' n'' D'' f'') :
    Change P r n D ctx f n'' D'' f'' := by
  refine ⟨Nat.le_trans h.le h'.le, h'.glob, h'.loc, ?_, ?_, ?_, h'.foreign.trans h.foreign⟩
  · intro i hi
    rcases h'.ids i hi with hi | hi
    · rcases h.ids i hi with hi | hi
      · exact .inl hi
      · exact .inr ⟨hi.1, Nat.lt_of_lt_of_le hi.2 h'.le⟩
    · exact .inr ⟨Nat.le_trans h.le hi.1, hi.2⟩
  · intro x hx hf hn
    rw [h'.same x hx _ (Nat.lt_of_lt_of_le hn h.le), h.same x hx hf hn]
    intro hi
    rcases h.ids _ hi with hi | hi
    · exact hf hi
    · exact Nat.not_le_of_lt hn hi.1
  · intro x hx
    rcases h'.nodes x hx with hx | hx | hx
    · exact h.nodes x hx
    · rcases h.ids _ hx with hi | hi
      · exact .inr (.inl hi)
      · exact .inr (.inr hi.1)
    · exact .inr (.inr (Nat.le_trans h.le hx))

theorem Inner.mono {D D' : Display} {k : Option Nat} {f : Fut} (hg : Good k f) (h : Inner D f)
    (hs : ∀ x, x.group ∈ ids f → (x ∈ D'.shown ↔ x ∈ D.shown))
    (hn : ∀ x ∈ D'.shown, x ∈ D.shown ∨ x.node ∉ ids f) : Inner D' f := by
  induction hg with
  | idle => trivial
  | block _ ih => exact ih h hs hn
  | @node id mode a child hm _ ih =>
    simp only [ids, List.mem_cons, not_or] at hs hn
    obtain ⟨h1, h2, h3⟩ := h
    refine ⟨?_, ?_, ih h3 (fun x hx => hs x (.inr hx)) fun x hx => (hn x hx).imp_right (·.2)⟩
    · intro hmode x hx
      constructor
      · rcases hn x hx with hx' | hx'
        · exact (h1 hmode x hx').1
        · exact hx'.1
      · intro hxg
        exact (h1 hmode x ((hs x (.inl hxg)).1 hx)).2 hxg
    · intro x
      rw [h2 x]
      constructor
      · rintro ⟨ha, hb, hc⟩; exact ⟨(hs x (.inl hb)).2 ha, hb, hc⟩
      · rintro ⟨ha, hb, hc⟩; exact ⟨(hs x (.inl hb)).1 ha, hb, hc⟩
  | comb _ ih => exact ih h hs hn
  | nil => trivial
  | @cons i f rest _ _ _ ihf ihr =>
    simp only [ids, List.mem_append, not_or] at hs hn
    exact ⟨ihf h.1 (fun x hx => hs x (.inl hx)) fun x hx => (hn x hx).imp id (·.1),
      ihr h.2 (fun x hx => hs x (.inr hx)) fun x hx => (hn x hx).imp id (·.2)⟩


theorem Inner.unpolled {D : Display} {k : Option Nat} {f : Fut} (hf : Good k f) (h : Inner D f) :
    ∀ g ∈ f.unpolledGroups, ∀ x ∈ D.shown, x.group ≠ g := by
  intro g hg x hx
  induction hf with
  | idle => simp [Fut.unpolledGroups] at hg
  | block _ ih => exact ih h hg
  | @node id mode a child hm _ ih =>
    cases mode with
    | shouldAdd =>
      simp only [Fut.unpolledGroups, List.mem_cons] at hg
      rcases hg with rfl | hg
      · exact (h.1 rfl _ hx).2
      · exact ih h.2.2 hg
    | shouldNotAdd => exact absurd rfl hm
    | added => exact ih h.2.2 hg
  | comb _ ih => exact ih h hg
  | nil => simp [Fut.unpolledGroups] at hg
  | cons _ _ _ ihf ihr =>
    simp only [Fut.unpolledGroups, List.mem_append] at hg
    rcases hg with hg | hg
    · exact ihf h.1 hg
    · exact ihr h.2 hg

/-- What displaying an element in one of the groups `G` and taking away elements do not destroy. -/
structure Keeps (b : Build) (P : Places) (G : GroupId → Prop) (E : Display → State → Prop) : Prop where
  render : ∀ D st ctx id st', Inv P D st → E D st → G ctx.group → (Op.render ctx id).Ok P D →
    ctx.addChild b st [] id = some st' → E (D.step (.render ctx id)) st'
  unrender : ∀ D st ctx st', Inv P D st → E D st → (Op.unrender ctx).Ok P D →
    ctx.removeChild b st [] = some st' → E (D.step (.unrender ctx)) st'

/-- What ran in `ctx` is not displayed any more. -/
theorem unrender_change {P : Places} {r n : Nat} {D : Display} {ctx : Ctx} {f : Fut}
    (hg : Global P r n D) (hl : Local P r n D ctx f) :
    Change P r n D ctx f n (D.step (.unrender ctx)) (.block .done) := by
  have hmem : ∀ x, x ∈ (D.step (.unrender ctx)).shown ↔ x ∈ D.shown ∧ ¬ Below ctx x := by
    intro x
    simp only [Display.step, List.mem_filter, Below, ← List.isPrefixOf_iff_prefix]
    cases ctx.path.isPrefixOf x.path <;> simp
  refine ⟨Nat.le_refl _, ⟨?_, ?_, hg.foreign, hg.place, hg.low⟩, ⟨List.nodup_nil, ?_, hl.ctxLt, ?_,
    hl.place, ?_, hl.index, hl.marker, ?_, trivial, ?_⟩, ?_, ?_, ?_, rfl⟩
  · intro x hx; exact hg.node x ((hmem x).1 hx).1
  · intro x hx; exact hg.group x ((hmem x).1 hx).1
  · intro i hi; cases hi
  · intro hi; cases hi
  · intro i hi; cases hi
  · intro x
    rw [hmem]
    simp only [Fut.shownHere, List.not_mem_nil, false_iff]
    rintro ⟨⟨-, h1⟩, h2⟩
    exact h1 h2
  · intro c x _ hi; cases hi
  · intro i hi; cases hi
  · intro x hx _ _; rw [hmem]; simp [hx]
  · intro x hx; exact .inl ((hmem x).1 hx).1

/-- Dropping the component that runs in `ctx`. -/
theorem drop_keeps (b : Build) {P : Places} {G : GroupId → Prop} {E : Display → State → Prop}
    (hK : Keeps b P G E) {r n : Nat} {D : Display} {st : State} {ctx : Ctx} {f : Fut}
    (hi : Inv P D st) (hE : E D st) (hf : f = .done ∨ Good none f) (hg : Global P r n D)
    (hl : Local P r n D ctx f) :
    ∃ st' D', f.drop b (some ctx) ⟨st, none⟩ = some ⟨st', none⟩ ∧ (Inv P D' st' ∧ E D' st') ∧
      Change P r n D ctx f n D' (.block .done) := by
  have hok : (Op.unrender ctx).Ok P D := ⟨hl.place.symm, hl.index⟩
  obtain ⟨s', hs, hi'⟩ := stable_of_inv hi b ctx hok
  have hni : f.NoItems := by
    rcases hf with rfl | hf
    · trivial
    · exact hf.noItems
  have hu : ∀ g ∈ f.unpolledGroups, st.groups g = [] := by
    intro g hg'
    rw [List.eq_nil_iff_forall_not_mem]
    intro e he
    have he' := (hi.agree g e.1 e.2).1 he
    rcases hf with rfl | hf
    · simp [Fut.unpolledGroups] at hg'
    · exact Inner.unpolled hf hl.inner g hg' _ he' rfl
  have hd := drop_any_free b ctx f st s' st hs (.inl rfl) hni hu
  have hch := unrender_change hg hl
  refine ⟨_, _, hd, ?_, hch⟩
  cases ha : f.active with
  | true => exact ⟨hi', hK.unrender D st ctx s' hi hE hok hs.first⟩
  | false =>
    have hno : f.shownHere ctx = [] := by
      apply Classical.byContradiction
      intro h
      rw [active_of_shown f ctx h] at ha
      cases ha
    have hD : D.step (.unrender ctx) = D := by
      have : D.shown.filter (fun x => !(x.group == ctx.group && ctx.path.isPrefixOf x.path)) =
          D.shown := by
        rw [List.filter_eq_self]
        intro x hx
        have hx' : ¬ Below ctx x := by
          intro h
          have := (hl.runs x).2 ⟨hx, h⟩
          rw [hno] at this; cases this
        simp only [Below, not_and] at hx'
        simp only [Bool.not_eq_true', Bool.and_eq_false_imp, beq_iff_eq]
        intro h1
        rw [Bool.eq_false_iff, Ne, List.isPrefixOf_iff_prefix]
        exact hx' h1
      show { D with shown := _ } = D
      rw [this]
    rw [hD]
    exact ⟨hi, hE⟩

/-- A component that was just created. -/
structure Fresh (k : Option Nat) (f : Fut) (n m : Nat) : Prop where
  le : n ≤ m
  good : Good k f
  nodup : (ids f).Nodup
  range : ∀ i ∈ ids f, n ≤ i ∧ i < m
  hidden : ∀ ctx, f.shownHere ctx = []
  inner : ∀ D : Display, (∀ x ∈ D.shown, x.node < n ∧ x.group < n) → Inner D f

mutual
theorem Shape.make_fresh : ∀ (s : Shape) (n : Nat), s.Narrow →
    Fresh none (s.make n).1 n (s.make n).2
  | .block, n, _ => by
    refine ⟨Nat.le_refl _, .idle, List.nodup_nil, ?_, fun _ => rfl, fun _ _ => trivial⟩
    intro i hi; cases hi
  | .element a child, n, h => by
    have H := Shape.make_fresh child (n + 1) h
    simp only [Shape.make]
    refine ⟨Nat.le_of_succ_le H.le, .node (by simp) H.good, ?_, ?_, fun _ => rfl, ?_⟩
    · refine List.nodup_cons.2 ⟨?_, H.nodup⟩
      intro hi; have := H.range _ hi; omega
    · intro i hi
      rcases List.mem_cons.1 hi with rfl | hi
      · exact ⟨Nat.le_refl _, H.le⟩
      · have := H.range _ hi; omega
    · intro D hD
      refine ⟨?_, ?_, H.inner D fun x hx => ⟨Nat.lt_succ_of_lt (hD x hx).1, Nat.lt_succ_of_lt (hD x hx).2⟩⟩
      · intro _ x hx
        exact ⟨Nat.ne_of_lt (hD x hx).1, Nat.ne_of_lt (hD x hx).2⟩
      · intro x
        rw [H.hidden]
        simp only [List.not_mem_nil, false_iff]
        rintro ⟨hx, hg, -⟩
        exact Nat.ne_of_lt (hD x hx).2 hg
  | .comb a subs, n, h => by
    have H := Shapes.make_fresh subs 0 n h
    exact ⟨H.le, .comb H.good, H.nodup, H.range, H.hidden, H.inner⟩
theorem Shapes.make_fresh : ∀ (s : Shapes) (i n : Nat), s.NarrowFrom i →
    Fresh (some i) (s.make i n).1 n (s.make i n).2
  | .nil, i, n, _ => by
    refine ⟨Nat.le_refl _, .nil, List.nodup_nil, ?_, fun _ => rfl, fun _ _ => trivial⟩
    intro i hi; cases hi
  | .cons first rest, i, n, h => by
    have H := Shape.make_fresh first n h.2.1
    have H' := Shapes.make_fresh rest (i + 1) (first.make n).2 h.2.2
    simp only [Shapes.make]
    have h1 := H.le
    have h2 := H'.le
    refine ⟨Nat.le_trans H.le H'.le, .cons h.1 H.good H'.good, ?_, ?_, ?_, ?_⟩
    · refine List.nodup_append.2 ⟨H.nodup, H'.nodup, ?_⟩
      intro x hx y hy hxy
      subst hxy
      have := H.range x hx
      have := H'.range x hy
      omega
    · intro x hx
      rcases List.mem_append.1 hx with hx | hx
      · have := H.range x hx; omega
      · have := H'.range x hx; omega
    · intro ctx
      simp [Fut.shownHere, H.hidden, H'.hidden]
    · intro D hD
      exact ⟨H.inner D hD, H'.inner D fun x hx =>
        ⟨Nat.lt_of_lt_of_le (hD x hx).1 h1, Nat.lt_of_lt_of_le (hD x hx).2 h1⟩⟩
end

/-- Creating a component where none is running. -/
theorem create_change {P : Places} {r n m : Nat} {D : Display} {ctx : Ctx} {f : Fut}
    (hg : Global P r n D) (hl : Local P r n D ctx (.block .done)) (hf : Fresh none f n m) :
    Change P r n D ctx (.block .done) m D (.block f) := by
  have hle := hf.le
  refine ⟨hf.le, ⟨?_, ?_, ?_, ?_, ?_⟩, ⟨hf.nodup, ?_, ?_, ?_, hl.place, ?_, hl.index, hl.marker, ?_,
    ?_, ?_⟩, ?_, fun _ _ _ _ => Iff.rfl, fun _ h => .inl h, rfl⟩
  · intro x hx; exact Nat.lt_of_lt_of_le (hg.node x hx) hle
  · intro x hx; exact ⟨(hg.group x hx).1, Nat.lt_of_lt_of_le (hg.group x hx).2 hle⟩
  · intro c x hx; exact Nat.lt_of_lt_of_le (hg.foreign c x hx) hle
  · intro g h; exact hg.place g (Nat.le_trans hle h)
  · exact Nat.le_trans hg.low hle
  · intro i hi; exact ⟨Nat.le_trans hg.low (hf.range i hi).1, (hf.range i hi).2⟩
  · exact ⟨hl.ctxLt.1, Nat.lt_of_lt_of_le hl.ctxLt.2 hle⟩
  · intro hi; exact Nat.not_le_of_lt hl.ctxLt.2 (hf.range _ hi).1
  · intro g hi; exact hg.place g (hf.range g hi).1
  · intro x
    have := hl.runs x
    simp only [Fut.shownHere] at this
    simp only [Fut.shownHere, hf.hidden]
    exact this
  · exact hf.inner D fun x hx => ⟨hg.node x hx, (hg.group x hx).2⟩
  · intro c x hx hi; exact Nat.not_le_of_lt (hg.foreign c x hx) (hf.range x hi).1
  · intro i hi; exact .inr (hf.range i hi)

/-- The first poll of an element. -/
theorem render_change (b : Build) {P : Places} {G : GroupId → Prop} {E : Display → State → Prop}
    (hK : Keeps b P G E) {r n : Nat} {D : Display} {st : State} {ctx : Ctx}
    {id : Nat} {a : Addr} {child : Fut} (hc : Good none child) (hi : Inv P D st) (hE : E D st)
    (hG : G ctx.group) (hg : Global P r n D)
    (hl : Local P r n D ctx (.node id id .shouldAdd a child)) :
    ∃ st' D', ctx.addChild b st [] id = some st' ∧ (Inv P D' st' ∧ E D' st') ∧
      Change P r n D ctx (.node id id .shouldAdd a child) n D' (.node id id .added a child) := by
  have hno : ∀ x ∈ D.shown, ¬ Below ctx x := by
    intro x hx hb
    have := (hl.runs x).2 ⟨hx, hb⟩
    simp [Fut.shownHere] at this
  have hnode := hl.inner.1 rfl
  have hnd := hl.nodup
  have hcn := hl.ctxNot
  simp only [ids, List.nodup_cons, List.mem_cons, not_or] at hnd hcn
  have hok : (Op.render ctx id).Ok P D := by
    refine ⟨hl.place.symm, ?_, ?_, hl.marker⟩
    · rintro c (⟨x, hx, h1, -⟩ | h)
      · exact (hnode x hx).1 h1
      · exact hl.foreign c id h (by simp [ids])
    · rintro x hx ⟨h1, h2⟩
      exact hno x hx ⟨h1, by rw [h2]; exact List.prefix_refl _⟩
  obtain ⟨st', hex, hi'⟩ := hi.render b ctx id hok
  have hmem : ∀ x, x ∈ (D.step (.render ctx id)).shown ↔ x = ⟨ctx.group, ctx.path, id⟩ ∨ x ∈ D.shown := by
    intro x; simp [Display.step]
  have hidlt := hl.lt id (by simp [ids])
  refine ⟨st', _, hex, ⟨hi', hK.render D st ctx id st' hi hE hG hok hex⟩, Nat.le_refl _,
    ⟨?_, ?_, hg.foreign, hg.place, hg.low⟩,
    ⟨hl.nodup, hl.lt, hl.ctxLt, hl.ctxNot, hl.place, hl.placeIds, hl.index, hl.marker, ?_, ⟨?_, ?_, ?_⟩,
    hl.foreign⟩, fun i hi => .inl hi, ?_, ?_, rfl⟩
  · intro x hx
    rcases (hmem x).1 hx with rfl | hx
    · exact hidlt.2
    · exact hg.node x hx
  · intro x hx
    rcases (hmem x).1 hx with rfl | hx
    · exact hl.ctxLt
    · exact hg.group x hx
  · intro x
    rw [hmem]
    simp only [Fut.shownHere, List.mem_singleton]
    constructor
    · rintro rfl; exact ⟨.inl rfl, rfl, List.prefix_refl _⟩
    · rintro ⟨h | h, hb⟩
      · exact h
      · exact absurd hb (hno x h)
  · intro h; cases h
  · intro x
    rw [hl.inner.2.1 x, hmem]
    constructor
    · rintro ⟨h1, h2⟩; exact ⟨.inr h1, h2⟩
    · rintro ⟨rfl | h1, h2, h3⟩
      · exact absurd h2 hcn.1
      · exact ⟨h1, h2, h3⟩
  · apply Inner.mono hc hl.inner.2.2
    · intro x hx
      rw [hmem]
      constructor
      · rintro (rfl | h)
        · exact absurd hx hcn.2
        · exact h
      · exact .inr
    · intro x hx
      rcases (hmem x).1 hx with rfl | hx
      · exact .inr hnd.1
      · exact .inl hx
  · intro x hx _ _
    rw [hmem]
    constructor
    · rintro (rfl | h)
      · exact absurd ⟨rfl, List.prefix_refl _⟩ hx
      · exact h
    · exact .inr
  · intro x hx
    rcases (hmem x).1 hx with rfl | hx
    · exact .inr (.inl (by simp [ids]))
    · exact .inl hx

theorem content_local {P : Places} {r n : Nat} {D : Display} {ctx : Ctx} {id : Nat} {a : Addr}
    {mode : AddSelf} {child : Fut} (hl : Local P r n D ctx (.node id id mode a child)) :
    Local P r n D (.container id id) child := by
  have hnd := hl.nodup
  simp only [ids, List.nodup_cons] at hnd
  refine ⟨hnd.2, fun i hi => hl.lt i (List.mem_cons_of_mem _ hi), hl.lt id (by simp [ids]), hnd.1,
    hl.placeIds id (by simp [ids]), fun g hg => hl.placeIds g (List.mem_cons_of_mem _ hg), ?_, ?_,
    hl.inner.2.1, hl.inner.2.2, fun c x hx hi => hl.foreign c x hx (List.mem_cons_of_mem _ hi)⟩
  · intro i hi; cases hi
  · intro r hr; cases hr

theorem content_change {P : Places} {r n n' : Nat} {D D' : Display} {ctx : Ctx} {id : Nat} {a : Addr}
    {child child' : Fut} (hl : Local P r n D ctx (.node id id .added a child))
    (h : Change P r n D (.container id id) child n' D' child') :
    Change P r n D ctx (.node id id .added a child) n' D' (.node id id .added a child') := by
  have hnd := hl.nodup
  have hcn := hl.ctxNot
  simp only [ids, List.nodup_cons, List.mem_cons, not_or] at hnd hcn
  have hidlt := hl.lt id (by simp [ids])
  have hle := h.le
  refine ⟨h.le, h.glob, ⟨?_, ?_, ?_, ?_, hl.place, ?_, hl.index, ?_, ?_, ⟨?_, h.loc.runs, h.loc.inner⟩,
    ?_⟩, ?_, ?_, ?_, h.foreign⟩
  · refine List.nodup_cons.2 ⟨?_, h.loc.nodup⟩
    intro hi
    rcases h.ids _ hi with hi | hi
    · exact hnd.1 hi
    · omega
  · intro i hi
    rcases List.mem_cons.1 hi with rfl | hi
    · omega
    · exact h.loc.lt i hi
  · exact ⟨hl.ctxLt.1, Nat.lt_of_lt_of_le hl.ctxLt.2 hle⟩
  · intro hi
    rcases List.mem_cons.1 hi with hi | hi
    · exact hcn.1 hi
    · rcases h.ids _ hi with hi | hi
      · exact hcn.2 hi
      · exact Nat.not_le_of_lt hl.ctxLt.2 hi.1
  · intro g hg
    rcases List.mem_cons.1 hg with rfl | hg
    · exact hl.placeIds g (by simp [ids])
    · exact h.loc.placeIds g hg
  · intro r hr; rw [h.foreign]; exact hl.marker r hr
  · intro x
    have := hl.runs x
    simp only [Fut.shownHere] at this ⊢
    rw [this]
    constructor
    · rintro ⟨h1, h2⟩
      refine ⟨(h.same x ?_ ?_ ?_).2 h1, h2⟩
      · rintro ⟨h3, -⟩; exact hcn.1 (h2.1.symm.trans h3)
      · rw [h2.1]; exact hcn.2
      · rw [h2.1]; exact hl.ctxLt.2
    · rintro ⟨h1, h2⟩
      refine ⟨(h.same x ?_ ?_ ?_).1 h1, h2⟩
      · rintro ⟨h3, -⟩; exact hcn.1 (h2.1.symm.trans h3)
      · rw [h2.1]; exact hcn.2
      · rw [h2.1]; exact hl.ctxLt.2
  · intro h; cases h
  · intro c x hx hi
    rcases List.mem_cons.1 hi with rfl | hi
    · rw [h.foreign] at hx
      exact hl.foreign c x hx (by simp [ids])
    · exact h.loc.foreign c x hx hi
  · intro i hi
    rcases List.mem_cons.1 hi with rfl | hi
    · exact .inl (by simp [ids])
    · rcases h.ids i hi with hi | hi
      · exact .inl (List.mem_cons_of_mem _ hi)
      · exact .inr hi
  · intro x _ h2 h3
    simp only [ids, List.mem_cons, not_or] at h2
    refine h.same x ?_ h2.2 h3
    rintro ⟨h4, -⟩
    exact h2.1 h4
  · intro x hx
    rcases h.nodes x hx with hx | hx | hx
    · exact .inl hx
    · exact .inr (.inl (List.mem_cons_of_mem _ hx))
    · exact .inr (.inr hx)

theorem sub_local {P : Places} {r n i : Nat} {D : Display} {ctx : Ctx} {a : Addr}
    {subs f pre post : Fut} (hl : Local P r n D ctx (.comb a subs))
    (H : Split 0 i subs f pre post) : Local P r n D (.child ctx i) f := by
  have hids : ids subs = ids pre ++ ids f ++ ids post := by rw [← H.ids, H.self]
  have hin : ∀ j, j ∈ ids f → j ∈ ids (Fut.comb a subs) := by
    intro j hj; simp [ids, hids, hj]
  have hnd := hl.nodup
  simp only [ids, hids] at hnd
  have hinn := hl.inner
  simp only [Inner] at hinn
  rw [← H.self, H.inner] at hinn
  refine ⟨(List.nodup_append.1 (List.nodup_append.1 hnd).1).2.1, fun j hj => hl.lt j (hin j hj),
    hl.ctxLt, fun hi => hl.ctxNot (hin _ hi), hl.place, fun g hg => hl.placeIds g (hin g hg), ?_,
    hl.marker, ?_, hinn.2.1, fun c x hx hi => hl.foreign c x hx (hin x hi)⟩
  · intro j hj
    simp only [Ctx.path, List.mem_append, List.mem_singleton] at hj
    rcases hj with hj | rfl
    · exact hl.index j hj
    · exact H.lt
  · intro x
    have hr := hl.runs x
    have hs : (Fut.comb a subs).shownHere ctx = subs.shownHere ctx := rfl
    rw [hs, ← H.self, H.shown] at hr
    simp only [List.mem_append] at hr
    constructor
    · intro hx
      exact ⟨(hr.1 (.inl (.inr hx))).1, shownHere_below _ _ _ hx⟩
    · rintro ⟨h1, h2⟩
      rcases hr.2 ⟨h1, h2.1, (List.prefix_append _ _).trans h2.2⟩ with (h3 | h3) | h3
      · obtain ⟨j, hj, hb⟩ := H.preNot ctx x h3
        have := below_child_unique h2 hb; omega
      · exact h3
      · obtain ⟨j, hj, hb⟩ := H.postNot ctx x h3
        have := below_child_unique h2 hb; omega

theorem sub_change {P : Places} {r n n' i : Nat} {D D' : Display} {ctx : Ctx} {a : Addr}
    {subs f f' pre post : Fut} (hl : Local P r n D ctx (.comb a subs))
    (H : Split 0 i subs f pre post) (h : Change P r n D (.child ctx i) f n' D' f') :
    Change P r n D ctx (.comb a subs) n' D' (.comb a (setSub i f' subs)) := by
  have hids : ids (Fut.comb a subs) = ids pre ++ ids f ++ ids post := by
    show ids subs = _
    rw [← H.ids, H.self]
  have hids' : ids (Fut.comb a (setSub i f' subs)) = ids pre ++ ids f' ++ ids post := by
    show ids (setSub i f' subs) = _
    rw [← H.ids]
  have hs : (Fut.comb a subs).shownHere ctx =
      pre.shownHere ctx ++ f.shownHere (.child ctx i) ++ post.shownHere ctx := by
    rw [← H.shown, H.self]; rfl
  have hs' : (Fut.comb a (setSub i f' subs)).shownHere ctx =
      pre.shownHere ctx ++ f'.shownHere (.child ctx i) ++ post.shownHere ctx := by
    rw [← H.shown]; rfl
  have hnd := hl.nodup
  have hlt := hl.lt
  have hcn := hl.ctxNot
  have hpl := hl.placeIds
  have hfo := hl.foreign
  have hruns := hl.runs
  simp only [hids] at hnd hlt hcn hpl hfo
  simp only [hs, List.mem_append] at hruns
  have hinn := hl.inner
  simp only [Inner] at hinn
  rw [← H.self, H.inner] at hinn
  have hle := h.le
  rw [List.nodup_append, List.nodup_append] at hnd
  obtain ⟨⟨np, nf, dpf⟩, nq, dq⟩ := hnd
  have hnew : ∀ j ∈ ids f', j ∉ ids pre ∧ j ∉ ids post := by
    intro j hj
    rcases h.ids j hj with hj | hj
    · exact ⟨fun hp => dpf j hp j hj rfl, fun hq => dq j (by simp [hj]) j hq rfl⟩
    · constructor
      · intro hp; have := (hlt j (by simp [hp])).2; omega
      · intro hp; have := (hlt j (by simp [hp])).2; omega
  -- the other subfutures are not touched
  have hother : ∀ j, j ≠ i → ∀ x, Below (.child ctx j) x → (x ∈ D'.shown ↔ x ∈ D.shown) := by
    intro j hj x hb
    apply h.same
    · intro hb'; exact hj (below_child_unique hb hb')
    · rw [hb.1]; intro hi; exact hcn (by simp only [List.mem_append]; exact .inl (.inr hi))
    · rw [hb.1]; exact hl.ctxLt.2
  have hinner : ∀ k g, Good k g → (∀ j ∈ ids g, j ∈ ids pre ∨ j ∈ ids post) → Inner D g → Inner D' g := by
    intro k g hg hsub hin
    have hnf : ∀ j ∈ ids g, j ∉ ids f := by
      intro j hj hf
      rcases hsub j hj with hp | hq
      · exact dpf j hp j hf rfl
      · exact dq j (by simp [hf]) j hq rfl
    have hn : ∀ j ∈ ids g, j < n := by
      intro j hj
      rcases hsub j hj with hp | hq
      · exact (hlt j (by simp [hp])).2
      · exact (hlt j (by simp [hq])).2
    have hcg : ctx.group ∉ ids g := by
      intro hi
      rcases hsub _ hi with hp | hq
      · exact hcn (by simp only [List.mem_append]; exact .inl (.inl hp))
      · exact hcn (by simp only [List.mem_append]; exact .inr hq)
    apply Inner.mono hg hin
    · intro x hx
      apply h.same x
      · intro hb
        have : x.group = ctx.group := hb.1
        exact hcg (this ▸ hx)
      · exact hnf _ hx
      · exact hn _ hx
    · intro x hx
      rcases h.nodes x hx with hx | hx | hx
      · exact .inl hx
      · exact .inr fun hi => hnf _ hi hx
      · exact .inr fun hi => Nat.not_le_of_lt (hn _ hi) hx
  refine ⟨hle, h.glob, ⟨?_, ?_, ?_, ?_, hl.place, ?_, hl.index, ?_, ?_, ?_, ?_⟩, ?_, ?_, ?_, h.foreign⟩
  · rw [hids', List.nodup_append, List.nodup_append]
    refine ⟨⟨np, h.loc.nodup, ?_⟩, nq, ?_⟩
    · rintro x hx y hy rfl; exact (hnew x hy).1 hx
    · rintro x hx y hy rfl
      rcases List.mem_append.1 hx with hx | hx
      · exact dq x (by simp [hx]) x hy rfl
      · exact (hnew x hx).2 hy
  · intro j hj
    rw [hids'] at hj
    simp only [List.mem_append] at hj
    rcases hj with (hj | hj) | hj
    · have := hlt j (by simp [hj]); omega
    · exact h.loc.lt j hj
    · have := hlt j (by simp [hj]); omega
  · exact ⟨hl.ctxLt.1, Nat.lt_of_lt_of_le hl.ctxLt.2 hle⟩
  · rw [hids']
    simp only [List.mem_append, not_or] at hcn ⊢
    exact ⟨⟨hcn.1.1, h.loc.ctxNot⟩, hcn.2⟩
  · intro g hg
    rw [hids'] at hg
    simp only [List.mem_append] at hg
    rcases hg with (hg | hg) | hg
    · exact hpl g (by simp only [List.mem_append]; exact .inl (.inl hg))
    · exact h.loc.placeIds g hg
    · exact hpl g (by simp only [List.mem_append]; exact .inr hg)
  · intro r hr; rw [h.foreign]; exact hl.marker r hr
  · intro x
    rw [hs']
    simp only [List.mem_append]
    constructor
    · rintro ((hx | hx) | hx)
      · obtain ⟨j, hj, hb⟩ := H.preNot ctx x hx
        have := (hruns x).1 (.inl (.inl hx))
        exact ⟨(hother j (by omega) x hb).2 this.1, this.2⟩
      · have := (h.loc.runs x).1 hx
        exact ⟨this.1, this.2.1, (List.prefix_append _ _).trans this.2.2⟩
      · obtain ⟨j, hj, hb⟩ := H.postNot ctx x hx
        have := (hruns x).1 (.inr hx)
        exact ⟨(hother j (by omega) x hb).2 this.1, this.2⟩
    · rintro ⟨h1, h2⟩
      by_cases hb : Below (.child ctx i) x
      · exact .inl (.inr ((h.loc.runs x).2 ⟨h1, hb⟩))
      · have h3 : x ∈ D.shown := by
          refine (h.same x hb ?_ ?_).1 h1
          · rw [h2.1]; intro hi; exact hcn (by simp only [List.mem_append]; exact .inl (.inr hi))
          · rw [h2.1]; exact hl.ctxLt.2
        rcases (hruns x).2 ⟨h3, h2⟩ with (h4 | h4) | h4
        · exact .inl (.inl h4)
        · exact absurd (shownHere_below _ _ _ h4) hb
        · exact .inr h4
  · simp only [Inner]
    rw [H.inner]
    exact ⟨hinner _ pre H.preGood (fun _ h => .inl h) hinn.1, h.loc.inner,
      hinner _ post H.postGood (fun _ h => .inr h) hinn.2.2⟩
  · intro c x hx
    rw [hids']
    have h1 := hfo c x (h.foreign ▸ hx)
    simp only [List.mem_append, not_or] at h1 ⊢
    exact ⟨⟨h1.1.1, h.loc.foreign c x hx⟩, h1.2⟩
  · intro j hj
    rw [hids'] at hj
    rw [hids]
    simp only [List.mem_append] at hj ⊢
    rcases hj with (hj | hj) | hj
    · exact .inl (.inl (.inl hj))
    · rcases h.ids j hj with hj | hj
      · exact .inl (.inl (.inr hj))
      · exact .inr hj
    · exact .inl (.inr hj)
  · intro x hx h2 h3
    rw [hids] at h2
    simp only [List.mem_append, not_or] at h2
    refine h.same x ?_ h2.1.2 h3
    intro hb; exact hx ⟨hb.1, (List.prefix_append _ _).trans hb.2⟩
  · intro x hx
    rw [hids]
    simp only [List.mem_append]
    rcases h.nodes x hx with hx | hx | hx
    · exact .inl hx
    · exact .inr (.inl (.inl (.inr hx)))
    · exact .inr (.inr hx)

theorem poll_done (b : Build) (s : Script) (ctx : Ctx) (t : TState) :
    poll b s ctx .done t = some (.done, t, false) := by
  cases s <;> rfl

/-- The groups in which `f` may display elements when it is polled in `ctx`. -/
def Covers (G : GroupId → Prop) (n : Nat) (ctx : Ctx) (f : Fut) : Prop :=
  (∀ g, n ≤ g → G g) ∧ G ctx.group ∧ ∀ i ∈ ids f, G i

theorem Covers.change {G : GroupId → Prop} {P : Places} {r n n' : Nat} {D D' : Display} {ctx : Ctx}
    {f f' : Fut} (h : Covers G n ctx f) (hc : Change P r n D ctx f n' D' f') : Covers G n' ctx f' := by
  refine ⟨fun g hg => h.1 g (Nat.le_trans hc.le hg), h.2.1, fun i hi => ?_⟩
  rcases hc.ids i hi with hi | hi
  · exact h.2.2 i hi
  · exact h.1 i hi.1

/-- Polling a component keeps everything where it belongs. -/
theorem poll_keeps (b : Build) {P : Places} {G : GroupId → Prop} {E : Display → State → Prop}
    (hK : Keeps b P G E) {r : Nat} : ∀ (s : Script), s.Narrow → ∀ (ctx : Ctx) (f : Fut)
    (n : Nat) (D : Display) (st : State), Covers G n ctx f →
    Good none f → (Inv P D st ∧ E D st) → Global P r n D → Local P r n D ctx f →
    ∃ f' st' n' D' ready, poll b s ctx f ⟨⟨st, none⟩, n⟩ = some (f', ⟨⟨st', none⟩, n'⟩, ready) ∧
      (Inv P D' st' ∧ E D' st') ∧ Good none f' ∧ Change P r n D ctx f n' D' f' := by
  intro s
  -- scripts that have no effect
  have skip : ∀ (s : Script) (ctx : Ctx) (f : Fut) (n : Nat) (D : Display) (st : State) (ready : Bool),
      poll b s ctx f ⟨⟨st, none⟩, n⟩ = some (f, ⟨⟨st, none⟩, n⟩, ready) →
      Good none f → Inv P D st ∧ E D st → Global P r n D → Local P r n D ctx f →
      ∃ f' st' n' D' ready, poll b s ctx f ⟨⟨st, none⟩, n⟩ = some (f', ⟨⟨st', none⟩, n'⟩, ready) ∧
        (Inv P D' st' ∧ E D' st') ∧ Good none f' ∧ Change P r n D ctx f n' D' f' :=
    fun s ctx f n D st ready hp hf hi hg hl => ⟨f, st, n, D, ready, hp, hi, hf, .refl hg hl⟩
  induction s with
  | pend =>
    intro _ ctx f n D st hG hf hi hg hl
    exact skip _ ctx f n D st false rfl hf hi hg hl
  | ready =>
    intro _ ctx f n D st hG hf hi hg hl
    cases hf with
    | idle => exact skip _ ctx _ n D st true rfl .idle hi hg hl
    | @block f hf =>
      have hne : f ≠ .done := by rintro rfl; cases hf
      refine skip _ ctx _ n D st false ?_ (.block hf) hi hg hl
      rw [poll] <;> simp_all
    | node hm hc => exact skip _ ctx _ n D st false rfl (.node hm hc) hi hg hl
    | comb hc => exact skip _ ctx _ n D st true rfl (.comb hc) hi hg hl
  | await inner next ihi ihn =>
    intro hN ctx f n D st hG hf hi hg hl
    have go : ∀ f, Covers G n ctx f → Good none (.block f) → (f = .done ∨ Good none f) → Local P r n D ctx (.block f) →
        ∃ f' st' n' D' ready, poll b (.await inner next) ctx (.block f) ⟨⟨st, none⟩, n⟩ =
          some (f', ⟨⟨st', none⟩, n'⟩, ready) ∧
        (Inv P D' st' ∧ E D' st') ∧ Good none f' ∧ Change P r n D ctx (.block f) n' D' f' := by
      intro f hG hb hf hl
      have hl' : Local P r n D ctx f :=
        ⟨hl.nodup, hl.lt, hl.ctxLt, hl.ctxNot, hl.place, hl.placeIds, hl.index, hl.marker, hl.runs,
          hl.inner, hl.foreign⟩
      rcases hf with rfl | hf
      · refine skip _ ctx _ n D st false ?_ hb hi hg hl
        simp [poll, poll_done]
      · obtain ⟨f1, st1, n1, D1, rdy, hp, hi1, hf1, hc1⟩ := ihi hN.1 ctx f n D st hG hf hi hg hl'
        have hc1' : Change P r n D ctx (.block f) n1 D1 (.block f1) :=
          ⟨hc1.le, hc1.glob, ⟨hc1.loc.nodup, hc1.loc.lt, hc1.loc.ctxLt, hc1.loc.ctxNot, hc1.loc.place,
            hc1.loc.placeIds, hc1.loc.index, hc1.loc.marker, hc1.loc.runs, hc1.loc.inner,
            hc1.loc.foreign⟩, hc1.ids, hc1.same, hc1.nodes, hc1.foreign⟩
        cases rdy with
        | false =>
          exact ⟨.block f1, st1, n1, D1, false, by simp [poll, hp], hi1, .block hf1, hc1'⟩
        | true =>
          obtain ⟨st2, D2, hd, hi2, hc2⟩ := drop_keeps b hK hi1.1 hi1.2 (.inr hf1) hc1.glob hc1.loc
          obtain ⟨f3, st3, n3, D3, rdy3, hp3, hi3, hf3, hc3⟩ :=
            ihn hN.2 ctx (.block .done) n1 D2 st2 ((Covers.change hG hc1).change hc2) .idle hi2
              hc2.glob hc2.loc
          have hc2' : Change P r n1 D1 ctx (.block f1) n1 D2 (.block .done) :=
            ⟨hc2.le, hc2.glob, hc2.loc, hc2.ids, hc2.same, hc2.nodes, hc2.foreign⟩
          exact ⟨f3, st3, n3, D3, rdy3, by simp [poll, hp, hd, hp3], hi3, hf3,
            (hc1'.trans hc2').trans hc3⟩
    cases hf with
    | idle => exact go .done hG .idle (.inl rfl) hl
    | block hf => exact go _ hG (.block hf) (.inr hf) hl
    | node hm hc => exact skip _ ctx _ n D st false rfl (.node hm hc) hi hg hl
    | comb hc => exact skip _ ctx _ n D st false rfl (.comb hc) hi hg hl
  | cancel next ihn =>
    intro hN ctx f n D st hG hf hi hg hl
    have go : ∀ f, Covers G n ctx f → (f = .done ∨ Good none f) → Local P r n D ctx (.block f) →
        ∃ f' st' n' D' ready, poll b (.cancel next) ctx (.block f) ⟨⟨st, none⟩, n⟩ =
          some (f', ⟨⟨st', none⟩, n'⟩, ready) ∧
        (Inv P D' st' ∧ E D' st') ∧ Good none f' ∧ Change P r n D ctx (.block f) n' D' f' := by
      intro f hG hf hl
      have hl' : Local P r n D ctx f :=
        ⟨hl.nodup, hl.lt, hl.ctxLt, hl.ctxNot, hl.place, hl.placeIds, hl.index, hl.marker, hl.runs,
          hl.inner, hl.foreign⟩
      obtain ⟨st2, D2, hd, hi2, hc2⟩ := drop_keeps b hK hi.1 hi.2 hf hg hl'
      obtain ⟨f3, st3, n3, D3, rdy3, hp3, hi3, hf3, hc3⟩ :=
        ihn hN ctx (.block .done) n D2 st2 (Covers.change hG hc2) .idle hi2 hc2.glob hc2.loc
      have hc2' : Change P r n D ctx (.block f) n D2 (.block .done) :=
        ⟨hc2.le, hc2.glob, hc2.loc, hc2.ids, hc2.same, hc2.nodes, hc2.foreign⟩
      exact ⟨f3, st3, n3, D3, rdy3, by simp [poll, hd, hp3], hi3, hf3, hc2'.trans hc3⟩
    cases hf with
    | idle => exact go .done hG (.inl rfl) hl
    | block hf => exact go _ hG (.inr hf) hl
    | node hm hc => exact skip _ ctx _ n D st false rfl (.node hm hc) hi hg hl
    | comb hc => exact skip _ ctx _ n D st false rfl (.comb hc) hi hg hl
  | create component next ihn =>
    intro hN ctx f n D st hG hf hi hg hl
    cases hf with
    | idle =>
      have hfr := Shape.make_fresh component n hN.1
      have hc := create_change hg hl hfr
      obtain ⟨f3, st3, n3, D3, rdy3, hp3, hi3, hf3, hc3⟩ :=
        ihn hN.2 ctx _ _ D st (Covers.change hG hc) (.block hfr.good) hi hc.glob hc.loc
      exact ⟨f3, st3, n3, D3, rdy3, by simp [poll, hp3], hi3, hf3, hc.trans hc3⟩
    | @block f hf =>
      have hne : f ≠ .done := by rintro rfl; cases hf
      refine skip _ ctx _ n D st false ?_ (.block hf) hi hg hl
      rw [poll] <;> simp_all
    | node hm hc => exact skip _ ctx _ n D st false rfl (.node hm hc) hi hg hl
    | comb hc => exact skip _ ctx _ n D st false rfl (.comb hc) hi hg hl
  | content inner ihi =>
    intro hN ctx f n D st hG hf hi hg hl
    cases hf with
    | idle => exact skip _ ctx _ n D st false rfl .idle hi hg hl
    | block hf => exact skip _ ctx _ n D st false rfl (.block hf) hi hg hl
    | comb hc => exact skip _ ctx _ n D st false rfl (.comb hc) hi hg hl
    | @node id mode a child hm hc =>
      cases mode with
      | shouldNotAdd => exact absurd rfl hm
      | shouldAdd =>
        obtain ⟨st1, D1, hadd, hi1, hc1⟩ := render_change b hK hc hi.1 hi.2 hG.2.1 hg hl
        obtain ⟨f2, st2, n2, D2, rdy, hp, hi2, hf2, hc2⟩ :=
          ihi hN (.container id id) child n D1 st1
            ⟨hG.1, hG.2.2 id (by simp [ids]), fun i hi => hG.2.2 i (by simp [ids, hi])⟩ hc hi1 hc1.glob (content_local hc1.loc)
        exact ⟨_, st2, n2, D2, rdy, by simp [poll, hadd, hp], hi2, .node (by simp) hf2,
          hc1.trans (content_change hc1.loc hc2)⟩
      | added =>
        obtain ⟨f2, st2, n2, D2, rdy, hp, hi2, hf2, hc2⟩ :=
          ihi hN (.container id id) child n D st
            ⟨hG.1, hG.2.2 id (by simp [ids]), fun i hi => hG.2.2 i (by simp [ids, hi])⟩ hc hi hg (content_local hl)
        exact ⟨_, st2, n2, D2, rdy, by simp [poll, hp], hi2, .node (by simp) hf2,
          content_change hl hc2⟩
  | sub i inner next ihi ihn =>
    intro hN ctx f n D st hG hf hi hg hl
    cases hf with
    | idle => exact skip _ ctx _ n D st false rfl .idle hi hg hl
    | block hf => exact skip _ ctx _ n D st false rfl (.block hf) hi hg hl
    | node hm hc => exact skip _ ctx _ n D st false rfl (.node hm hc) hi hg hl
    | @comb a subs hc =>
      cases hsub : subAt i subs with
      | none => exact skip _ ctx _ n D st false (by simp [poll, hsub]) (.comb hc) hi hg hl
      | some f =>
        obtain ⟨pre, post, H⟩ := hc.split 0 i f rfl hsub
        obtain ⟨f1, st1, n1, D1, rdy, hp, hi1, hf1, hc1⟩ :=
          ihi hN.1 (.child ctx i) f n D st ⟨hG.1, hG.2.1, fun j hj => hG.2.2 j (by
            rw [ids, show ids subs = ids pre ++ ids f ++ ids post by rw [← H.ids, H.self]]
            simp [hj])⟩ H.good hi hg (sub_local hl H)
        have hc1' := sub_change hl H hc1
        obtain ⟨f2, st2, n2, D2, rdy2, hp2, hi2, hf2, hc2⟩ :=
          ihn hN.2 ctx (.comb a (setSub i f1 subs)) n1 D1 st1 (Covers.change hG hc1')
            (.comb (H.goods f1 hf1)) hi1 hc1'.glob hc1'.loc
        exact ⟨f2, st2, n2, D2, rdy2, by simp [poll, hsub, hp, hp2], hi2, hf2, hc1'.trans hc2⟩

theorem keeps_nothing (b : Build) (P : Places) : Keeps b P (fun _ => True) fun _ _ => True :=
  ⟨fun _ _ _ _ _ _ _ _ _ _ => trivial, fun _ _ _ _ _ _ _ _ => trivial⟩

theorem poll_ok (b : Build) {P : Places} {r : Nat} (s : Script) (hs : s.Narrow) (ctx : Ctx) (f : Fut)
    (n : Nat) (D : Display) (st : State) (hf : Good none f) (hi : Inv P D st) (hg : Global P r n D)
    (hl : Local P r n D ctx f) :
    ∃ f' st' n' D' ready, poll b s ctx f ⟨⟨st, none⟩, n⟩ = some (f', ⟨⟨st', none⟩, n'⟩, ready) ∧
      Inv P D' st' ∧ Good none f' ∧ Change P r n D ctx f n' D' f' := by
  obtain ⟨f', st', n', D', ready, hp, hi', hf', hc⟩ := poll_keeps b (keeps_nothing b P) s hs ctx f n D st
    ⟨fun _ _ => trivial, trivial, fun _ _ => trivial⟩ hf ⟨hi, trivial⟩ hg hl
  exact ⟨f', st', n', D', ready, hp, hi'.1, hf', hc⟩

end Verif.Tree
