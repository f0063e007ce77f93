import Verif.Drop.Spec
import Verif.Dom.HistoryLemmas
namespace Verif.Drop
open Verif.Dom

/-- Dropping this value reaches `DOM_CONTEXT` when detachment is enabled. -/
def Fut.active : Fut → Bool
  | .done => false
  | .both x y => x.active || y.active
  | .block f => f.active
  | .slot _ f => f.active
  | .node _ _ .added _ _ => true
  | .node _ _ _ _ child => child.active
  | .item _ _ _ _ => true
  | .comb _ _ => true
  | .list _ _ => false

theorem removeChild_container_empty (b : Build) (s : State) (g : GroupId) (c : NodeId)
    (h : s.groups g = []) : (Ctx.container g c).removeChild b s [] = some s := by
  simp only [Ctx.removeChild, removeHere, removeChildrenHere, h, Pos.isRoot, List.isEmpty_nil,
    if_true, List.map_nil, removeAll, Option.pure_def, Option.bind_eq_bind, Option.bind_some,
    State.setGroup, Option.some.injEq]
  cases s with
  | mk groups dom =>
    simp only [State.mk.injEq, and_true]
    funext x
    split
    · next hx => subst hx; exact h.symm
    · rfl

/-- While blocked, dropping changes nothing. -/
theorem drop_blocked (b : Build) (amb : Option Ctx) (f : Fut) (s : State) (o : Addr)
    (ho : o ∉ f.addrs) (hu : ∀ g ∈ f.unpolledGroups, s.groups g = []) :
    f.drop b amb ⟨s, some o⟩ = some ⟨s, some o⟩ := by
  induction f with
  | done => rfl
  | both x y ihx ihy =>
    simp only [Fut.addrs, List.mem_append, not_or, Fut.unpolledGroups] at ho hu
    simp [Fut.drop, ihx ho.1 (fun g hg => hu g (.inl hg)), ihy ho.2 (fun g hg => hu g (.inr hg))]
  | block f ih => simpa [Fut.drop] using ih ho hu
  | slot i f ih => simpa [Fut.drop] using ih ho hu
  | node id g mode a child ih =>
    simp only [Fut.addrs, List.mem_cons, not_or] at ho
    cases mode <;> simp only [Fut.unpolledGroups, List.mem_cons] at hu
    · simp [Fut.drop, removeChild_container_empty b s g id (hu g (.inl rfl)),
        ih ho.2 (fun g hg => hu g (.inr hg)), endBlock, release, ho.1]
    · simp [Fut.drop, removeChild_container_empty b s g id (hu g (.inl rfl)),
        ih ho.2 (fun g hg => hu g (.inr hg)), endBlock, release, ho.1]
    · simp [Fut.drop, blockOr, blockUntilDrop, ih ho.2 hu, endBlock, release, ho.1]
  | item g r a child ih =>
    simp only [Fut.addrs, List.mem_cons, not_or] at ho
    simp [Fut.drop, blockOr, blockUntilDrop, ih ho.2 hu, endBlock, release, ho.1]
  | comb a f ih =>
    simp only [Fut.addrs, List.mem_cons, not_or] at ho
    simp [Fut.drop, blockOr, blockUntilDrop, ih ho.2 hu, endBlock, release, ho.1]
  | list a f ih =>
    simp only [Fut.addrs, List.mem_cons, not_or] at ho
    simp [Fut.drop, blockOr, blockUntilDrop, ih ho.2 hu, endBlock, release, ho.1]

/-- The effect of un-rendering, if there is one. -/
def unrenderIf (b : Build) (ctx : Ctx) (active : Bool) (s : State) : Option State :=
  if active then (Op.unrender ctx).exec b s else some s

theorem unrender_exec (b : Build) (ctx : Ctx) (s : State) :
    (Op.unrender ctx).exec b s = ctx.removeChild b s [] := rfl

/-- `s` is a well-formed state, after an un-render it is still one, and un-rendering again
changes nothing. -/
structure Stable (b : Build) (ctx : Ctx) (s s' : State) : Prop where
  first : ctx.removeChild b s [] = some s'
  again : ctx.removeChild b s' [] = some s'
  groups : ∀ g, s.groups g = [] → s'.groups g = []

theorem Display.In_of_nil {D : Display} {ctx : Ctx} (x : Shown)
    (hx : x ∈ (D.step (.unrender ctx)).shown) :
    ¬ (x.group = ctx.group ∧ ctx.path.isPrefixOf x.path = true) := by
  simp only [Display.step, List.mem_filter, Bool.not_eq_true', Bool.and_eq_false_imp] at hx
  rintro ⟨h1, h2⟩
  have := hx.2 (by simp [h1])
  rw [h2] at this
  cases this

/-- Un-rendering where nothing is displayed changes nothing. -/
theorem unrender_nothing {P : Places} {D : Display} {s : State} (h : Inv P D s) (b : Build)
    (ctx : Ctx) (hok : (Op.unrender ctx).Ok P D)
    (hno : ∀ x ∈ D.shown, ¬ (x.group = ctx.group ∧ ctx.path.isPrefixOf x.path = true)) :
    ctx.removeChild b s [] = some s := by
  have hs := unrender_spec h b ctx hok
  rw [unrender_exec] at hs
  rw [hs]
  have h1 : (s.groups ctx.group).filter (fun e => !ctx.path.isPrefixOf e.1.reverse) =
      s.groups ctx.group := by
    rw [List.filter_eq_self]
    intro e he
    have := hno _ ((h.agree _ e.1 e.2).1 he)
    simp only [true_and, Bool.not_eq_true] at this
    simp [this]
  have h2 : (s.groups ctx.group).filter (fun e => ctx.path.isPrefixOf e.1.reverse) = [] := by
    rw [List.filter_eq_nil_iff]
    intro e he
    have := hno _ ((h.agree _ e.1 e.2).1 he)
    simpa using this
  rw [h2]
  cases s with
  | mk groups dom =>
    cases dom with
    | mk kids =>
      simp only [Option.some.injEq, State.mk.injEq, Dom.mk.injEq]
      constructor
      · funext x; split
        · next hx => rw [hx]; exact h1
        · rfl
      · funext x; split
        · rw [List.filter_eq_self]; simp
        · rfl

theorem stable_of_inv {P : Places} {D : Display} {s : State} (h : Inv P D s) (b : Build)
    (ctx : Ctx) (hok : (Op.unrender ctx).Ok P D) :
    ∃ s', Stable b ctx s s' ∧ Inv P (D.step (.unrender ctx)) s' := by
  obtain ⟨s', h1, h2⟩ := h.unrender b ctx hok
  refine ⟨s', ⟨h1, ?_, ?_⟩, h2⟩
  · exact unrender_nothing h2 b ctx hok fun x hx => Display.In_of_nil x hx
  · intro g hg
    have hs := unrender_spec h b ctx hok
    rw [h1, Option.some.injEq] at hs
    subst hs
    simp only
    split
    · simp [hg]
    · exact hg

/-- Dropping with detachment enabled, different addresses. -/
theorem drop_free (b : Build) (ctx : Ctx) (f : Fut) (s s' t : State)
    (hst : Stable b ctx s s') (ht : t = s ∨ t = s')
    (hd : f.Distinct) (hi : f.ItemsInside)
    (hu : ∀ g ∈ f.unpolledGroups, s.groups g = []) :
    f.drop b (some ctx) ⟨t, none⟩ = some ⟨bif f.active then s' else t, none⟩ := by
  have htr : ctx.removeChild b t [] = some s' := by
    rcases ht with rfl | rfl
    · exact hst.first
    · exact hst.again
  have hu' : ∀ g ∈ f.unpolledGroups, s'.groups g = [] := fun g hg => hst.groups g (hu g hg)
  induction f generalizing t with
  | done => simp [Fut.drop, Fut.active]
  | both x y ihx ihy =>
    simp only [Fut.unpolledGroups, List.mem_append] at hu hu'
    simp only [Fut.drop, Option.bind_eq_bind]
    rw [ihx t ht hd.1 hi.1 (fun g hg => hu g (.inl hg)) htr (fun g hg => hu' g (.inl hg))]
    simp only [Option.bind_some, Fut.active]
    rw [ihy _ _ hd.2 hi.2 (fun g hg => hu g (.inr hg)) _ (fun g hg => hu' g (.inr hg))]
    · cases x.active <;> cases y.active <;> simp
    · cases x.active
      · exact ht
      · exact .inr rfl
    · cases x.active
      · exact htr
      · exact hst.again
  | block f ih => simpa [Fut.drop, Fut.active] using ih t ht hd hi hu htr hu'
  | slot i f ih => simpa [Fut.drop, Fut.active] using ih t ht hd hi hu htr hu'
  | node id g mode a child ih =>
    have hug : ∀ g, s.groups g = [] → t.groups g = [] := by
      intro g hg
      rcases ht with rfl | rfl
      · exact hg
      · exact hst.groups g hg
    cases mode with
    | added =>
      simp only [Fut.unpolledGroups] at hu hu'
      simp [Fut.drop, blockOr, blockUntilDrop, removeAmbient, htr,
        drop_blocked b (some ctx) child s' a hd.1 hu', endBlock, release, Fut.active]
    | shouldAdd =>
      simp only [Fut.unpolledGroups, List.mem_cons] at hu hu'
      simp [Fut.drop, removeChild_container_empty b t g id (hug g (hu g (.inl rfl))),
        ih t ht hd.2 hi (fun g hg => hu g (.inr hg)) htr (fun g hg => hu' g (.inr hg)),
        endBlock, release, Fut.active]
    | shouldNotAdd =>
      simp only [Fut.unpolledGroups, List.mem_cons] at hu hu'
      simp [Fut.drop, removeChild_container_empty b t g id (hug g (hu g (.inl rfl))),
        ih t ht hd.2 hi (fun g hg => hu g (.inr hg)) htr (fun g hg => hu' g (.inr hg)),
        endBlock, release, Fut.active]
  | item g r a child ih => exact hi.elim
  | comb a f ih =>
    simp only [Fut.unpolledGroups] at hu hu'
    simp [Fut.drop, blockOr, blockUntilDrop, removeAmbient, htr,
      drop_blocked b (some ctx) f s' a hd.1 hu', endBlock, release, Fut.active]
  | list a f ih =>
    have hut : ∀ g ∈ f.unpolledGroups, t.groups g = [] := by
      intro g hg
      rcases ht with rfl | rfl
      · exact hu g hg
      · exact hu' g hg
    simp [Fut.drop, blockOr, blockUntilDrop,
      drop_blocked b (some ctx) f t a hd.1 hut, endBlock, release, Fut.active]

/-- Dropping with arbitrary addresses and flag, without list items. -/
theorem drop_any (b : Build) (ctx : Ctx) (f : Fut) (s s' t : State) (fl : Flag)
    (hst : Stable b ctx s s') (ht : t = s ∨ t = s') (hi : f.NoItems)
    (hu : ∀ g ∈ f.unpolledGroups, s.groups g = []) :
    ∃ t' fl', f.drop b (some ctx) ⟨t, fl⟩ = some ⟨t', fl'⟩ ∧ (fl' = none ∨ fl' = fl) ∧
      (t' = s ∨ t' = s') ∧ (t = s' → t' = s') := by
  have hrel : ∀ (t' : State) (a : Addr) (fl' fl : Flag), fl' = none ∨ fl' = fl →
      (endBlock a ⟨t', fl'⟩).flag = none ∨ (endBlock a ⟨t', fl'⟩).flag = fl := by
    intro t' a fl' fl h
    rcases h with rfl | rfl
    · simp [endBlock, release]
    · cases fl' with
      | none => simp [endBlock, release]
      | some o => simp only [endBlock, release]; split <;> simp
  have hrel2 : ∀ (t' : State) (a : Addr) (fl' : Flag), fl' = none ∨ fl' = some a →
      (endBlock a ⟨t', fl'⟩).flag = none := by
    intro t' a fl' h
    rcases h with rfl | rfl <;> simp [endBlock, release]
  have htr : ∀ t, t = s ∨ t = s' → ctx.removeChild b t [] = some s' := by
    rintro t (rfl | rfl)
    · exact hst.first
    · exact hst.again
  have hug : ∀ t, t = s ∨ t = s' → ∀ g, s.groups g = [] → t.groups g = [] := by
    rintro t (rfl | rfl) g hg
    · exact hg
    · exact hst.groups g hg
  induction f generalizing t fl with
  | done => exact ⟨t, fl, rfl, .inr rfl, ht, id⟩
  | both x y ihx ihy =>
    simp only [Fut.unpolledGroups, List.mem_append] at hu
    obtain ⟨t1, f1, e1, hf1, h1, h1'⟩ := ihx t fl ht hi.1 (fun g hg => hu g (.inl hg))
    obtain ⟨t2, f2, e2, hf2, h2, h2'⟩ := ihy t1 f1 h1 hi.2 (fun g hg => hu g (.inr hg))
    refine ⟨t2, f2, by simp [Fut.drop, e1, e2], ?_, h2, fun h => h2' (h1' h)⟩
    rcases hf2 with rfl | rfl
    · exact .inl rfl
    · exact hf1
  | block f ih => simpa [Fut.drop] using ih t fl ht hi hu
  | slot i f ih => simpa [Fut.drop] using ih t fl ht hi hu
  | node id g mode a child ih =>
    cases mode with
    | added =>
      simp only [Fut.unpolledGroups] at hu
      cases fl with
      | none =>
        obtain ⟨t1, f1, e1, hf1, h1, h1'⟩ := ih s' (some a) (.inr rfl) hi hu
        refine ⟨t1, _, ?_, .inl (hrel2 t1 a f1 hf1), h1, fun _ => h1' rfl⟩
        simp [Fut.drop, blockOr, blockUntilDrop, removeAmbient, htr t ht, e1, endBlock]
      | some o =>
        obtain ⟨t1, f1, e1, hf1, h1, h1'⟩ := ih t (some o) ht hi hu
        refine ⟨t1, _, ?_, hrel t1 a f1 (some o) hf1, h1, h1'⟩
        simp [Fut.drop, blockOr, blockUntilDrop, e1, endBlock]
    | shouldAdd =>
      simp only [Fut.unpolledGroups, List.mem_cons] at hu
      obtain ⟨t1, f1, e1, hf1, h1, h1'⟩ := ih t fl ht hi (fun g hg => hu g (.inr hg))
      refine ⟨t1, _, ?_, hrel t1 a f1 fl hf1, h1, h1'⟩
      simp [Fut.drop, removeChild_container_empty b t g id (hug t ht g (hu g (.inl rfl))), e1,
        endBlock]
    | shouldNotAdd =>
      simp only [Fut.unpolledGroups, List.mem_cons] at hu
      obtain ⟨t1, f1, e1, hf1, h1, h1'⟩ := ih t fl ht hi (fun g hg => hu g (.inr hg))
      refine ⟨t1, _, ?_, hrel t1 a f1 fl hf1, h1, h1'⟩
      simp [Fut.drop, removeChild_container_empty b t g id (hug t ht g (hu g (.inl rfl))), e1,
        endBlock]
  | item g r a child ih => exact hi.elim
  | comb a f ih =>
    simp only [Fut.unpolledGroups] at hu
    cases fl with
    | none =>
      obtain ⟨t1, f1, e1, hf1, h1, h1'⟩ := ih s' (some a) (.inr rfl) hi hu
      refine ⟨t1, _, ?_, .inl (hrel2 t1 a f1 hf1), h1, fun _ => h1' rfl⟩
      simp [Fut.drop, blockOr, blockUntilDrop, removeAmbient, htr t ht, e1, endBlock]
    | some o =>
      obtain ⟨t1, f1, e1, hf1, h1, h1'⟩ := ih t (some o) ht hi hu
      refine ⟨t1, _, ?_, hrel t1 a f1 (some o) hf1, h1, h1'⟩
      simp [Fut.drop, blockOr, blockUntilDrop, e1, endBlock]
  | list a f ih =>
    simp only [Fut.NoItems] at hi
    subst hi
    cases fl with
    | none =>
      exact ⟨t, none, by simp [Fut.drop, blockOr, blockUntilDrop, endBlock, release], .inl rfl,
        ht, id⟩
    | some o =>
      refine ⟨t, (endBlock a ⟨t, some o⟩).flag, ?_, hrel t a _ _ (.inr rfl), ht, id⟩
      simp [Fut.drop, blockOr, blockUntilDrop, endBlock]

/-- Dropping with arbitrary addresses, detachment enabled, without list items. -/
theorem drop_any_free (b : Build) (ctx : Ctx) (f : Fut) (s s' t : State)
    (hst : Stable b ctx s s') (ht : t = s ∨ t = s') (hi : f.NoItems)
    (hu : ∀ g ∈ f.unpolledGroups, s.groups g = []) :
    f.drop b (some ctx) ⟨t, none⟩ = some ⟨bif f.active then s' else t, none⟩ := by
  have htr : ∀ t, t = s ∨ t = s' → ctx.removeChild b t [] = some s' := by
    rintro t (rfl | rfl)
    · exact hst.first
    · exact hst.again
  have hug : ∀ t, t = s ∨ t = s' → ∀ g, s.groups g = [] → t.groups g = [] := by
    rintro t (rfl | rfl) g hg
    · exact hg
    · exact hst.groups g hg
  have hrel2 : ∀ (t' : State) (a : Addr) (fl' : Flag), fl' = none ∨ fl' = some a →
      endBlock a ⟨t', fl'⟩ = ⟨t', none⟩ := by
    intro t' a fl' h
    rcases h with rfl | rfl <;> simp [endBlock, release]
  induction f generalizing t with
  | done => simp [Fut.drop, Fut.active]
  | both x y ihx ihy =>
    simp only [Fut.unpolledGroups, List.mem_append] at hu
    simp only [Fut.drop, Option.bind_eq_bind]
    rw [ihx t ht hi.1 (fun g hg => hu g (.inl hg))]
    simp only [Option.bind_some, Fut.active]
    rw [ihy _ _ hi.2 (fun g hg => hu g (.inr hg))]
    · cases x.active <;> cases y.active <;> simp
    · cases x.active
      · exact ht
      · exact .inr rfl
  | block f ih => simpa [Fut.drop, Fut.active] using ih t ht hi hu
  | slot i f ih => simpa [Fut.drop, Fut.active] using ih t ht hi hu
  | node id g mode a child ih =>
    cases mode with
    | added =>
      simp only [Fut.unpolledGroups] at hu
      obtain ⟨t1, f1, e1, hf1, h1, h1'⟩ := drop_any b ctx child s s' s' (some a) hst (.inr rfl) hi hu
      have := h1' rfl
      subst this
      simp [Fut.drop, blockOr, blockUntilDrop, removeAmbient, htr t ht, e1, hrel2 t1 a f1 hf1,
        Fut.active]
    | shouldAdd =>
      simp only [Fut.unpolledGroups, List.mem_cons] at hu
      simp [Fut.drop, removeChild_container_empty b t g id (hug t ht g (hu g (.inl rfl))),
        ih t ht hi (fun g hg => hu g (.inr hg)), endBlock, release, Fut.active]
    | shouldNotAdd =>
      simp only [Fut.unpolledGroups, List.mem_cons] at hu
      simp [Fut.drop, removeChild_container_empty b t g id (hug t ht g (hu g (.inl rfl))),
        ih t ht hi (fun g hg => hu g (.inr hg)), endBlock, release, Fut.active]
  | item g r a child ih => exact hi.elim
  | comb a f ih =>
    simp only [Fut.unpolledGroups] at hu
    obtain ⟨t1, f1, e1, hf1, h1, h1'⟩ := drop_any b ctx f s s' s' (some a) hst (.inr rfl) hi hu
    have := h1' rfl
    subst this
    simp [Fut.drop, blockOr, blockUntilDrop, removeAmbient, htr t ht, e1, hrel2 t1 a f1 hf1,
      Fut.active]
  | list a f ih =>
    simp only [Fut.NoItems] at hi
    subst hi
    simp [Fut.drop, blockOr, blockUntilDrop, endBlock, release, Fut.active]

/-- A future that has something on display here has something to remove here. -/
theorem active_of_shown (f : Fut) (ctx : Ctx) (h : f.shownHere ctx ≠ []) : f.active = true := by
  induction f generalizing ctx with
  | done => simp [Fut.shownHere] at h
  | both x y ihx ihy =>
    simp only [Fut.active, Bool.or_eq_true]
    by_cases hx : x.shownHere ctx = []
    · right; apply ihy ctx; simpa [Fut.shownHere, hx] using h
    · left; exact ihx ctx hx
  | block f ih => exact ih _ h
  | slot i f ih => exact ih _ h
  | node id g mode a child ih =>
    cases mode <;> simp [Fut.shownHere, Fut.active] at h ⊢
  | item g r a child ih => rfl
  | comb a f ih => rfl
  | list a f ih => simp [Fut.shownHere] at h

/-- Dropping a value that does not reach `DOM_CONTEXT` changes nothing. -/
theorem drop_inactive (b : Build) (amb : Option Ctx) (f : Fut) (s : State)
    (ha : f.active = false) (hd : f.Distinct)
    (hu : ∀ g ∈ f.unpolledGroups, s.groups g = []) :
    f.drop b amb ⟨s, none⟩ = some ⟨s, none⟩ := by
  induction f with
  | done => rfl
  | both x y ihx ihy =>
    simp only [Fut.active, Bool.or_eq_false_iff, Fut.unpolledGroups, List.mem_append] at ha hu
    simp [Fut.drop, ihx ha.1 hd.1 (fun g hg => hu g (.inl hg)),
      ihy ha.2 hd.2 (fun g hg => hu g (.inr hg))]
  | block f ih => simpa [Fut.drop] using ih ha hd hu
  | slot i f ih => simpa [Fut.drop] using ih ha hd hu
  | node id g mode a child ih =>
    cases mode with
    | added => simp [Fut.active] at ha
    | shouldAdd =>
      simp only [Fut.unpolledGroups, List.mem_cons] at hu
      simp [Fut.drop, removeChild_container_empty b s g id (hu g (.inl rfl)),
        ih ha hd.2 (fun g hg => hu g (.inr hg)), endBlock, release]
    | shouldNotAdd =>
      simp only [Fut.unpolledGroups, List.mem_cons] at hu
      simp [Fut.drop, removeChild_container_empty b s g id (hu g (.inl rfl)),
        ih ha hd.2 (fun g hg => hu g (.inr hg)), endBlock, release]
  | item g r a child ih => simp [Fut.active] at ha
  | comb a f ih => simp [Fut.active] at ha
  | list a f ih =>
    simp [Fut.drop, blockOr, blockUntilDrop, drop_blocked b amb f s a hd.1 hu, endBlock, release]

/-- Whatever happens, the flag afterwards is null or what it was before. -/
theorem drop_flag (b : Build) (amb : Option Ctx) (f : Fut) (d d' : DState)
    (h : f.drop b amb d = some d') : d'.flag = none ∨ d'.flag = d.flag := by
  have hrel : ∀ (d1 d2 d3 : DState) (a : Addr) (r : State → Option State),
      blockOr a r d1 = some d2 → d3.flag = none ∨ d3.flag = d2.flag →
      (endBlock a d3).flag = none ∨ (endBlock a d3).flag = d1.flag := by
    intro d1 d2 d3 a r h1 h2
    have hf : d2.flag = (blockUntilDrop a d1.flag).2 := by
      unfold blockOr at h1
      cases hfl : d1.flag with
      | none =>
        simp only [hfl, blockUntilDrop, Option.bind_eq_bind, Option.pure_def,
          Option.bind_eq_some_iff, Option.some.injEq] at h1
        obtain ⟨st, -, rfl⟩ := h1
        rfl
      | some o =>
        simp only [hfl, blockUntilDrop, Option.some.injEq] at h1
        subst h1
        rfl
    rw [hf] at h2
    unfold endBlock
    rcases h2 with h2 | h2 <;> simp only [h2]
    · simp [release]
    · cases d1.flag with
      | none => simp [blockUntilDrop, release]
      | some o => simp only [blockUntilDrop, release]; split <;> simp
  have hrel' : ∀ (d2 d3 : DState) (a : Addr), d3.flag = none ∨ d3.flag = d2.flag →
      (endBlock a d3).flag = none ∨ (endBlock a d3).flag = d2.flag := by
    intro d2 d3 a h
    rcases h with h | h <;> simp only [endBlock, h]
    · simp [release]
    · cases d2.flag with
      | none => simp [release]
      | some o => simp only [release]; split <;> simp
  induction f generalizing d d' with
  | done => simp only [Fut.drop, Option.some.injEq] at h; simp [h]
  | both x y ihx ihy =>
    simp only [Fut.drop, Option.bind_eq_bind, Option.bind_eq_some_iff] at h
    obtain ⟨d1, h1, h2⟩ := h
    rcases ihy _ _ h2 with h | h
    · exact .inl h
    · rw [h]; exact ihx _ _ h1
  | block f ih => exact ih _ _ h
  | slot i f ih => exact ih _ _ h
  | node id g mode a child ih =>
    cases mode with
    | added =>
      simp only [Fut.drop, Option.bind_eq_bind, Option.bind_eq_some_iff, Option.pure_def,
        Option.some.injEq] at h
      obtain ⟨d1, h1, d2, h2, rfl⟩ := h
      exact hrel d d1 d2 a _ h1 (ih _ _ h2)
    | shouldAdd =>
      simp only [Fut.drop, Option.bind_eq_bind, Option.bind_eq_some_iff, Option.pure_def,
        Option.some.injEq] at h
      obtain ⟨st, -, _, rfl, d2, h2, rfl⟩ := h
      exact hrel' ⟨st, d.flag⟩ d2 a (ih _ _ h2)
    | shouldNotAdd =>
      simp only [Fut.drop, Option.bind_eq_bind, Option.bind_eq_some_iff, Option.pure_def,
        Option.some.injEq] at h
      obtain ⟨st, -, _, rfl, d2, h2, rfl⟩ := h
      exact hrel' ⟨st, d.flag⟩ d2 a (ih _ _ h2)
  | item g r a child ih =>
    simp only [Fut.drop, Option.bind_eq_bind, Option.bind_eq_some_iff, Option.pure_def,
      Option.some.injEq] at h
    obtain ⟨d1, h1, d2, h2, rfl⟩ := h
    exact hrel d d1 d2 a _ h1 (ih _ _ h2)
  | comb a f ih =>
    simp only [Fut.drop, Option.bind_eq_bind, Option.bind_eq_some_iff, Option.pure_def,
      Option.some.injEq] at h
    obtain ⟨d1, h1, d2, h2, rfl⟩ := h
    exact hrel d d1 d2 a _ h1 (ih _ _ h2)
  | list a f ih =>
    simp only [Fut.drop, Option.bind_eq_bind, Option.bind_eq_some_iff, Option.pure_def,
      Option.some.injEq] at h
    obtain ⟨d1, h1, d2, h2, rfl⟩ := h
    exact hrel d d1 d2 a _ h1 (ih _ _ h2)

/-- With no ambient context, dropping an active value with detachment enabled panics. -/
theorem drop_no_context (b : Build) (f : Fut) (s : State) (ha : f.active = true) :
    f.drop b none ⟨s, none⟩ = none := by
  induction f generalizing s with
  | done => simp [Fut.active] at ha
  | both x y ihx ihy =>
    simp only [Fut.active, Bool.or_eq_true] at ha
    simp only [Fut.drop, Option.bind_eq_bind]
    by_cases hx : x.active = true
    · simp [ihx s hx]
    · have hy := ha.resolve_left hx
      cases hxd : x.drop b none ⟨s, none⟩ with
      | none => rfl
      | some d =>
        have := drop_flag b none x _ _ hxd
        simp only [or_self] at this
        cases d with
        | mk st fl =>
          simp only at this
          subst this
          simpa using ihy st hy
  | block f ih => exact ih s ha
  | slot i f ih => exact ih s ha
  | node id g mode a child ih =>
    cases mode with
    | added => simp [Fut.drop, blockOr, blockUntilDrop, removeAmbient]
    | shouldAdd =>
      simp only [Fut.drop, Option.bind_eq_bind]
      cases (Ctx.container g id).removeChild b s [] with
      | none => rfl
      | some st => simp [ih st ha]
    | shouldNotAdd =>
      simp only [Fut.drop, Option.bind_eq_bind]
      cases (Ctx.container g id).removeChild b s [] with
      | none => rfl
      | some st => simp [ih st ha]
  | item g r a child ih => simp [Fut.drop, blockOr, blockUntilDrop]
  | comb a f ih => simp [Fut.drop, blockOr, blockUntilDrop, removeAmbient]
  | list a f ih => simp [Fut.active] at ha

theorem inactive_of_unpolled (f : Fut) (hu : f.Unpolled) (hc : f.NoComb) (hi : f.ItemsInside) :
    f.active = false := by
  induction f with
  | done => rfl
  | both x y ihx ihy => simp [Fut.active, ihx hu.1 hc.1 hi.1, ihy hu.2 hc.2 hi.2]
  | block f ih => exact ih hu hc hi
  | slot i f ih => exact ih hu hc hi
  | node id g mode a child ih =>
    obtain ⟨rfl, hu⟩ := hu
    exact ih hu hc hi
  | item g r a child ih => exact hi.elim
  | comb a f ih => exact hc.elim
  | list a f ih => rfl

end Verif.Drop
