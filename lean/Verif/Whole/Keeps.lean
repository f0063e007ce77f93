import Verif.Whole.Layout
import Verif.Tree.Lemmas
import Verif.Lists.RenderLemmas
/-! # Elements that appear and disappear -/
namespace Verif.Whole
open Verif.Dom Verif.Lists Verif.Lists.Forest Verif.Tree

theorem split_at {α : Type} {A B A' B' : List α} (h : A ++ B = A' ++ B') (hnd : (A ++ B).Nodup)
    (hh : B.head? = B'.head?) : A = A' ∧ B = B' := by
  induction A generalizing A' with
  | nil =>
    cases A' with
    | nil => exact ⟨rfl, h⟩
    | cons a A' =>
      simp only [List.nil_append, List.cons_append] at h hnd
      subst h
      cases B' with
      | nil => cases hh
      | cons b B' =>
        simp only [List.head?_cons, Option.some.injEq] at hh
        subst hh
        rw [List.nodup_cons] at hnd
        exact absurd (by simp) hnd.1
  | cons a A ih =>
    cases A' with
    | nil =>
      simp only [List.nil_append, List.cons_append] at h hnd
      subst h
      cases B with
      | nil => cases hh
      | cons b B =>
        simp only [List.head?_cons, Option.some.injEq] at hh
        subst hh
        rw [List.nodup_cons] at hnd
        exact absurd (by simp) hnd.1
    | cons a' A' =>
      simp only [List.cons_append, List.cons.injEq] at h hnd
      obtain ⟨rfl, h⟩ := h
      rw [List.nodup_cons] at hnd
      obtain ⟨rfl, rfl⟩ := ih h hnd.2
      exact ⟨rfl, rfl⟩

section
variable {l : Lay} {lists : Nat → Option DynList} {fgn : List (NodeId × NodeId)} {O : Orders} {D : Display}
  {d : Dom} {F : Page}

/-- Only which elements are displayed matters. -/
theorem Paged.congr {D' : Display} (h : Paged l lists fgn O D d F) (hs : ∀ x, x ∈ D'.shown ↔ x ∈ D.shown)
    (hf : D'.foreign = D.foreign) : Paged l lists fgn O D' d F := by
  refine ⟨h.ninv, h.level, ?_, ?_, h.rows, h.ends, h.homes⟩
  · intro c κ n; rw [h.cells]; simp only [hs]
  · intro c n; rw [hf]; exact h.marks c n

/-- A new node at a place that belongs to `κ`. -/
theorem Paged.place (h : Paged l lists fgn O D d F) {κ : Cell} {c n : NodeId} {ref : Option NodeId}
    (hc : ∀ j L, lists j = some L → L.frag ≠ c) (hn : ∀ c, n ∉ (F.at_ c).flat)
    (hr : (∃ r, ref = some r ∧ Ref κ r .top (F.at_ c)) ∨ (ref = none ∧ κ = .top)) :
    ∃ d' F', d.insertBefore c n ref = some d' ∧ NInv ⟨d', lists⟩ F' ∧
      (∀ x, x ≠ c → F'.at_ x = F.at_ x) ∧ (F'.at_ c).Level 2 ∧
      (∀ κ' q, q ∈ seq κ' .top (F'.at_ c) ↔ q ∈ seq κ' .top (F.at_ c) ∨ (q = n ∧ κ' = κ)) ∧
      (∀ q, (F'.at_ c).Marker q ↔ (F.at_ c).Marker q) ∧
      (∀ i x y m, (F'.at_ c).Has i x y m → ∃ m0, (F.at_ c).Has i x y m0 ∧ m.entries = m0.entries) ∧
      (∀ i x y m, (F.at_ c).Has i x y m → ∃ m', (F'.at_ c).Has i x y m') := by
  have href : ∀ r, ref = some r → r ∈ (F.at_ c).flat := by
    intro r e
    rcases hr with ⟨r', e', h'⟩ | ⟨e', -⟩
    · rw [e] at e'; cases e'; exact ref_mem h'
    · rw [e] at e'; cases e'
  have hal : NAllowed ⟨d, lists⟩ F (.place c n ref) := by
    refine ⟨hc, fun x hm => hn x (marker_mem hm), ?_, ?_⟩
    · intro e; exact hn c (href n e)
    · intro q e; rw [h.ninv.kids]; exact href q e
  obtain ⟨w', hs, hi⟩ := ninv_place h.ninv hal
  simp only [nstep, Option.map_eq_some_iff] at hs
  obtain ⟨d', hd, hw⟩ := hs
  cases hw
  have hat : ∀ x, (nspec F (.place c n ref)).at_ x = if x = c then Forest.place (node n nil) ref (F.at_ c) else F.at_ x := by
    intro x
    simp only [nspec]
    split
    · rename_i e; rw [e, cutNode_id (hn c)]
    · rw [cutNode_id (hn x)]
  have hc' : (nspec F (.place c n ref)).at_ c = Forest.place (node n nil) ref (F.at_ c) := by rw [hat, if_pos rfl]
  refine ⟨d', _, hd, hi, fun x hx => by rw [hat, if_neg hx], ?_, ?_, ?_, ?_, ?_⟩
  · rw [hc']
    cases ref with
    | none => simp only [Forest.place, level_append]; exact ⟨h.level c, trivial⟩
    | some r => exact level_before (h.level c)
  · intro κ' q
    have hnd : ((nspec F (.place c n ref)).at_ c).flat.Nodup := by rw [← hi.kids]; exact hi.proper.1 c
    rw [hc'] at hnd ⊢
    rcases hr with ⟨r, rfl, hr⟩ | ⟨rfl, rfl⟩
    · show q ∈ seq κ' .top (before (node n nil) r (F.at_ c)) ↔ _
      rw [mem_seq_before (h.nodup c)]
      constructor
      · rintro (h1 | ⟨rfl, h1⟩)
        · exact .inl h1
        · right
          refine ⟨rfl, seq_unique hnd (κ := κ') (n := q) (here := .top) ?_ ?_⟩
          · exact (mem_seq_before (h.nodup c)).2 (.inr ⟨rfl, h1⟩)
          · exact (mem_seq_before (h.nodup c)).2 (.inr ⟨rfl, hr⟩)
      · rintro (h1 | ⟨rfl, rfl⟩)
        · exact .inl h1
        · exact .inr ⟨rfl, hr⟩
    · simp only [Forest.place, seq_append, List.mem_append, seq]
      by_cases hk : Cell.top = κ'
      · subst hk; simp
      · simp only [if_neg hk, List.not_mem_nil, or_false]
        constructor
        · exact .inl
        · rintro (h1 | h1)
          · exact h1
          · exact absurd h1.2.symm hk
  · intro q
    rw [hc']
    cases ref with
    | none => simp [Forest.place, Marker]
    | some r => exact marker_before
  · intro i x y m hm
    rw [hc'] at hm
    rcases has_place (p := node n nil) rfl hm with hm | hm
    · cases hm
    · exact hm
  · intro i x y m hm
    rw [hc']
    exact place_has hm

theorem head_append {α : Type} {a : List α} {o : Option α} {r : α} (h : (a ++ o.toList).head? = some r) :
    r ∈ a ∨ o = some r := by
  cases a with
  | nil => cases o <;> simp_all
  | cons x a => simp at h; subst h; simp

/-- An element that is displayed. -/
theorem Paged.render (b : Build) {st st' : State} {ctx : Ctx} {id : NodeId} (hi : Inv l.P D st)
    (h : Paged l lists fgn O D st.dom F) (hl : ∀ i, l.lab ctx.group ≠ .list i)
    (hfr : ∀ j L, lists j = some L → L.frag ≠ l.at_ ctx.group) (hok : (Verif.Dom.Op.render ctx id).Ok l.P D)
    (hs : ctx.addChild b st [] id = some st') :
    ∃ F', Paged l lists fgn O (D.step (.render ctx id)) st'.dom F' := by
  obtain ⟨hP, hfresh, hfree, hmark⟩ := hok
  have hhome : l.at_ ctx.group = ctx.home := by
    have := congrArg Prod.fst hP; exact this.symm
  have hmk : Cell.marker (l.lab ctx.group) = ctx.marker := by
    have := congrArg Prod.snd hP; exact this.symm
  obtain ⟨A, B, K1, K2, hm, hk, hA', hB', hhead, hA, hB, hex⟩ :=
    addHere_spec hi b ctx.group ctx.home ctx.marker ctx.path.reverse id hP (hi.not_in_of_fresh hfresh)
      (by
        intro e he heq
        have := (hi.agree ctx.group e.1 e.2).1 he
        exact hfree _ this ⟨rfl, by simp [heq]⟩) hmark
  rw [Ctx.addChild_eq, List.nil_append, hex, Option.some.injEq] at hs
  subst hs
  have hn : ∀ c, id ∉ (F.at_ c).flat := fun c hc => hfresh c ((h.mem_flat c id).1 hc)
  have hr : (∃ r, K2.head? = some r ∧ Ref (l.lab ctx.group) r .top (F.at_ ctx.home)) ∨
      (K2.head? = none ∧ l.lab ctx.group = .top) := by
    cases hK : K2.head? with
    | none =>
      right
      refine ⟨rfl, ?_⟩
      rw [hK] at hhead
      have : ctx.marker = none := by
        cases hm' : ctx.marker with
        | none => rfl
        | some r => rw [hm'] at hhead; simp [List.head?_append] at hhead
      rw [this] at hmk
      cases hlab : l.lab ctx.group with
      | top => rfl
      | item y => rw [hlab] at hmk; cases hmk
      | list i => exact absurd hlab (hl i)
    | some r =>
      left
      refine ⟨r, rfl, ?_⟩
      rw [hK] at hhead
      rw [← hhome]
      rcases head_append hhead.symm with h1 | h1
      · apply ref_of_seq
        obtain ⟨e, he, rfl⟩ := List.mem_map.1 h1
        exact h.shown_seq ((hi.agree ctx.group e.1 e.2).1 (by rw [hm]; exact List.mem_append_right _ he))
      · rw [h1] at hmk
        have h2 := marker_eq.1 hmk
        have h3 := (h.ref h2).1
        rw [h2]
        exact h3
  obtain ⟨d', F', hd, hn', hsame, hlev, hseq, hmar, hhas, hhas'⟩ := h.place (κ := l.lab ctx.group)
    (c := ctx.home) (n := id) (ref := K2.head?) (by rw [← hhome]; exact hfr) hn hr
  have hdom : (⟨fun x => if x = ctx.home then K1 ++ id :: K2 else st.dom.kids x⟩ : Dom) = d' := by
    have hnk : ∀ c, id ∉ st.dom.kids c := fun c => by rw [h.ninv.kids]; exact hn c
    obtain ⟨K1', K2', e1, e2, e3⟩ := insert_spec hi ctx.home id K2.head? hnk (by
      intro r e
      rw [hk]
      exact List.mem_append_right _ (List.mem_of_head? e))
    rw [hd, Option.some.injEq] at e3
    rw [e3]
    obtain ⟨rfl, rfl⟩ := split_at (hk.symm.trans e1) (by rw [← hk]; exact hi.nodup _) e2.symm
    rfl
  refine ⟨F', ?_⟩
  show Paged l lists fgn O _ (⟨fun x => if x = ctx.home then K1 ++ id :: K2 else st.dom.kids x⟩ : Dom) F'
  rw [hdom]
  refine ⟨hn', ?_, ?_, ?_, ?_, h.ends, ?_⟩
  · intro c
    by_cases hc : c = ctx.home
    · rw [hc]; exact hlev
    · rw [hsame c hc]; exact h.level c
  · intro c κ n
    simp only [Display.step, List.mem_cons]
    by_cases hc : c = ctx.home
    · subst hc
      rw [hseq, h.cells]
      constructor
      · rintro ((h1 | ⟨x, hx, h1⟩) | ⟨rfl, rfl⟩)
        · exact .inl h1
        · exact .inr ⟨x, .inr hx, h1⟩
        · exact .inr ⟨_, .inl rfl, rfl, hhome, rfl⟩
      · rintro (h1 | ⟨x, rfl | hx, h1⟩)
        · exact .inl (.inl h1)
        · exact .inr ⟨h1.1.symm, h1.2.2.symm⟩
        · exact .inl (.inr ⟨x, hx, h1⟩)
    · rw [hsame c hc, h.cells]
      constructor
      · rintro (h1 | ⟨x, hx, h1⟩)
        · exact .inl h1
        · exact .inr ⟨x, .inr hx, h1⟩
      · rintro (h1 | ⟨x, rfl | hx, h1⟩)
        · exact .inl h1
        · exact absurd (h1.2.1.symm.trans hhome) hc
        · exact .inr ⟨x, hx, h1⟩
  · intro c n
    show (c, n) ∈ D.foreign ↔ _
    by_cases hc : c = ctx.home
    · subst hc; rw [hmar]; exact h.marks _ n
    · rw [hsame c hc]; exact h.marks c n
  · intro c i x y m hm
    by_cases hc : c = ctx.home
    · subst hc
      obtain ⟨m0, h1, h2⟩ := hhas _ _ _ _ hm
      rw [h2]; exact h.rows _ _ _ _ _ h1
    · rw [hsame c hc] at hm; exact h.rows _ _ _ _ _ hm
  · intro i L hL
    obtain ⟨m, hm⟩ := h.homes i L hL
    by_cases hc : L.container = ctx.home
    · rw [hc] at hm ⊢; exact hhas' _ _ _ _ hm
    · rw [hsame _ hc]; exact ⟨m, hm⟩

/-- One element less. -/
theorem Paged.remove_one (h : Paged l lists fgn O D d F) {x : Shown} (hx : x ∈ D.shown)
    (hu : ∀ y ∈ D.shown, y.node = x.node → y = x) (hf : ∀ c, (c, x.node) ∉ fgn) :
    ∃ d' F', Paged l lists fgn O ⟨D.shown.filter (fun y => y ≠ x), D.foreign⟩ d' F' ∧
      ∀ c, d'.kids c = if c = l.at_ x.group then (d.kids c).filter (· != x.node) else d.kids c := by
  have hseq := h.shown_seq hx
  have hin : x.node ∈ d.kids (l.at_ x.group) := by rw [h.ninv.kids]; exact seq_mem_flat hseq
  have hal : NAllowed ⟨d, lists⟩ F (.vanish (l.at_ x.group) x.node) := ⟨hin, fun c => h.not_marker hseq⟩
  obtain ⟨w', hs, hi⟩ := ninv_vanish h.ninv hal
  have hd : d.removeChild (l.at_ x.group) x.node =
      some ⟨fun c => if c = l.at_ x.group then (d.kids c).filter (· != x.node) else d.kids c⟩ := by
    simp only [Dom.removeChild, if_pos hin]
  simp only [nstep, hd, Option.map_some, Option.some.injEq, Prod.mk.injEq, and_true] at hs
  subst hs
  have hat : ∀ c, (nspec F (.vanish (l.at_ x.group) x.node)).at_ c = if c = l.at_ x.group then
      (F.at_ (l.at_ x.group)).cutNode x.node else F.at_ c := fun c => rfl
  refine ⟨_, _, ⟨hi, ?_, ?_, ?_, ?_, h.ends, ?_⟩, fun c => rfl⟩
  · intro c
    rw [hat]
    split
    · exact level_cutNode (h.level _)
    · exact h.level c
  · intro c κ n
    rw [hat]
    simp only [List.mem_filter, decide_eq_true_eq]
    have old := h.cells c κ n
    split
    · rename_i e
      subst e
      rw [seq_cutNode, List.mem_filter, old]
      simp only [bne_iff_ne, ne_eq]
      constructor
      · rintro ⟨h1 | ⟨y, hy, h1, h2⟩, h3⟩
        · exact .inl h1
        · exact .inr ⟨y, ⟨hy, fun e => h3 (by rw [← h1, e])⟩, h1, h2⟩
      · rintro (h1 | ⟨y, ⟨hy, hne⟩, h1, h2⟩)
        · exact ⟨.inl h1, fun e => hf _ (e ▸ h1.2)⟩
        · exact ⟨.inr ⟨y, hy, h1, h2⟩, fun e => hne (hu y hy (h1.trans e))⟩
    · rename_i hc
      rw [old]
      constructor
      · rintro (h1 | ⟨y, hy, h1, h2⟩)
        · exact .inl h1
        · exact .inr ⟨y, ⟨hy, fun e => hc (by rw [← h2.1, e])⟩, h1, h2⟩
      · rintro (h1 | ⟨y, hy, h1⟩)
        · exact .inl h1
        · exact .inr ⟨y, hy.1, h1⟩
  · intro c n
    rw [hat]
    split
    · rename_i e; subst e; rw [marker_cutNode]; exact h.marks _ n
    · exact h.marks c n
  · intro c i x y m hm
    rw [hat] at hm
    split at hm
    · obtain ⟨m0, h1, h2⟩ := has_cutNode hm
      rw [h2]; exact h.rows _ _ _ _ _ h1
    · exact h.rows _ _ _ _ _ hm
  · intro i L hL
    obtain ⟨m, hm⟩ := h.homes i L hL
    rw [hat]
    split
    · rename_i e; rw [e] at hm; exact ⟨_, cutNode_has hm⟩
    · exact ⟨m, hm⟩

/-- Elements that disappear from one node. -/
theorem Paged.remove {c : NodeId} (R : List Shown) : ∀ {D : Display} {d : Dom} {F : Page},
    Paged l lists fgn O D d F → R.Nodup →
    (∀ x ∈ R, x ∈ D.shown ∧ l.at_ x.group = c) → (∀ x ∈ D.shown, ∀ y ∈ D.shown, x.node = y.node → x = y) →
    (∀ x ∈ D.shown, ∀ c, (c, x.node) ∉ fgn) →
    ∃ d' F', Paged l lists fgn O ⟨D.shown.filter (fun y => y ∉ R), D.foreign⟩ d' F' ∧
      ∀ x, d'.kids x = if x = c then (d.kids x).filter (fun n => n ∉ R.map (·.node)) else d.kids x := by
  induction R with
  | nil =>
    intro D d F h _ _ _ _
    refine ⟨d, F, h.congr (by simp) rfl, ?_⟩
    intro x
    split
    · rw [List.filter_eq_self.2]; simp
    · rfl
  | cons x R ih =>
    intro D d F h hnd hR hu hf
    rw [List.nodup_cons] at hnd
    obtain ⟨hx, hxc⟩ := hR x (by simp)
    obtain ⟨d1, F1, h1, hd1⟩ := h.remove_one hx (fun y hy e => hu y hy x hx e) (hf x hx)
    obtain ⟨d2, F2, h2, hd2⟩ := ih h1 hnd.2 (by
        intro y hy
        obtain ⟨h3, h4⟩ := hR y (by simp [hy])
        refine ⟨?_, h4⟩
        simp only [List.mem_filter, decide_eq_true_eq]
        exact ⟨h3, fun e => hnd.1 (e ▸ hy)⟩)
      (by
        intro y hy z hz
        simp only [List.mem_filter] at hy hz
        exact hu y hy.1 z hz.1)
      (by
        intro y hy
        simp only [List.mem_filter] at hy
        exact hf y hy.1)
    refine ⟨d2, F2, h2.congr ?_ rfl, ?_⟩
    · intro y
      simp only [List.mem_filter, List.mem_cons, not_or, decide_eq_true_eq]
      grind
    · intro y
      rw [hd2, hd1]
      split
      · rename_i e
        subst e
        rw [if_pos hxc.symm, List.filter_filter]
        apply List.filter_congr
        intro n _
        simp only [List.map_cons, List.mem_cons, not_or, Bool.decide_and]
        rw [Bool.and_comm]
        congr 1
        simp [bne, BEq.beq]
      · rename_i e
        rw [if_neg (by rw [hxc]; exact e)]

/-- The elements at a place disappear. -/
theorem Paged.unrender (b : Build) {st st' : State} {ctx : Ctx} (hi : Inv l.P D st)
    (h : Paged l lists fgn O D st.dom F) (hok : (Verif.Dom.Op.unrender ctx).Ok l.P D)
    (hs : ctx.removeChild b st [] = some st') :
    ∃ F', Paged l lists fgn O (D.step (.unrender ctx)) st'.dom F' := by
  have hsp := unrender_spec hi b ctx hok
  rw [Drop.unrender_exec, hs, Option.some.injEq] at hsp
  have hhome : l.at_ ctx.group = ctx.home := (congrArg Prod.fst hok.1).symm
  obtain ⟨d', F', h', hd'⟩ := Paged.remove (c := ctx.home)
    (D.shown.filter fun x => x.group == ctx.group && ctx.path.isPrefixOf x.path) h (hi.shownNodup.filter _)
    (by
      intro x hx
      simp only [List.mem_filter, Bool.and_eq_true, beq_iff_eq] at hx
      exact ⟨hx.1, by rw [hx.2.1, hhome]⟩) hi.uniq
    (fun x hx c hc => hi.sep x hx c ((h.marks _ _).2 (.inl hc)))
  refine ⟨F', ?_⟩
  have hdom : st'.dom = d' := by
    apply dom_ext
    intro x
    rw [hsp, hd']
    show (if x = ctx.home then _ else _) = _
    split
    · apply List.filter_congr
      intro n _
      have := mem_removed hi ctx n
      rw [Bool.eq_iff_iff]
      simp only [Bool.not_eq_true', decide_eq_true_eq]
      rw [← Bool.not_eq_true, this]
      simp only [List.mem_map, List.mem_filter, Bool.and_eq_true, beq_iff_eq]
      grind
    · rfl
  rw [hdom]
  refine h'.congr ?_ rfl
  intro x
  simp only [Display.step, List.mem_filter, Bool.not_eq_true', Bool.and_eq_true, beq_iff_eq, not_and]
  grind

end

/-- Polling keeps the page. -/
theorem keeps_page (b : Build) (l : Lay) (lists : Nat → Option DynList) (fgn : List (NodeId × NodeId)) (O : Orders) :
    Keeps b l.P (fun g => (∀ i, l.lab g ≠ .list i) ∧ ∀ j L, lists j = some L → L.frag ≠ l.at_ g)
      fun D st => ∃ F, Paged l lists fgn O D st.dom F :=
  ⟨fun _ _ _ _ _ hi ⟨_, hF⟩ hG hok hs => hF.render b hi hG.1 hG.2 hok hs,
    fun _ _ _ _ hi ⟨_, hF⟩ hok hs => hF.unrender b hi hok hs⟩

end Verif.Whole
