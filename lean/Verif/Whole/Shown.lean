import Verif.Whole.Calls
import Verif.Lists.NestProps
import Verif.Tree.Props
/-!
# C64: apps with dynamic lists
-/
namespace Verif.Whole
open Verif.Dom Verif.Drop Verif.Lists Verif.Lists.Forest Verif.Tree

theorem eq_of_sub {α : Type} {A B : List α} (h : List.Sublist A B) (hB : B.Nodup) (hm : ∀ x ∈ B, x ∈ A) : B = A := by
  have hA : A.Nodup := h.nodup hB
  have hp : A.Perm B := (List.perm_ext_iff_of_nodup hA hB).2 fun x => ⟨fun hx => h.subset hx, hm x⟩
  exact (h.eq_of_length hp.length_eq).symm

/-- The nodes of a group are what the component displays. -/
theorem group_tops {P : Places} {D : Display} {st : State} {g : GroupId} {f : Fut} {k : Option Nat} (hi : Inv P D st)
    (hf : Good k f) (hr : ∀ x, x ∈ f.shownHere (.container g g) ↔ x ∈ D.shown ∧ x.group = g) :
    (st.groups g).map (·.2) = tops f := by
  rw [tops_eq f (.container g g)]
  have h1 : (st.groups g).map (fun e => (⟨g, e.1.reverse, e.2⟩ : Shown)) = f.shownHere (.container g g) := by
    apply eq_of_sorted
    · rw [List.pairwise_map]
      apply (hi.sorted g).imp
      intro a b hab
      rwa [cmp_eq_lex, lexCmp_lt_iff] at hab
    · exact hf.sorted _
    · intro x
      rw [hr x]
      simp only [List.mem_map]
      constructor
      · rintro ⟨e, he, rfl⟩
        exact ⟨(hi.agree g e.1 e.2).1 he, rfl⟩
      · rintro ⟨hx, hg⟩
        subst hg
        refine ⟨(x.path.reverse, x.node), ?_, by simp⟩
        rw [hi.agree]; simpa using hx
  rw [← h1, List.map_map]
  rfl

theorem loose_plain (f : Forest) : f.loose = plain f := by
  induction f with
  | nil => rfl
  | node n r ih => simp only [loose, plain, ih]
  | item k x y m r _ ih => exact ih
  | list i x y m r _ ih => exact ih

theorem top_plain {f : Forest} (hl : f.Level 2) : seq .top .top f = plain f := by
  induction f with
  | nil => rfl
  | node n r ih => rw [seq, if_pos rfl, ih hl, plain]
  | item k x y m r _ ih => exact absurd hl.1 (by simp)
  | list i x y m r _ ih => rw [seq, seq_top_nil (here := .list i) (f := m) (by simp), ih hl.2.2, plain]; rfl

theorem level0_flat {f : Forest} (h : f.Level 0) : Flat f := by
  induction f with
  | nil => trivial
  | node n r ih => exact ih h
  | item _ _ _ _ _ _ _ => exact absurd h.1 (by simp)
  | list _ _ _ _ _ _ _ => exact absurd h.1 (by simp)

theorem level1_row {f : Forest} (h : f.Level 1) : Row f := by
  induction f with
  | nil => trivial
  | node n r ih => exact ih h
  | item _ _ _ _ _ _ ih => exact ⟨level0_flat h.2.1, ih h.2.2⟩
  | list _ _ _ _ _ _ _ => exact absurd h.1 (by simp)

theorem level2_top {f : Forest} (h : f.Level 2) : Top f := by
  induction f with
  | nil => trivial
  | node n r ih => exact ih h
  | item _ _ _ _ _ _ _ => exact absurd h.1 (by simp)
  | list _ _ _ _ _ _ ih => exact ⟨level1_row h.2.1, ih h.2.2⟩

theorem itemsOf_content {m : Forest} (hl : m.Level 1) {k : Key} {y : NodeId} {f : Forest} (h : (k, y, f) ∈ itemsOf m) :
    ∃ x, (k, (⟨x, y⟩ : Stored), f.flat) ∈ m.content := by
  induction m with
  | nil => cases h
  | node n r ih => exact ih hl h
  | item k' x y' m r _ ih =>
    rcases List.mem_cons.1 h with h | h
    · cases h
      exact ⟨x, List.mem_cons_self⟩
    · obtain ⟨x', h2⟩ := ih hl.2.2 h
      exact ⟨x', List.mem_cons_of_mem _ h2⟩
  | list i x y' m r _ ih => exact absurd hl.1 (by simp)

section
variable {r : Nat} {l : Lay} {D : Display} {F : Page} {W : Whole} {O : Orders}

/-- The labels of the groups. -/
theorem WInv.label (h : WInv r l D F W O) (g : GroupId) :
    (l.at_ g = g ∧ l.lab g = .top) ∨ (g = r ∧ l.at_ g = W.app.node ∧ l.lab g = .top) ∨
    ∃ t ∈ W.tasks, t.stop = g ∧ ∃ L, W.lists t.list = some L ∧ l.at_ g = L.list.container ∧
      l.lab g = (if t.live = true then .item g else .list t.list) := by
  by_cases hk : g ∈ W.comps.map (·.1)
  · obtain ⟨p, hp, rfl⟩ := List.mem_map.1 hk
    rcases mem_comps.1 hp with rfl | ⟨t, ht, rfl⟩
    · exact .inr (.inl ⟨h.group, by show l.at_ W.app.group = _; rw [h.group]; exact h.root.1,
        by show l.lab W.app.group = _; rw [h.group]; exact h.root.2⟩)
    · obtain ⟨-, h1⟩ := h.tasks t ht
      exact .inr (.inr ⟨t, ht, rfl, h1⟩)
  · exact .inl (h.plain g hk)

/-- What is in a part besides nodes of other code. -/
theorem WInv.own_eq (h : WInv r l D F W O) {g : GroupId} {c : NodeId} {f : Fut} {k : Option Nat} (hf : Good k f)
    (hr : ∀ x, x ∈ f.shownHere (.container g g) ↔ x ∈ D.shown ∧ x.group = g)
    (hat : l.at_ g = c) (hlab : l.lab g = .top) (hu : ∀ g', r ≤ g' → l.at_ g' = c → l.lab g' = .top → g' = g) :
    own F.at_ W.app.foreign c = tops f := by
  rw [own, ← top_plain (h.paged.level c), ← group_tops h.inv hf hr]
  have hs := h.paged.order h.inv g
  rw [hat, hlab] at hs
  have hnf : ∀ n ∈ (W.st.groups g).map (·.2), (c, n) ∉ W.app.foreign := by
    intro n hn hc
    obtain ⟨e, he, rfl⟩ := List.mem_map.1 hn
    exact h.inv.sep _ ((h.inv.agree g e.1 e.2).1 he) c ((h.paged.marks _ _).2 (.inl hc))
  refine eq_of_sub ?_ (((seq_sublist _ _ _).nodup (h.paged.nodup c)).filter _) ?_
  · have := hs.filter (fun n => !W.app.foreign.contains (c, n))
    rwa [List.filter_eq_self.2 (by
      intro n hn
      simpa using hnf n hn)] at this
  · intro n hn
    simp only [List.mem_filter, Bool.not_eq_true', List.contains_eq_mem, decide_eq_false_iff_not] at hn
    rcases (h.paged.cells c .top n).1 hn.1 with ⟨-, h1⟩ | ⟨x, hx, rfl, h2, h3⟩
    · exact absurd h1 hn.2
    · have := hu x.group (h.glob.group x hx).1 h2 h3
      subst this
      exact List.mem_map.2 ⟨(x.path.reverse, x.node), by rw [h.inv.agree]; simpa using hx, rfl⟩

theorem WInv.filled (h : WInv r l D F W O) {f : Fut} {k : Option Nat} (hf : Good k f)
    (hids : ∀ i ∈ ids f, r ≤ i ∧ l.at_ i = i ∧ l.lab i = .top) (hin : Inner D f) : Filled F.at_ W.app.foreign f := by
  induction hf with
  | idle => trivial
  | block _ ih => exact ih hids hin
  | @node id mode a child _ hc ih =>
    simp only [ids, List.mem_cons] at hids
    obtain ⟨h1, h2, h3⟩ := hids id (.inl rfl)
    refine ⟨h.own_eq hc ?_ h2 h3 ?_, ih (fun g hg => hids g (.inr hg)) hin.2.2⟩
    · intro x
      rw [hin.2.1 x]
      constructor
      · rintro ⟨h4, h5⟩; exact ⟨h4, (below_iff rfl rfl x).1 h5⟩
      · rintro ⟨h4, h5⟩; exact ⟨h4, (below_iff rfl rfl x).2 h5⟩
    · intro g' hg' h4 h5
      rcases h.label g' with ⟨h6, -⟩ | ⟨-, h6, -⟩ | ⟨t, -, -, L, -, -, h6⟩
      · exact h6.symm.trans h4
      · have := h.node
        rw [h6] at h4
        om
      · rw [h5] at h6
        split at h6 <;> cases h6
  | comb _ ih => exact ih hids hin
  | nil => trivial
  | cons _ _ _ ihf ihr =>
    simp only [ids, List.mem_append] at hids
    exact ⟨ihf (fun g hg => hids g (.inl hg)) hin.1, ihr (fun g hg => hids g (.inr hg)) hin.2⟩

theorem WInv.filled_comp (h : WInv r l D F W O) {p : GroupId × Fut} (hp : p ∈ W.comps) :
    Filled F.at_ W.app.foreign p.2 := by
  have hc := h.comps.each p hp
  exact h.filled hc.good (fun i hi => ⟨(hc.lt i hi).1, h.ids_place hp hi⟩) hc.inner

theorem WInv.task_eq (h : WInv r l D F W O) {t : Task} (ht : t ∈ W.tasks) : W.task t.stop = some t := by
  cases hy : W.task t.stop with
  | none =>
    have := List.find?_eq_none.1 hy t ht
    simp at this
  | some t' =>
    obtain ⟨h1, h2⟩ := task_mem hy
    rw [h.tasks_unique h1 ht h2]

theorem WInv.frag_element (h : WInv r l D F W O) {i : Nat} {L : ListSt} (hL : W.lists i = some L) :
    ¬ W.Element L.list.frag := by
  obtain ⟨h1, -, h3⟩ := h.frag i L hL
  have := h.node
  rintro (e | e | ⟨t, ht, e⟩)
  · rw [e] at h1; om
  · exact h3 _ (mem_comps.2 (.inl rfl)) (elements_ids _ _ e)
  · exact h3 _ (mem_comps.2 (.inr ⟨t, ht, rfl⟩)) (elements_ids _ _ e)

/-- As long as no list has been dropped. -/
theorem WInv.rendered (h : WInv r l D F W O) (hg : ∀ i, W.gone i = none) : W.Rendered O := by
  refine ⟨F.at_, fun c => ⟨h.paged.ninv.kids c, level2_top (h.paged.level c)⟩, ?_, ?_, ?_, ?_, h.filled_comp (mem_comps.2 (.inl rfl)),
    fun t ht => h.filled_comp (p := (t.stop, t.fut)) (mem_comps.2 (.inr ⟨t, ht, rfl⟩)), ?_⟩
  · intro c i x y m hm
    obtain ⟨L, hL, -⟩ := h.paged.ninv.known _ _ _ _ _ hm
    obtain ⟨L', hL', rfl⟩ := dyn_some.1 hL
    exact .inl ⟨L', hL', (h.paged.only hL hm).1⟩
  · rintro i L (hL | hL)
    · exact h.frag_element hL
    · rw [hg] at hL; cases hL
  · intro c n hc
    rw [← top_plain (h.paged.level c)]
    exact (h.paged.cells c .top n).2 (.inl ⟨rfl, hc⟩)
  · have hc := h.comps.each _ (mem_comps.2 (.inl rfl))
    rw [h.group] at hc
    refine h.own_eq hc.good hc.runs h.root.1 h.root.2 ?_
    intro g' hg' h4 h5
    rcases h.label g' with ⟨h6, -⟩ | ⟨h6, -, -⟩ | ⟨t, -, -, L, -, -, h6⟩
    · have := h.node
      rw [h6] at h4
      om
    · exact h6
    · rw [h5] at h6
      split at h6 <;> cases h6
  · intro i L hL
    have hd : W.dyn i = some L.list := dyn_some.2 ⟨L, hL, rfl⟩
    obtain ⟨f1, f2, m, e, hn1, hn2, hm1, hl1, hl2, hent, hhas, hkeys⟩ := h.paged.list hd
    have hnd := h.paged.nodup L.list.container
    have hnd' := hnd
    rw [e, Forest.flat_append, Forest.flat] at hnd
    simp only [List.nodup_append, List.nodup_cons, List.mem_append, List.mem_cons] at hnd
    refine ⟨?_, m, hhas, hent, ?_, ?_⟩
    · obtain ⟨h1, h2⟩ := h.here i L hL
      cases hc : L.ctx with
      | none => exact h1 hc
      | some ctx => simp only [Ctx.containingNode_eq]; exact (h2 ctx hc).1
    · intro k y f hkf
      obtain ⟨x, hx⟩ := itemsOf_content hm1 hkf
      have hentry : (k, (⟨x, y⟩ : Stored)) ∈ m.entries := mem_content hx
      have hym : y ∈ m.flat := stop_mem hentry
      rw [hent] at hentry
      have hseq : seq (.item y) .top (F.at_ L.list.container) = f.flat := by
        rw [e, seq_append, seq, seq_item_nil (f := f1) (fun hy => hnd.2.2 _ hy _ (.inr (.inl hym)) rfl) (by simp),
          seq_item_nil (f := f2) (fun hy => hnd.2.1.2.2.2 _ hym _ (.inr hy) rfl) (by simp), List.append_nil]
        exact item_nodes hm1 hnd.2.1.2.1 hkeys hx
      rw [← hseq]
      have honly : ∀ q ∈ seq (.item y) .top (F.at_ L.list.container),
          ∃ x ∈ D.shown, x.node = q ∧ x.group = y ∧ ∃ t ∈ W.tasks, t.stop = y := by
        intro q hq
        rcases (h.paged.cells _ _ q).1 hq with ⟨h1, -⟩ | ⟨x, hx, h1, h2, h3⟩
        · cases h1
        · refine ⟨x, hx, h1, ?_⟩
          rcases h.label x.group with ⟨-, h6⟩ | ⟨-, -, h6⟩ | ⟨t, ht, h7, L', -, -, h6⟩
          · rw [h3] at h6; cases h6
          · rw [h3] at h6; cases h6
          · rw [h3] at h6
            split at h6
            · have : y = x.group := by cases h6; rfl
              exact ⟨this.symm, t, ht, h7.trans this.symm⟩
            · cases h6
      simp only [Whole.itemTops]
      cases hy : W.task y with
      | none =>
        rw [List.eq_nil_iff_forall_not_mem]
        intro q hq
        obtain ⟨-, -, -, -, t, ht, rfl⟩ := honly q hq
        rw [h.task_eq ht] at hy
        cases hy
      | some t =>
        obtain ⟨ht, rfl⟩ := task_mem hy
        have hc := h.comps.each _ (mem_comps.2 (.inr ⟨t, ht, rfl⟩))
        simp only
        rw [← group_tops h.inv hc.good hc.runs]
        have hlive : t.live = true := by
          cases hl : t.live with
          | true => rfl
          | false => exact absurd hentry (h.dead t ht hl i k x (by rw [hL]; simp))
        obtain ⟨-, Lt, hLt, hat, hlab⟩ := h.tasks t ht
        obtain ⟨k', s', hks⟩ := h.live t ht hlive
        obtain ⟨e', -, -⟩ := h.paged.row_stop (dyn_some.2 ⟨Lt, hLt, rfl⟩) hd hks hentry
        rw [e', hL] at hLt
        cases hLt
        rw [if_pos hlive] at hlab
        have hs := h.paged.order h.inv t.stop
        rw [hat, hlab] at hs
        refine eq_of_sub hs ((seq_sublist _ _ _).nodup hnd') ?_
        intro q hq
        obtain ⟨z, hz, rfl, hg, -⟩ := honly q hq
        refine List.mem_map.2 ⟨(z.path.reverse, z.node), ?_, rfl⟩
        rw [← hg, h.inv.agree]
        simpa using hz
    · intro q
      have hseq : Verif.Whole.plain m = seq (.list i) .top (F.at_ L.list.container) := by
        rw [e, seq_append, seq, noList_seq hl1 hn1, noList_seq hl2 hn2, level1_loose hm1, loose_plain]
        simp
      rw [hseq, h.paged.cells]
      have hsh : ∀ t ∈ W.tasks, (q ∈ tops t.fut ↔ ∃ x ∈ D.shown, x.node = q ∧ x.group = t.stop) := by
        intro t ht
        have hc := h.comps.each _ (mem_comps.2 (.inr ⟨t, ht, rfl⟩))
        rw [tops_eq t.fut (.container t.stop t.stop), List.mem_map]
        constructor
        · rintro ⟨x, hx, rfl⟩
          obtain ⟨h1, h2⟩ := (hc.runs x).1 hx
          exact ⟨x, h1, rfl, h2⟩
        · rintro ⟨x, hx, h1, h2⟩
          exact ⟨x, (hc.runs x).2 ⟨hx, h2⟩, h1⟩
      constructor
      · rintro (⟨h1, -⟩ | ⟨x, hx, h1, h2, h3⟩)
        · cases h1
        · rcases h.label x.group with ⟨-, h6⟩ | ⟨-, -, h6⟩ | ⟨t, ht, h7, L', -, -, h6⟩
          · rw [h3] at h6; cases h6
          · rw [h3] at h6; cases h6
          · rw [h3] at h6
            split at h6
            · cases h6
            · rename_i hl
              have : i = t.list := by cases h6; rfl
              exact ⟨t, ht, this.symm, by simpa using hl, (hsh t ht).2 ⟨x, hx, h1, h7.symm⟩⟩
      · rintro ⟨t, ht, rfl, hl, hq⟩
        obtain ⟨x, hx, h1, h2⟩ := (hsh t ht).1 hq
        obtain ⟨-, L', hL', h3, h4⟩ := h.tasks t ht
        rw [hL] at hL'
        cases hL'
        rw [if_neg (by simp [hl])] at h4
        rw [← h2] at h3 h4
        exact .inr ⟨x, hx, h1, h3, h4⟩

theorem plain_forest (ns : List NodeId) : (Forest.plain ns).Level 2 ∧ seq .top .top (Forest.plain ns) = ns ∧
    (∀ κ, κ ≠ .top → seq κ .top (Forest.plain ns) = []) ∧ (∀ x, ¬ (Forest.plain ns).Marker x) ∧
    ∀ i x y m, ¬ (Forest.plain ns).Has i x y m := by
  induction ns with
  | nil => exact ⟨trivial, rfl, fun _ _ => rfl, fun _ h => h, fun _ _ _ _ h => h⟩
  | cons n ns ih =>
    obtain ⟨h1, h2, h3, h4, h5⟩ := ih
    refine ⟨h1, ?_, ?_, h4, h5⟩
    · show seq .top .top (Forest.node n _) = _
      rw [seq, if_pos rfl]
      exact congrArg (n :: ·) h2
    · intro κ hκ
      show seq κ .top (Forest.node n _) = _
      rw [seq, if_neg (fun e => hκ e.symm)]
      exact h3 κ hκ

theorem WInv.mount (app : Shape) (node : NodeId) (dom : Dom) (foreign : List (NodeId × NodeId))
    (next : Nat) (hd : Document dom foreign next) (hlow : ∀ c x, (c, x) ∈ foreign → c < next) (hn : node < next)
    (ha : app.Narrow) :
    WInv next ⟨fun g => if g = next then node else g, fun _ => .top⟩ ⟨[], foreign⟩ (Page.start dom)
      (Whole.mount app node dom foreign next) (fun _ => []) := by
  have hA := AppInv.mount app node dom foreign next hd hn ha
  have hP : (⟨fun g => if g = next then node else g, fun _ => .top⟩ : Lay).P = places next node := by
    funext g
    show ((if g = next then node else g), none) = if g = next then _ else _
    split <;> rfl
  have hnext : next < (Whole.mount app node dom foreign next).next := hA.loc.ctxLt.2
  refine ⟨rfl, hn, rfl, ?_, ?_, ?_, ?_, ⟨if_pos rfl, rfl⟩, ?_, ?_, ?_, ?_, ?_, ?_, ?_⟩
  · rw [hP]; exact hA.inv
  · refine ⟨ninv_start ⟨hd.once, ?_⟩, fun c => (plain_forest _).1, ?_, ?_, ?_, ?_, ?_⟩
    · intro c c' n h1 h2
      exact hd.parent c c' n ((hd.all c n).1 h1) ((hd.all c' n).1 h2)
    · intro c κ n
      by_cases hκ : κ = .top
      · subst hκ
        show n ∈ seq .top .top (Forest.plain (dom.kids c)) ↔ _
        rw [(plain_forest _).2.1, hd.all]
        simp [Whole.mount, App.mount]
      · show n ∈ seq κ .top (Forest.plain (dom.kids c)) ↔ _
        rw [(plain_forest _).2.2.1 κ hκ]
        simp [hκ]
    · intro c n
      constructor
      · exact fun h => .inl h
      · rintro (h | h)
        · exact h
        · exact absurd h ((plain_forest _).2.2.2.1 n)
    · intro c i x y m hm
      exact absurd hm ((plain_forest _).2.2.2.2 i x y m)
    · intro g y hg; cases hg
    · intro i L hL; cases hL
  · rw [hP]; exact hA.glob
  · have hc := Comp.of_local hA.loc hA.good rfl rfl
    refine ⟨?_, by simp [Whole.comps, Whole.mount], ?_, ?_⟩
    · intro p hp
      rcases mem_comps.1 hp with rfl | ⟨t, ht, -⟩
      · exact hc
      · cases ht
    · intro p hp q hq
      rcases mem_comps.1 hp with rfl | ⟨t, ht, -⟩
      · rcases mem_comps.1 hq with rfl | ⟨t, ht, -⟩
        · exact hc.gNot
        · cases ht
      · cases ht
    · intro p hp q hq hpq
      rcases mem_comps.1 hp with rfl | ⟨t, ht, -⟩
      · rcases mem_comps.1 hq with rfl | ⟨t, ht, -⟩
        · exact absurd rfl hpq
        · cases ht
      · cases ht
  · intro g hg
    refine ⟨if_neg ?_, rfl⟩
    rintro rfl
    exact hg (List.mem_map.2 ⟨_, mem_comps.2 (.inl rfl), rfl⟩)
  · intro t ht; cases ht
  · intro t ht; cases ht
  · intro t ht; cases ht
  · intro i L hL; cases hL
  · intro i L hL; cases hL
  · intro c x hx
    exact Nat.lt_trans (hlow c x hx) hnext

end

end Verif.Whole
