import Verif.Lists.NestCalls
import Verif.Lists.DynamicSteps3
/-! # The document is as described, step by step -/
namespace Verif.Lists
open Verif.Dom Forest

/-- the description fits the world -/
structure NInv (w : World) (F : Page) : Prop where
  proper : Proper w.dom
  kids : ∀ c, w.dom.kids c = (F.at_ c).flat
  clean : ∀ c, (F.at_ c).Clean
  known : ∀ c i x y m, (F.at_ c).Has i x y m → ∃ L, w.lists i = some L ∧ L.listStart = x ∧ L.listEnd = y ∧
    L.items.Perm m.entries ∧ m.keys.Nodup
  here : ∀ i L, w.lists i = some L → F.frag i = L.frag ∧ (∃ c m, (F.at_ c).Has i L.listStart L.listEnd m) ∧
    (L.container = L.frag → ∃ m, F.at_ L.frag = list i L.listStart L.listEnd m nil) ∧
    (L.container ≠ L.frag → F.at_ L.frag = nil)
  frags : ∀ i j L L', w.lists i = some L → w.lists j = some L' → i ≠ j → L.frag ≠ L'.frag

section
variable {w : World} {F : Page}

theorem NInv.one (h : NInv w F) {c c' : NodeId} {i : Nat} {x y x' y' : NodeId} {m m' : Forest}
    (h1 : (F.at_ c).Has i x y m) (h2 : (F.at_ c').Has i x' y' m') : c = c' ∧ x = x' := by
  obtain ⟨L, e1, e2, _⟩ := h.known _ _ _ _ _ h1
  obtain ⟨L', e1', e2', _⟩ := h.known _ _ _ _ _ h2
  rw [e1] at e1'
  cases e1'
  have hx : x = x' := e2.symm.trans e2'
  refine ⟨h.proper.2 c c' x ?_ ?_, hx⟩
  · rw [h.kids]; exact (has_mem h1).1
  · rw [h.kids, hx]; exact (has_mem h2).1

theorem NInv.frame (h : NInv w F) {c : NodeId} {i : Nat} {x y : NodeId} {m : Forest}
    (h1 : (F.at_ c).Has i x y m) :
    ∃ A B, (F.at_ c).flat = A ++ x :: (m.flat ++ y :: B) ∧
      (∀ g, ((F.at_ c).atList i g).flat = A ++ x :: ((g m).flat ++ y :: B)) ∧
      ((F.at_ c).cutList i).flat = A ++ B ∧ (F.at_ c).pickList i = list i x y m nil :=
  Forest.frame h1 (by rw [← h.kids]; exact h.proper.1 c) fun _ _ _ h2 => (h.one h2 h1).2

theorem NInv.inner (h : NInv w F) {c : NodeId} {i : Nat} {x y x' y' : NodeId} {m m' : Forest}
    (h1 : (F.at_ c).Has i x y m) (h2 : (F.at_ c).Has i x' y' m') : m = m' := by
  obtain ⟨_, _, _, _, _, e1⟩ := h.frame h1
  obtain ⟨_, _, _, _, _, e2⟩ := h.frame h2
  rw [e1] at e2
  cases e2
  rfl

/-- a list is not inside itself -/
theorem NInv.not_self (h : NInv w F) {c : NodeId} {i : Nat} {x y x' y' : NodeId} {m m' : Forest}
    (h1 : (F.at_ c).Has i x y m) : ¬ m.Has i x' y' m' := by
  intro h2
  have e := (h.one (has_inner h1 h2) h1).2
  obtain ⟨A, B, hf, _⟩ := h.frame h1
  have hn := h.proper.1 c
  rw [h.kids, hf, List.nodup_append, List.nodup_cons] at hn
  exact hn.2.1.1 (by rw [← e]; simp [(has_mem h2).1])

theorem ninv_call (h : NInv w F) {i : Nat} {c : Call} (ha : NAllowed w F (.call i c)) :
    ∃ L f w', w.lists i = some L ∧ (F.at_ L.container).Has i L.listStart L.listEnd f ∧
      nstep w (.call i c) = some (w', c.answer f) ∧ NInv w' (nspec F (.call i c)) := by
  obtain ⟨L, f, hL, hf, hok⟩ := ha
  obtain ⟨A, B, hfl, hat, -, -⟩ := h.frame hf
  obtain ⟨L', hL', -, -, hperm, hkeys⟩ := h.known _ _ _ _ _ hf
  rw [hL] at hL'
  cases hL'
  have hk := h.kids L.container
  rw [hfl] at hk
  obtain ⟨d', its, e1, k1, s1, p1, pm1, n1, has1, cl1⟩ := does h.proper hk hperm hkeys
    (clean_inner (h.clean _) hf) hok
  have hno : ∀ x, x ≠ L.container → ∀ a b m, ¬ (F.at_ x).Has i a b m :=
    fun x hx a b m hh => hx (h.one hh hf).1
  refine ⟨L, f, w.set d' i { L with items := its }, hL, hf, ?_, p1, ?_, ?_, ?_, ?_, ?_⟩
  · simp only [nstep, hL, e1, bind, Option.bind, pure]
  · intro x
    show d'.kids x = ((F.at_ x).atList i c.spec).flat
    by_cases hx : x = L.container
    · subst hx; rw [k1, hat]
    · rw [s1 x hx, atList_none (hno x hx)]; exact h.kids x
  · intro x
    show ((F.at_ x).atList i c.spec).Clean
    by_cases hx : x = L.container
    · subst hx
      have gen : ∀ q : Forest, q.Clean → (∀ a b m, q.Has i a b m → m = f) → (q.atList i c.spec).Clean := by
        intro q
        induction q with
        | nil => intro _ _; trivial
        | node n r ih => intro h1 h2; exact ih h1 h2
        | item k x y m r ih1 ih2 =>
          intro h1 h2
          exact ⟨by rw [entries_atList]; exact h1.1, ih1 h1.2.1 (fun a b m hh => h2 a b m (Or.inl hh)),
            ih2 h1.2.2 (fun a b m hh => h2 a b m (Or.inr hh))⟩
        | list j x y m r ih1 ih2 =>
          intro h1 h2
          refine ⟨?_, ih2 h1.2 (fun a b m hh => h2 a b m (Or.inr (Or.inr hh)))⟩
          show Clean (if j = i then c.spec m else m.atList i c.spec)
          split
          · rename_i hj
            rw [h2 x y m (Or.inl ⟨hj, rfl, rfl, rfl⟩)]; exact cl1
          · exact ih1 h1.1 (fun a b m hh => h2 a b m (Or.inr (Or.inl hh)))
      exact gen _ (h.clean _) fun a b m hh => h.inner hh hf
    · rw [atList_none (hno x hx)]; exact h.clean x
  · intro x j a b m hm
    show ∃ L1, (if j = i then some { L with items := its } else w.lists j) = some L1 ∧ _
    have hm' : ((F.at_ x).atList i c.spec).Has j a b m := hm
    rcases has_atList hm' with ⟨rfl, m0, h0, rfl⟩ | ⟨hne, m0, h0, he⟩ | ⟨x0, y0, m0, h0, h0'⟩
    · obtain ⟨rfl, -⟩ := h.one h0 hf
      obtain rfl := h.inner h0 hf
      obtain ⟨L1, hL1, e2, e3, _⟩ := h.known _ _ _ _ _ h0
      rw [hL] at hL1
      cases hL1
      refine ⟨_, if_pos rfl, e2, e3, pm1, ?_⟩
      exact ((pm1.map (·.1)).nodup_iff).1 n1
    · obtain ⟨L1, hL1, e2, e3, e4, e5⟩ := h.known _ _ _ _ _ h0
      refine ⟨L1, by rw [if_neg hne]; exact hL1, e2, e3, by rw [he]; exact e4, ?_⟩
      unfold keys; rw [he]; exact e5
    · obtain ⟨rfl, -⟩ := h.one h0 hf
      obtain rfl := h.inner h0 hf
      have h1 := (has1 _ _ _ _).1 h0'
      have hne : j ≠ i := by
        rintro rfl
        exact h.not_self h0 h1
      obtain ⟨L1, hL1, e2, e3, e4, e5⟩ := h.known _ _ _ _ _ (has_inner h0 h1)
      exact ⟨L1, by rw [if_neg hne]; exact hL1, e2, e3, e4, e5⟩
  · intro j L1 hL1
    have hL1' : (if j = i then some { L with items := its } else w.lists j) = some L1 := hL1
    have old : ∃ L2, w.lists j = some L2 ∧ L1.frag = L2.frag ∧ L1.container = L2.container ∧
        L1.listStart = L2.listStart ∧ L1.listEnd = L2.listEnd := by
      by_cases hj : j = i
      · subst hj
        rw [if_pos rfl] at hL1'
        cases hL1'
        exact ⟨L, hL, rfl, rfl, rfl, rfl⟩
      · rw [if_neg hj] at hL1'
        exact ⟨L1, hL1', rfl, rfl, rfl, rfl⟩
    obtain ⟨L2, hL2, o1, o2, o3, o4⟩ := old
    obtain ⟨g1, ⟨x, m, g2⟩, g3, g4⟩ := h.here j L2 hL2
    rw [o1, o2, o3, o4]
    refine ⟨g1, ?_, ?_, ?_⟩
    · obtain ⟨m', hm'⟩ := atList_has (i := i) (g := c.spec) g2 (by
        intro m0 x0 y0 h0 j' x' y' m' hh
        obtain ⟨rfl, -⟩ := h.one h0 hf
        obtain rfl := h.inner h0 hf
        exact (has1 _ _ _ _).2 hh)
      exact ⟨x, m', hm'⟩
    · intro hc
      obtain ⟨m0, hm0⟩ := g3 hc
      refine ⟨if j = i then c.spec m0 else m0.atList i c.spec, ?_⟩
      show (F.at_ L2.frag).atList i c.spec = _
      rw [hm0]; rfl
    · intro hc
      show (F.at_ L2.frag).atList i c.spec = _
      rw [g4 hc]; rfl
  · intro j1 j2 L1 L2 h1 h2 hne
    have h1' : (if j1 = i then some { L with items := its } else w.lists j1) = some L1 := h1
    have h2' : (if j2 = i then some { L with items := its } else w.lists j2) = some L2 := h2
    have old : ∀ j L1, (if j = i then some { L with items := its } else w.lists j) = some L1 →
        ∃ L2, w.lists j = some L2 ∧ L1.frag = L2.frag := by
      intro j L1 hL1
      by_cases hj : j = i
      · subst hj
        rw [if_pos rfl] at hL1
        cases hL1
        exact ⟨L, hL, rfl⟩
      · rw [if_neg hj] at hL1
        exact ⟨L1, hL1, rfl⟩
    obtain ⟨L3, a1, a2⟩ := old _ _ h1'
    obtain ⟨L4, b1, b2⟩ := old _ _ h2'
    rw [a2, b2]
    exact h.frags _ _ _ _ a1 b1 hne

/-- the list `i` is the same except for its container -/
theorem set_old {i : Nat} {L : DynList} {d : Dom} {p : NodeId} {j : Nat} {L1 : DynList}
    (h : (w.set d i { L with container := p }).lists j = some L1) :
    (j = i ∧ L1 = { L with container := p }) ∨ (j ≠ i ∧ w.lists j = some L1) := by
  have h' : (if j = i then some { L with container := p } else w.lists j) = some L1 := h
  by_cases hj : j = i
  · rw [if_pos hj] at h'; cases h'; exact Or.inl ⟨hj, rfl⟩
  · rw [if_neg hj] at h'; exact Or.inr ⟨hj, h'⟩

theorem set_new {i : Nat} {L : DynList} (hL : w.lists i = some L) (d : Dom) (p : NodeId) {j : Nat} {L1 : DynList}
    (h : w.lists j = some L1) : ∃ L2, (w.set d i { L with container := p }).lists j = some L2 ∧
      L2.listStart = L1.listStart ∧ L2.listEnd = L1.listEnd ∧ L2.items = L1.items := by
  by_cases hj : j = i
  · subst hj
    rw [hL] at h
    cases h
    exact ⟨_, if_pos rfl, rfl, rfl, rfl⟩
  · exact ⟨L1, by rw [← h]; exact if_neg hj, rfl, rfl, rfl⟩

theorem set_frags (h : NInv w F) {i : Nat} {L : DynList} (hL : w.lists i = some L) (d : Dom) (p : NodeId) :
    ∀ j1 j2 L1 L2, (w.set d i { L with container := p }).lists j1 = some L1 →
      (w.set d i { L with container := p }).lists j2 = some L2 → j1 ≠ j2 → L1.frag ≠ L2.frag := by
  intro j1 j2 L1 L2 h1 h2 hne
  rcases set_old h1 with ⟨rfl, rfl⟩ | ⟨n1, g1⟩
  · rcases set_old h2 with ⟨rfl, rfl⟩ | ⟨n2, g2⟩
    · exact absurd rfl hne
    · exact h.frags _ _ L L2 hL g2 hne
  · rcases set_old h2 with ⟨rfl, rfl⟩ | ⟨n2, g2⟩
    · exact h.frags _ _ L1 L g1 hL hne
    · exact h.frags _ _ _ _ g1 g2 hne

/-- if every list is where it was with the same items, the description stays right about the lists -/
theorem known_of {w' : World} {F' : Page} (h : NInv w F)
    (hl : ∀ j L, w.lists j = some L → ∃ L', w'.lists j = some L' ∧ L'.listStart = L.listStart ∧
      L'.listEnd = L.listEnd ∧ L'.items = L.items)
    (hh : ∀ c i x y m, (F'.at_ c).Has i x y m → ∃ c0 m0, (F.at_ c0).Has i x y m0 ∧ m.entries = m0.entries) :
    ∀ c i x y m, (F'.at_ c).Has i x y m → ∃ L, w'.lists i = some L ∧ L.listStart = x ∧ L.listEnd = y ∧
      L.items.Perm m.entries ∧ m.keys.Nodup := by
  intro c i x y m hm
  obtain ⟨c0, m0, h0, he⟩ := hh c i x y m hm
  obtain ⟨L, e1, e2, e3, e4, e5⟩ := h.known _ _ _ _ _ h0
  obtain ⟨L', g1, g2, g3, g4⟩ := hl i L e1
  refine ⟨L', g1, g2.trans e2, g3.trans e3, by rw [g4, he]; exact e4, ?_⟩
  unfold keys; rw [he]; exact e5

/-! ## rendering -/

theorem tok_render {d : Dom} {L : DynList} {p : NodeId} {a : Option NodeId} {M A B : List NodeId} (hp : Proper d)
    (hc : L.container = L.frag) (hf : d.kids L.frag = L.listStart :: (M ++ [L.listEnd])) (hpf : p ≠ L.frag)
    (hk : d.kids p = A ++ B) (ha : (a = none ∧ B = []) ∨ ∃ q B', a = some q ∧ B = q :: B') :
    ∃ d', render d L p a = some (d', { L with container := p }) ∧ d'.kids p = A ++ L.listStart :: (M ++ L.listEnd :: B) ∧
      d'.kids L.frag = [] ∧ (∀ x, x ≠ p → x ≠ L.frag → d'.kids x = d.kids x) ∧ Proper d' := by
  have hnd := hp.1 L.frag
  rw [hf, List.nodup_cons, List.nodup_append] at hnd
  have hsp : ∀ n ∈ d.kids L.frag, ∀ x, x ≠ L.frag → n ∉ d.kids x := by
    intro n hn x hx hn'; exact hx (hp.2 _ _ _ hn' hn)
  have hlsm : L.listStart ∈ d.kids L.frag := by rw [hf]; simp
  have hlem : L.listEnd ∈ d.kids L.frag := by rw [hf]; simp
  have hls : L.listStart ∉ d.kids p := hsp _ hlsm p hpf
  have hle : L.listEnd ∉ d.kids p := hsp _ hlem p hpf
  have hne : L.listEnd ≠ L.listStart := by
    intro e; exact hnd.1 (by rw [← e]; simp)
  obtain ⟨d1, e1, k1, f1⟩ : ∃ d1, d.insertBefore p L.listStart a = some d1 ∧
      d1.kids p = A ++ L.listStart :: B ∧ ∀ x, x ≠ p → d1.kids x = (d.kids x).filter (· != L.listStart) := by
    rcases ha with ⟨rfl, rfl⟩ | ⟨q, B', rfl, rfl⟩
    · refine ⟨⟨fun x => if x = p then (d.detach L.listStart).kids x ++ [L.listStart]
        else (d.detach L.listStart).kids x⟩, rfl, ?_, ?_⟩
      · simp only [if_true, Dom.detach]; rw [filter_ne_self hls, hk]; simp
      · intro x hx; simp only [if_neg hx]; rfl
    · have hn := hp.1 p
      rw [hk] at hn
      exact insert_new hk (notMem_of_nodup hn) hls
  have p1 := proper_insert hp e1
  have hfrag1 : d1.kids L.frag = M ++ [L.listEnd] := by
    rw [f1 _ (fun e => hpf e.symm), hf, List.filter_cons, filter_ne_self hnd.1]; simp
  rw [hk] at hls hle
  simp only [List.mem_append, not_or] at hls hle
  have hle1 : L.listEnd ∉ d1.kids p := by
    rw [k1]
    simp only [List.mem_append, List.mem_cons, not_or]
    exact ⟨hle.1, hne, hle.2⟩
  obtain ⟨d2, e2, k2, f2⟩ := insert_new k1 hls.1 hle1
  have p2 := proper_insert p1 e2
  have hfrag2 : d2.kids L.frag = M := by
    rw [f2 _ (fun e => hpf e.symm), hfrag1, List.filter_append,
      filter_ne_self (fun h => hnd.2.2.2 _ h _ (by simp) rfl)]
    simp
  obtain ⟨d3, e3, k3, f3⟩ := removeChild_kids (d := d2) (c := p) (n := L.listStart) (by rw [k2]; simp)
  have p3 := proper_remove p2 e3
  have k3' : d3.kids p = A ++ L.listEnd :: B := by
    rw [k3, k2, List.filter_append, List.filter_cons, List.filter_cons, filter_ne_self hls.1, filter_ne_self hls.2]
    simp [hne]
  obtain ⟨d4, e4, k4, f4⟩ := insert_new (n := L.listStart) k3' hle.1 (by
    rw [k3']; simp only [List.mem_append, List.mem_cons, not_or]
    exact ⟨hls.1, fun e => hne e.symm, hls.2⟩)
  have p4 := proper_insert p3 e4
  have hlsf : L.listStart ∉ M := fun h => hnd.1 (by simp only [List.mem_append]; exact Or.inl h)
  have hfrag4 : d4.kids L.frag = M := by
    rw [f4 _ (fun e => hpf e.symm), f3 _ (fun e => hpf e.symm), hfrag2, filter_ne_self hlsf]
  obtain ⟨d5, e5, k5, p5, f5⟩ := insertAll_geo (p := p) (r := L.listEnd) M d4 (A ++ [L.listStart]) B
    (by rw [k4]; simp) p4 (by
      intro n hn hn'
      exact hpf (p4.2 _ _ _ hn' (by rw [hfrag4]; exact hn))) hnd.2.1
  refine ⟨d5, ?_, by rw [k5]; simp, ?_, ?_, p5⟩
  · simp only [render, e1, e2, e3, e4, hfrag4, e5, bind, Option.bind, pure, hc, if_true]
  · rw [f5 _ (fun e => hpf e.symm), hfrag4, List.filter_eq_nil_iff]
    intro y hy
    simpa using hy
  · intro x hx hxf
    have s1 : L.listStart ∉ d.kids x := hsp _ hlsm x hxf
    have s2 : L.listEnd ∉ d.kids x := hsp _ hlem x hxf
    have g4 : d4.kids x = d.kids x := by
      rw [f4 x hx, f3 x hx, f2 x hx, f1 x hx, filter_ne_self s1, filter_ne_self s2, filter_ne_self s1]
    rw [f5 x hx, g4, List.filter_eq_self]
    intro n hn
    simp only [Bool.not_eq_eq_eq_not, Bool.not_true, List.contains_eq_mem, decide_eq_false_iff_not]
    intro hnM
    exact hsp n (by rw [hf]; simp [hnM]) x hxf hn

theorem flat_place {p f : Forest} {a : Option NodeId} (hnd : f.flat.Nodup) (ha : ∀ r, a = some r → r ∈ f.flat) :
    ∃ A B, f.flat = A ++ B ∧ ((a = none ∧ B = []) ∨ ∃ q B', a = some q ∧ B = q :: B') ∧
      (Forest.place p a f).flat = A ++ p.flat ++ B := by
  cases a with
  | none => exact ⟨f.flat, [], by simp, Or.inl ⟨rfl, rfl⟩, by simp [Forest.place]⟩
  | some r =>
    obtain ⟨A, B, e⟩ := List.append_of_mem (ha r rfl)
    exact ⟨A, r :: B, e, Or.inr ⟨r, B, rfl, rfl⟩, flat_before e hnd⟩

theorem has_place {p f m : Forest} (hp : p.entries = []) {a : Option NodeId} {j : Nat} {x y : NodeId}
    (h : (Forest.place p a f).Has j x y m) : p.Has j x y m ∨ ∃ m0, f.Has j x y m0 ∧ m.entries = m0.entries := by
  cases a with
  | none =>
    simp only [Forest.place, has_append] at h
    rcases h with h | h
    · exact Or.inr ⟨m, h, rfl⟩
    · exact Or.inl h
  | some r => exact has_before hp h

theorem place_has {p f m : Forest} {a : Option NodeId} {j : Nat} {x y : NodeId} (h : f.Has j x y m) :
    ∃ m', (Forest.place p a f).Has j x y m' := by
  cases a with
  | none => exact ⟨m, by simp only [Forest.place, has_append]; exact Or.inl h⟩
  | some r => exact before_has h

theorem place_put {p f m : Forest} {a : Option NodeId} {j : Nat} {x y : NodeId} (h : p.Has j x y m)
    (ha : ∀ r, a = some r → r ∈ f.flat) : (Forest.place p a f).Has j x y m := by
  cases a with
  | none => simp only [Forest.place, has_append]; exact Or.inr h
  | some r => exact before_put h (ha r rfl)

theorem clean_place {p f : Forest} (hp : p.entries = []) (hc : p.Clean) {a : Option NodeId} (hf : f.Clean) :
    (Forest.place p a f).Clean := by
  cases a with
  | none => simp only [Forest.place, clean_append]; exact ⟨hf, hc⟩
  | some r => exact clean_before hp hc hf

theorem ninv_render (h : NInv w F) {i : Nat} {p : NodeId} {a : Option NodeId} (ha : NAllowed w F (.render i p a)) :
    ∃ w', nstep w (.render i p a) = some (w', none) ∧ NInv w' (nspec F (.render i p a)) := by
  obtain ⟨L, hL, hcf, hpf, hr⟩ := ha
  obtain ⟨g1, -, g3, -⟩ := h.here i L hL
  obtain ⟨f, hF⟩ := g3 hcf
  have hpf' : p ≠ L.frag := fun e => hpf i L hL e.symm
  have hkf := h.kids L.frag
  rw [hF] at hkf
  have hndp : (F.at_ p).flat.Nodup := by rw [← h.kids]; exact h.proper.1 p
  have har : ∀ r, a = some r → r ∈ (F.at_ p).flat := fun r e => by rw [← h.kids]; exact hr r e
  obtain ⟨A, B, e1, e2, e3⟩ := flat_place (p := list i L.listStart L.listEnd f nil) hndp har
  obtain ⟨d', h1, h2, h3, h4, h5⟩ := tok_render (M := f.flat) h.proper hcf (by rw [hkf]; simp [Forest.flat]) hpf'
    ((h.kids p).trans e1) e2
  have hat : ∀ x, (nspec F (.render i p a)).at_ x = if x = L.frag then nil else
      if x = p then Forest.place (list i L.listStart L.listEnd f nil) a (F.at_ p) else F.at_ x := by
    intro x
    simp only [nspec, Page.set, g1, hF]
  have hen : (list i L.listStart L.listEnd f nil).entries = [] := rfl
  have hhf : (F.at_ L.frag).Has i L.listStart L.listEnd f := by rw [hF]; exact Or.inl ⟨rfl, rfl, rfl, rfl⟩
  refine ⟨w.set d' i { L with container := p }, ?_, h5, ?_, ?_, ?_, ?_, set_frags h hL d' p⟩
  · simp only [nstep, hL, h1, bind, Option.bind, pure]
  · intro x
    rw [hat x]
    show d'.kids x = _
    by_cases hx : x = L.frag
    · rw [if_pos hx, hx, h3]; rfl
    · rw [if_neg hx]
      by_cases hxp : x = p
      · rw [if_pos hxp, hxp, h2, e3]; simp [Forest.flat]
      · rw [if_neg hxp, h4 x hxp hx]; exact h.kids x
  · intro x
    rw [hat x]
    split
    · trivial
    · split
      · refine clean_place hen ⟨?_, trivial⟩ (h.clean p)
        have := h.clean L.frag
        rw [hF] at this
        exact this.1
      · exact h.clean x
  · refine known_of h (fun j L1 hj => set_new hL d' p hj) ?_
    intro c j x y m hm
    rw [hat c] at hm
    split at hm
    · cases hm
    · split at hm
      · rcases has_place hen hm with hm | ⟨m0, h0, h0'⟩
        · exact ⟨L.frag, m, by rw [hF]; exact hm, rfl⟩
        · exact ⟨p, m0, h0, h0'⟩
      · exact ⟨c, m, hm, rfl⟩
  · intro j L1 hj
    have hex : ∀ c m x y, (F.at_ c).Has j x y m →
        ∃ c m, ((nspec F (.render i p a)).at_ c).Has j x y m := by
      intro c m x y hm
      by_cases hc : c = L.frag
      · refine ⟨p, m, ?_⟩
        rw [hat p, if_neg hpf', if_pos rfl]
        refine place_put ?_ har
        rw [← hF, ← hc]; exact hm
      · by_cases hcp : c = p
        · obtain ⟨m', hm'⟩ := place_has (p := list i L.listStart L.listEnd f nil) (a := a) (hcp ▸ hm)
          exact ⟨p, m', by rw [hat p, if_neg hpf', if_pos rfl]; exact hm'⟩
        · exact ⟨c, m, by rw [hat c, if_neg hc, if_neg hcp]; exact hm⟩
    rcases set_old hj with ⟨rfl, rfl⟩ | ⟨hne, hj'⟩
    · refine ⟨g1, hex _ _ _ _ hhf, fun e => absurd e hpf', fun _ => ?_⟩
      rw [hat, if_pos rfl]
    · obtain ⟨o1, ⟨c, m, o2⟩, o3, o4⟩ := h.here j L1 hj'
      have n1 : L1.frag ≠ L.frag := h.frags _ _ _ _ hj' hL hne
      have n2 : L1.frag ≠ p := hpf j L1 hj'
      refine ⟨o1, hex _ _ _ _ o2, ?_, ?_⟩
      · intro hc; rw [hat, if_neg n1, if_neg n2]; exact o3 hc
      · intro hc; rw [hat, if_neg n1, if_neg n2]; exact o4 hc

/-! ## the end of a rendering -/

theorem ninv_unrender (h : NInv w F) {i : Nat} {src : NodeId} (ha : NAllowed w F (.unrender i src)) :
    ∃ w', nstep w (.unrender i src) = some (w', none) ∧ NInv w' (nspec F (.unrender i src)) := by
  obtain ⟨L, hL, hcf, hsrc⟩ := ha
  obtain ⟨g1, ⟨c, f, g2⟩, -, g4⟩ := h.here i L hL
  have hF := g4 hcf
  obtain rfl : c = src := h.proper.2 c src L.listStart (by rw [h.kids]; exact (has_mem g2).1) hsrc
  have hsf : c ≠ L.frag := by
    rintro rfl
    rw [hF] at g2
    cases g2
  obtain ⟨A, B, f1, -, f3, f4⟩ := h.frame g2
  have hk : w.dom.kids c = A ++ (L.listStart :: (f.flat ++ [L.listEnd])) ++ B := by
    rw [h.kids, f1]; simp
  have hk0 : w.dom.kids L.frag = [] := by rw [h.kids, hF]; rfl
  obtain ⟨d', e1, k1, fr1⟩ := moveLoop_out hsf _ ((w.dom.kids c).length + 1) w.dom A B _ _ rfl hk
    (h.proper.1 _) (by rw [hk0]; intro n _ h; cases h) (getLast_block _ _ _)
    (by rw [hk]; simp only [List.length_append]; omega)
  have hat : ∀ x, (nspec F (.unrender i c)).at_ x = if x = L.frag then list i L.listStart L.listEnd f nil else
      if x = c then (F.at_ c).cutList i else F.at_ x := by
    intro x
    simp only [nspec, Page.set, g1, f4]
  refine ⟨w.set d' i { L with container := L.frag }, ?_, proper_move _ h.proper e1, ?_, ?_, ?_, ?_,
    set_frags h hL d' L.frag⟩
  · simp only [nstep, hL, unrenderAt, moveNodes, e1, bind, Option.bind, pure]
  · intro x
    rw [hat x]
    show d'.kids x = _
    by_cases hx : x = L.frag
    · rw [if_pos hx, hx, k1, hk0]; simp [Forest.flat]
    · rw [if_neg hx, fr1 x hx]
      by_cases hxc : x = c
      · subst hxc
        rw [if_pos rfl, f3, hk]
        have hn := h.proper.1 x
        rw [hk] at hn
        have hA : ∀ n ∈ A, n ∉ L.listStart :: (f.flat ++ [L.listEnd]) := by
          intro n hn1 hn2
          rw [List.append_assoc, List.nodup_append] at hn
          exact hn.2.2 n hn1 n (List.mem_append_left _ hn2) rfl
        have hB : ∀ n ∈ B, n ∉ L.listStart :: (f.flat ++ [L.listEnd]) := by
          intro n hn1 hn2
          rw [List.nodup_append] at hn
          exact hn.2.2 n (List.mem_append_right _ hn2) n hn1 rfl
        have f1 : A.filter (fun y => !(L.listStart :: (f.flat ++ [L.listEnd])).contains y) = A :=
          List.filter_eq_self.2 (fun n hn => by simpa using hA n hn)
        have f2 : B.filter (fun y => !(L.listStart :: (f.flat ++ [L.listEnd])).contains y) = B :=
          List.filter_eq_self.2 (fun n hn => by simpa using hB n hn)
        have f3 : (L.listStart :: (f.flat ++ [L.listEnd])).filter
            (fun y => !(L.listStart :: (f.flat ++ [L.listEnd])).contains y) = [] :=
          List.filter_eq_nil_iff.2 (fun n hn => by
            have : (L.listStart :: (f.flat ++ [L.listEnd])).contains n = true := by
              rw [List.contains_iff_mem]; exact hn
            rw [this]; simp)
        rw [List.filter_append, List.filter_append, f1, f2, f3]
        simp
      · rw [if_neg hxc, ← h.kids x, List.filter_eq_self]
        intro n hn
        simp only [Bool.not_eq_eq_eq_not, Bool.not_true, List.contains_eq_mem, decide_eq_false_iff_not]
        intro hnb
        exact hxc (h.proper.2 x c n hn (by rw [hk]; exact List.mem_append_left _ (List.mem_append_right _ hnb)))
  · intro x
    rw [hat x]
    split
    · exact ⟨clean_inner (h.clean c) g2, trivial⟩
    · split
      · exact clean_cutList (h.clean c)
      · exact h.clean x
  · refine known_of h (fun j L1 hj => set_new hL d' L.frag hj) ?_
    intro x j a b m hm
    rw [hat x] at hm
    split at hm
    · rcases hm with ⟨rfl, rfl, rfl, rfl⟩ | hm | hm
      · exact ⟨c, _, g2, rfl⟩
      · exact ⟨c, m, has_inner g2 hm, rfl⟩
      · cases hm
    · split at hm
      · obtain ⟨-, m0, h0, h0'⟩ := has_cutList hm
        exact ⟨c, m0, h0, h0'⟩
      · exact ⟨x, m, hm, rfl⟩
  · intro j L1 hj
    rcases set_old hj with ⟨rfl, rfl⟩ | ⟨hne, hj'⟩
    · refine ⟨g1, ⟨L.frag, f, ?_⟩, fun _ => ⟨f, ?_⟩, fun e => absurd rfl e⟩
      · rw [hat, if_pos rfl]; exact Or.inl ⟨rfl, rfl, rfl, rfl⟩
      · show (nspec F (.unrender j c)).at_ L.frag = _
        rw [hat, if_pos rfl]
    · obtain ⟨o1, ⟨x, m, o2⟩, o3, o4⟩ := h.here j L1 hj'
      have n1 : L1.frag ≠ L.frag := h.frags _ _ _ _ hj' hL hne
      refine ⟨o1, ?_, ?_, ?_⟩
      · by_cases hxf : x = L.frag
        · rw [hxf, hF] at o2; cases o2
        · by_cases hxc : x = c
          · subst hxc
            rcases cutList_has (i := i) o2 with ⟨x', y', m', h1, h2⟩ | ⟨m', h1⟩
            · obtain rfl := h.inner h1 g2
              rcases h2 with ⟨e, -⟩ | h2
              · exact absurd e hne
              · exact ⟨L.frag, m, by rw [hat, if_pos rfl]; exact Or.inr (Or.inl h2)⟩
            · exact ⟨x, m', by rw [hat, if_neg hsf, if_pos rfl]; exact h1⟩
          · exact ⟨x, m, by rw [hat, if_neg hxf, if_neg hxc]; exact o2⟩
      · intro hc
        obtain ⟨m0, hm0⟩ := o3 hc
        rw [hat, if_neg n1]
        split
        · rename_i e
          refine ⟨m0.cutList i, ?_⟩
          rw [← e, hm0]
          simp only [cutList]
          rw [if_neg hne]
        · exact ⟨m0, hm0⟩
      · intro hc
        rw [hat, if_neg n1, if_neg]
        · exact o4 hc
        · intro e
          have := o4 hc
          rw [e] at this
          rw [this] at g2
          cases g2

/-! ## the rest of the program -/

theorem ninv_place (h : NInv w F) {c n : NodeId} {r : Option NodeId} (ha : NAllowed w F (.place c n r)) :
    ∃ w', nstep w (.place c n r) = some (w', none) ∧ NInv w' (nspec F (.place c n r)) := by
  obtain ⟨hcf, hmk, hrn, hr⟩ := ha
  have hcut : ∀ x, ((F.at_ x).cutNode n).flat = (w.dom.kids x).filter (· != n) := fun x => by
    rw [flat_cutNode (hmk x), h.kids]
  have hnd : ((F.at_ c).cutNode n).flat.Nodup := by rw [hcut]; exact (h.proper.1 c).filter _
  have har : ∀ q, r = some q → q ∈ ((F.at_ c).cutNode n).flat := by
    intro q e
    rw [hcut, List.mem_filter]
    refine ⟨hr q e, ?_⟩
    simp only [bne_iff_ne, ne_eq]
    rintro rfl; exact hrn e
  obtain ⟨d', e1, k1, s1⟩ : ∃ d', w.dom.insertBefore c n r = some d' ∧
      d'.kids c = (Forest.place (node n nil) r ((F.at_ c).cutNode n)).flat ∧
      ∀ x, x ≠ c → d'.kids x = (w.dom.kids x).filter (· != n) := by
    cases r with
    | none =>
      refine ⟨_, rfl, ?_, ?_⟩
      · simp only [if_true, Dom.detach, Forest.place, flat_append, hcut]; rfl
      · intro x hx; simp only [if_neg hx, Dom.detach]
    | some q =>
      have hqn : q ≠ n := fun e => hrn (by rw [e])
      obtain ⟨d', e1, k1, s1⟩ := insertBefore_kids (n := n) (hr q rfl) hqn
      refine ⟨d', e1, ?_, s1⟩
      obtain ⟨A, B, e⟩ := List.append_of_mem (har q rfl)
      rw [e] at hnd
      have hq := notMem_of_nodup hnd
      rw [k1, ← hcut, e, insertBeforeIn_split n hq]
      simp only [Forest.place]
      rw [flat_before e (by rw [e]; exact hnd)]
      simp [Forest.flat]
  have hat : ∀ x, (nspec F (.place c n r)).at_ x = if x = c then Forest.place (node n nil) r ((F.at_ c).cutNode n)
      else (F.at_ x).cutNode n := by
    intro x
    simp only [nspec]
    split
    · rename_i e; rw [e]
    · rfl
  refine ⟨⟨d', w.lists⟩, ?_, proper_insert h.proper e1, ?_, ?_, ?_, ?_, h.frags⟩
  · simp only [nstep, e1, Option.map_some]
  · intro x
    rw [hat x]
    show d'.kids x = _
    by_cases hx : x = c
    · rw [if_pos hx, hx, k1]
    · rw [if_neg hx, s1 x hx, hcut]
  · intro x
    rw [hat x]
    split
    · exact clean_place (p := node n nil) rfl trivial (clean_cutNode (h.clean c))
    · exact clean_cutNode (h.clean x)
  · refine known_of h (fun j L hj => ⟨L, hj, rfl, rfl, rfl⟩) ?_
    intro x j a b m hm
    rw [hat x] at hm
    split at hm
    · rcases has_place (p := node n nil) rfl hm with hm | ⟨m0, h0, h0'⟩
      · cases hm
      · obtain ⟨m1, h1, h1'⟩ := has_cutNode h0
        exact ⟨c, m1, h1, h0'.trans h1'⟩
    · obtain ⟨m1, h1, h1'⟩ := has_cutNode hm
      exact ⟨x, m1, h1, h1'⟩
  · intro j L hj
    obtain ⟨o1, ⟨x, m, o2⟩, o3, o4⟩ := h.here j L hj
    have n1 : L.frag ≠ c := hcf j L hj
    refine ⟨o1, ?_, ?_, ?_⟩
    · have h1 := cutNode_has (n := n) o2
      by_cases hx : x = c
      · subst hx
        obtain ⟨m', hm'⟩ := place_has (p := node n nil) (a := r) h1
        exact ⟨x, m', by rw [hat, if_pos rfl]; exact hm'⟩
      · exact ⟨x, _, by rw [hat, if_neg hx]; exact h1⟩
    · intro hc
      obtain ⟨m0, hm0⟩ := o3 hc
      refine ⟨m0.cutNode n, ?_⟩
      rw [hat, if_neg n1, hm0]; rfl
    · intro hc
      rw [hat, if_neg n1, o4 hc]; rfl

theorem ninv_vanish (h : NInv w F) {c n : NodeId} (ha : NAllowed w F (.vanish c n)) :
    ∃ w', nstep w (.vanish c n) = some (w', none) ∧ NInv w' (nspec F (.vanish c n)) := by
  obtain ⟨hn, hmk⟩ := ha
  obtain ⟨d', e1, k1, s1⟩ := removeChild_kids hn
  have hat : ∀ x, (nspec F (.vanish c n)).at_ x = if x = c then (F.at_ c).cutNode n else F.at_ x := fun x => rfl
  refine ⟨⟨d', w.lists⟩, ?_, proper_remove h.proper e1, ?_, ?_, ?_, ?_, h.frags⟩
  · simp only [nstep, e1, Option.map_some]
  · intro x
    rw [hat x]
    show d'.kids x = _
    by_cases hx : x = c
    · rw [if_pos hx, hx, k1, flat_cutNode (hmk c), h.kids]
    · rw [if_neg hx, s1 x hx]; exact h.kids x
  · intro x
    rw [hat x]
    split
    · exact clean_cutNode (h.clean c)
    · exact h.clean x
  · refine known_of h (fun j L hj => ⟨L, hj, rfl, rfl, rfl⟩) ?_
    intro x j a b m hm
    rw [hat x] at hm
    split at hm
    · obtain ⟨m1, h1, h1'⟩ := has_cutNode hm
      exact ⟨c, m1, h1, h1'⟩
    · exact ⟨x, m, hm, rfl⟩
  · intro j L hj
    obtain ⟨o1, ⟨x, m, o2⟩, o3, o4⟩ := h.here j L hj
    refine ⟨o1, ?_, ?_, ?_⟩
    · by_cases hx : x = c
      · subst hx
        exact ⟨x, _, by rw [hat, if_pos rfl]; exact cutNode_has (n := n) o2⟩
      · exact ⟨x, m, by rw [hat, if_neg hx]; exact o2⟩
    · intro hc
      obtain ⟨m0, hm0⟩ := o3 hc
      rw [hat]
      split
      · rename_i e
        exact ⟨m0.cutNode n, by rw [← e, hm0]; rfl⟩
      · exact ⟨m0, hm0⟩
    · intro hc
      rw [hat]
      split
      · rename_i e
        rw [← e, o4 hc]; rfl
      · exact o4 hc

theorem ninv_create (h : NInv w F) {i : Nat} {frag x y : NodeId} (ha : NAllowed w F (.create i frag x y)) :
    ∃ w', nstep w (.create i frag x y) = some (w', none) ∧ NInv w' (nspec F (.create i frag x y)) := by
  obtain ⟨hi, hF, hfr, hx, hy, hne⟩ := ha
  have hk0 : w.dom.kids frag = [] := by rw [h.kids, hF]; rfl
  obtain ⟨d1, e1, k1, s1⟩ : ∃ d1, w.dom.insertBefore frag x none = some d1 ∧ d1.kids frag = [x] ∧
      ∀ z, z ≠ frag → d1.kids z = (w.dom.kids z).filter (· != x) := by
    refine ⟨_, rfl, ?_, ?_⟩
    · simp [Dom.detach, hk0]
    · intro z hz; simp only [if_neg hz, Dom.detach]
  have p1 := proper_insert h.proper e1
  obtain ⟨d2, e2, k2, s2⟩ : ∃ d2, d1.insertBefore frag y none = some d2 ∧ d2.kids frag = [x, y] ∧
      ∀ z, z ≠ frag → d2.kids z = (d1.kids z).filter (· != y) := by
    refine ⟨_, rfl, ?_, ?_⟩
    · simp [Dom.detach, k1, hne]
    · intro z hz; simp only [if_neg hz, Dom.detach]
  have p2 := proper_insert p1 e2
  have same : ∀ z, z ≠ frag → d2.kids z = w.dom.kids z := by
    intro z hz
    rw [s2 z hz, s1 z hz, filter_ne_self (hx z), filter_ne_self (hy z)]
  have hat : ∀ z, (nspec F (.create i frag x y)).at_ z = if z = frag then list i x y nil nil else F.at_ z := fun z => rfl
  have hl : ∀ j, (w.set d2 i ⟨[], frag, frag, x, y⟩).lists j = if j = i then some ⟨[], frag, frag, x, y⟩ else w.lists j :=
    fun j => rfl
  have hni : ∀ j L, w.lists j = some L → j ≠ i := by
    rintro j L hj rfl; rw [hi] at hj; cases hj
  refine ⟨w.set d2 i ⟨[], frag, frag, x, y⟩, ?_, p2, ?_, ?_, ?_, ?_, ?_⟩
  · simp only [nstep, Lists.new, e1, e2, bind, Option.bind, pure, Option.map_some]
  · intro z
    rw [hat z]
    show d2.kids z = _
    by_cases hz : z = frag
    · rw [if_pos hz, hz, k2]; rfl
    · rw [if_neg hz, same z hz]; exact h.kids z
  · intro z
    rw [hat z]
    split
    · exact ⟨trivial, trivial⟩
    · exact h.clean z
  · intro z j a b m hm
    rw [hat z] at hm
    rw [hl j]
    split at hm
    · rcases hm with ⟨rfl, rfl, rfl, rfl⟩ | hm | hm
      · exact ⟨_, if_pos rfl, rfl, rfl, List.Perm.refl _, List.nodup_nil⟩
      · cases hm
      · cases hm
    · obtain ⟨L, e1, e2⟩ := h.known _ _ _ _ _ hm
      exact ⟨L, by rw [if_neg (hni j L e1)]; exact e1, e2⟩
  · intro j L hj
    rw [hl j] at hj
    by_cases hji : j = i
    · rw [if_pos hji] at hj
      cases hj
      subst hji
      refine ⟨if_pos rfl, ⟨frag, nil, ?_⟩, fun _ => ⟨nil, ?_⟩, fun e => absurd rfl e⟩
      · rw [hat, if_pos rfl]; exact Or.inl ⟨rfl, rfl, rfl, rfl⟩
      · show (nspec F (.create j frag x y)).at_ frag = _
        rw [hat, if_pos rfl]
    · rw [if_neg hji] at hj
      obtain ⟨o1, ⟨c, m, o2⟩, o3, o4⟩ := h.here j L hj
      have n1 : L.frag ≠ frag := hfr j L hj
      refine ⟨?_, ⟨c, m, ?_⟩, ?_, ?_⟩
      · show (if j = i then frag else F.frag j) = _
        rw [if_neg hji]; exact o1
      · rw [hat, if_neg]
        · exact o2
        · rintro rfl
          rw [hF] at o2; cases o2
      · intro hc; rw [hat, if_neg n1]; exact o3 hc
      · intro hc; rw [hat, if_neg n1]; exact o4 hc
  · intro j1 j2 L1 L2 h1 h2 hne
    rw [hl] at h1 h2
    split at h1
    · split at h2
      · rename_i a b; exact absurd (a.trans b.symm) hne
      · cases h1
        exact fun e => hfr j2 L2 h2 e.symm
    · split at h2
      · cases h2
        exact hfr j1 L1 h1
      · exact h.frags _ _ _ _ h1 h2 hne

theorem ninv_step (h : NInv w F) {op : NOp} (ha : NAllowed w F op) :
    ∃ w' a, nstep w op = some (w', a) ∧ NInv w' (nspec F op) := by
  cases op with
  | create i frag x y => obtain ⟨w', h1, h2⟩ := ninv_create h ha; exact ⟨w', _, h1, h2⟩
  | call i c => obtain ⟨L, f, w', -, -, h1, h2⟩ := ninv_call h ha; exact ⟨w', _, h1, h2⟩
  | render i p a => obtain ⟨w', h1, h2⟩ := ninv_render h ha; exact ⟨w', _, h1, h2⟩
  | unrender i src => obtain ⟨w', h1, h2⟩ := ninv_unrender h ha; exact ⟨w', _, h1, h2⟩
  | place c n r => obtain ⟨w', h1, h2⟩ := ninv_place h ha; exact ⟨w', _, h1, h2⟩
  | vanish c n => obtain ⟨w', h1, h2⟩ := ninv_vanish h ha; exact ⟨w', _, h1, h2⟩

end
end Verif.Lists
