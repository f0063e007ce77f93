import Verif.Whole.CallStep
import Verif.Lists.RenderSteps
/-! # A list that is rendered or un-rendered -/
namespace Verif.Whole
open Verif.Dom Verif.Lists Verif.Lists.Forest

/-- The part belongs to the list. -/
def Mine (i : Nat) (rows : List (Key × Stored)) (κ : Cell) : Prop :=
  κ = .list i ∨ ∃ k s y, κ = .item y ∧ (k, ⟨s, y⟩) ∈ rows

open Classical in
/-- Where the groups are after a list has moved. -/
noncomputable def moveLay (l : Lay) (i : Nat) (rows : List (Key × Stored)) (c0 c1 : NodeId) : Lay where
  at_ := fun g => if l.at_ g = c0 ∧ Mine i rows (l.lab g) then c1 else l.at_ g
  lab := l.lab

theorem marker_list {f1 f2 m : Forest} {i : Nat} {s e x : NodeId} :
    (f1 ++ Forest.list i s e m f2).Marker x ↔ f1.Marker x ∨ x = s ∨ x = e ∨ m.Marker x ∨ f2.Marker x := by
  rw [Forest.marker_append]; rfl

section
variable {l : Lay} {lists : Nat → Option DynList} {fgn : List (NodeId × NodeId)} {O : Orders} {D : Display}
  {F F' : Page}

theorem Paged.moved {st : State} {i : Nat} {L : DynList} {c0 c1 : NodeId} {d' : Dom} (hi : Inv l.P D st)
    (h : Paged l lists fgn O D st.dom F) (hL : lists i = some L) (hc0 : L.container = c0) (hne : c1 ≠ c0)
    {g1 g2 : Forest} (hg : F.at_ c1 = g1 ++ g2)
    (hn' : NInv ⟨d', fun j => if j = i then some { L with container := c1 } else lists j⟩ F')
    (h0 : ∀ f1 f2 m, F.at_ c0 = f1 ++ Forest.list i L.listStart L.listEnd m f2 → NoList i f1 → NoList i f2 →
      f1.Level 2 → f2.Level 2 → F'.at_ c0 = f1 ++ f2 ∧ F'.at_ c1 = g1 ++ Forest.list i L.listStart L.listEnd m g2)
    (hx : ∀ x, x ≠ c0 → x ≠ c1 → F'.at_ x = F.at_ x) :
    ∃ D', Inv (moveLay l i (O i) c0 c1).P D' ⟨st.groups, d'⟩ ∧
      Paged (moveLay l i (O i) c0 c1) (fun j => if j = i then some { L with container := c1 } else lists j) fgn O D' d' F' ∧
      D'.shown = D.shown ∧
      ∀ p x, (p, x) ∈ D'.foreign → (p, x) ∈ D.foreign ∨ (p = c1 ∧ (c0, x) ∈ D.foreign) := by
  subst hc0
  obtain ⟨f1, f2, m, e, hn1, hn2, hm1, hl1, hl2, hent, hhas, hkeys⟩ := h.list hL
  obtain ⟨e0, e1⟩ := h0 f1 f2 m e hn1 hn2 hl1 hl2
  have hnd := h.nodup L.container
  rw [e, Forest.flat_append, Forest.flat] at hnd
  have hout : ∀ y ∈ m.flat, y ∉ f1.flat ∧ y ∉ f2.flat := by
    intro y hy
    simp only [List.nodup_append, List.nodup_cons, List.mem_append, List.mem_cons] at hnd
    refine ⟨fun hy1 => hnd.2.2 y hy1 y (.inr (.inl hy)) rfl, fun hy2 => hnd.2.1.2.2.2 y hy y (.inr hy2) rfl⟩
  have houtg : ∀ y ∈ m.flat, y ∉ g1.flat ∧ y ∉ g2.flat := by
    intro y hy
    have h1 : y ∈ (F.at_ L.container).flat := by rw [e]; simp [Forest.flat, hy]
    have h2 : y ∉ (F.at_ c1).flat := fun h2 => hne (h.one h2 h1)
    rw [hg, Forest.flat_append, List.mem_append] at h2
    exact ⟨fun h3 => h2 (.inl h3), fun h3 => h2 (.inr h3)⟩
  have hlg := h.level c1
  rw [hg, level_append] at hlg
  have hng : ∀ x y m, ¬ (F.at_ c1).Has i x y m := fun x y m hm => hne (h.only hL hm).1
  have hng1 : NoList i g1 := (noList_has hlg.1).2 fun x y m hm => hng x y m (by rw [hg, has_append]; exact .inl hm)
  have hng2 : NoList i g2 := (noList_has hlg.2).2 fun x y m hm => hng x y m (by rw [hg, has_append]; exact .inr hm)
  have mine : ∀ κ, Mine i (O i) κ → seq κ .top f1 = [] ∧ seq κ .top f2 = [] ∧ seq κ .top g1 = [] ∧ seq κ .top g2 = [] := by
    rintro κ (rfl | ⟨k, s, y, rfl, hk⟩)
    · exact ⟨noList_seq hl1 hn1, noList_seq hl2 hn2, noList_seq hlg.1 hng1, noList_seq hlg.2 hng2⟩
    · rw [← hent] at hk
      obtain ⟨h1, h2⟩ := hout _ (stop_mem hk)
      obtain ⟨h3, h4⟩ := houtg _ (stop_mem hk)
      exact ⟨seq_item_nil h1 (by simp), seq_item_nil h2 (by simp), seq_item_nil h3 (by simp), seq_item_nil h4 (by simp)⟩
  have notMine : ∀ κ, ¬ Mine i (O i) κ → seq κ (.list i) m = [] := by
    intro κ hκ
    cases κ with
    | top => exact seq_top_nil (by simp)
    | list j => exact level1_other hm1 fun e => hκ (.inl (by rw [e]))
    | item y =>
      refine item_none hm1 fun x hx hs => hκ (.inr ⟨x.1, x.2.1.start, y, rfl, ?_⟩)
      rw [← hent, ← hs]
      exact mem_content hx
  have s0 : ∀ κ, seq κ .top (F.at_ L.container) = seq κ .top f1 ++ (seq κ (.list i) m ++ seq κ .top f2) := by
    intro κ; rw [e, seq_append]; rfl
  have s0' : ∀ κ, seq κ .top (F'.at_ L.container) = seq κ .top f1 ++ seq κ .top f2 := by
    intro κ; rw [e0, seq_append]
  have s1 : ∀ κ, seq κ .top (F.at_ c1) = seq κ .top g1 ++ seq κ .top g2 := by
    intro κ; rw [hg, seq_append]
  have s1' : ∀ κ, seq κ .top (F'.at_ c1) = seq κ .top g1 ++ (seq κ (.list i) m ++ seq κ .top g2) := by
    intro κ; rw [e1, seq_append]; rfl
  have m0 : ∀ κ, Mine i (O i) κ → seq κ .top (F'.at_ L.container) = [] := by
    intro κ hκ; obtain ⟨h1, h2, -⟩ := mine κ hκ; rw [s0', h1, h2]; rfl
  have m1 : ∀ κ, Mine i (O i) κ → seq κ .top (F'.at_ c1) = seq κ .top (F.at_ L.container) := by
    intro κ hκ; obtain ⟨h1, h2, h3, h4⟩ := mine κ hκ; rw [s0, s1', h1, h2, h3, h4]
  have m1' : ∀ κ, Mine i (O i) κ → seq κ .top (F.at_ c1) = [] := by
    intro κ hκ; obtain ⟨-, -, h1, h2⟩ := mine κ hκ; rw [s1, h1, h2]; rfl
  have n0 : ∀ κ, ¬ Mine i (O i) κ → ∀ c, seq κ .top (F'.at_ c) = seq κ .top (F.at_ c) := by
    intro κ hκ c
    by_cases hc : c = L.container
    · rw [hc, s0, s0', notMine κ hκ]; rfl
    · by_cases hc' : c = c1
      · rw [hc', s1, s1', notMine κ hκ]; rfl
      · rw [hx c hc hc']
  obtain ⟨fo, hfo⟩ := exists_foreign (F' := F') h.marks [L.container, c1] (by
    intro x hx'
    simp only [List.mem_cons, List.not_mem_nil, or_false, not_or] at hx'
    exact hx x hx'.1 hx'.2)
  generalize hl' : moveLay l i (O i) L.container c1 = l'
  have hlab : ∀ g, l'.lab g = l.lab g := by intro g; rw [← hl']; rfl
  have hat : ∀ g, ¬ (l.at_ g = L.container ∧ Mine i (O i) (l.lab g)) → l'.at_ g = l.at_ g := by
    intro g hg'; rw [← hl']; exact if_neg hg'
  have hatM : ∀ g, l.at_ g = L.container → Mine i (O i) (l.lab g) → l'.at_ g = c1 := by
    intro g h1 h2; rw [← hl']; exact if_pos ⟨h1, h2⟩
  have hP : Paged l' (fun j => if j = i then some { L with container := c1 } else lists j) fgn O ⟨D.shown, fo⟩ d' F' := by
    refine ⟨hn', ?_, ?_, hfo, ?_, ?_, ?_⟩
    · intro c
      by_cases hc : c = L.container
      · rw [hc, e0, level_append]; exact ⟨hl1, hl2⟩
      · by_cases hc' : c = c1
        · rw [hc', e1, level_append]; exact ⟨hlg.1, rfl, hm1, hlg.2⟩
        · rw [hx c hc hc']; exact h.level c
    · intro c κ n
      by_cases hκ : Mine i (O i) κ
      · have htop : ¬ (κ = .top ∧ (c, n) ∈ fgn) := by
          rintro ⟨rfl, -⟩
          rcases hκ with h1 | ⟨_, _, _, h1, _⟩ <;> cases h1
        by_cases hc : c = L.container
        · rw [hc, m0 κ hκ]
          constructor
          · intro h1; cases h1
          · rintro (h1 | ⟨x, hx, h1, h2, h3⟩)
            · rw [← hc] at h1; exact absurd h1 htop
            · rw [hlab] at h3
              by_cases ha : l.at_ x.group = L.container
              · rw [hatM _ ha (by rw [h3]; exact hκ)] at h2; exact absurd h2 hne
              · rw [hat _ fun h4 => ha h4.1] at h2; exact absurd h2 ha
        · by_cases hc' : c = c1
          · rw [hc', m1 κ hκ, h.cells]
            constructor
            · rintro (h1 | ⟨x, hx, h1, h2, h3⟩)
              · rcases hκ with h4 | ⟨_, _, _, h4, _⟩ <;> rw [h1.1] at h4 <;> cases h4
              · exact .inr ⟨x, hx, h1, hatM _ h2 (by rw [h3]; exact hκ), by rw [hlab]; exact h3⟩
            · rintro (h1 | ⟨x, hx, h1, h2, h3⟩)
              · rw [← hc'] at h1; exact absurd h1 htop
              · rw [hlab] at h3
                refine .inr ⟨x, hx, h1, ?_, h3⟩
                by_cases ha : l.at_ x.group = L.container
                · exact ha
                · rw [hat _ fun h4 => ha h4.1] at h2
                  have := (h.cells c1 κ n).2 (.inr ⟨x, hx, h1, h2, h3⟩)
                  rw [m1' κ hκ] at this
                  cases this
          · rw [hx c hc hc', h.cells]
            constructor
            · rintro (h1 | ⟨x, hx, h1, h2, h3⟩)
              · exact absurd h1 htop
              · exact .inr ⟨x, hx, h1, (hat _ fun h4 => hc (h2.symm.trans h4.1)).trans h2, by rw [hlab]; exact h3⟩
            · rintro (h1 | ⟨x, hx, h1, h2, h3⟩)
              · exact absurd h1 htop
              · rw [hlab] at h3
                refine .inr ⟨x, hx, h1, ?_, h3⟩
                by_cases ha : l.at_ x.group = L.container
                · rw [hatM _ ha (by rw [h3]; exact hκ)] at h2; exact absurd h2.symm hc'
                · rw [hat _ fun h4 => ha h4.1] at h2; exact h2
      · rw [n0 κ hκ, h.cells]
        constructor
        · rintro (h1 | ⟨x, hx, h1, h2, h3⟩)
          · exact .inl h1
          · exact .inr ⟨x, hx, h1, (hat _ fun h4 => hκ (h3 ▸ h4.2)).trans h2, by rw [hlab]; exact h3⟩
        · rintro (h1 | ⟨x, hx, h1, h2, h3⟩)
          · exact .inl h1
          · rw [hlab] at h3
            rw [hat _ fun h4 => hκ (h3 ▸ h4.2)] at h2
            exact .inr ⟨x, hx, h1, h2, h3⟩
    · intro c j x y m' hm'
      by_cases hc : c = L.container
      · refine h.rows L.container j x y m' ?_
        rw [hc, e0, has_append] at hm'
        rw [e, has_append]
        rcases hm' with h1 | h1
        · exact .inl h1
        · exact .inr (.inr (.inr h1))
      · by_cases hc' : c = c1
        · rw [hc', e1, has_append] at hm'
          rcases hm' with h1 | ⟨rfl, -, -, rfl⟩ | h1 | h1
          · exact h.rows c1 j x y m' (by rw [hg, has_append]; exact .inl h1)
          · exact hent
          · exact absurd (has_level hm1 h1).1 (by simp)
          · exact h.rows c1 j x y m' (by rw [hg, has_append]; exact .inr h1)
        · rw [hx c hc hc'] at hm'; exact h.rows _ _ _ _ _ hm'
    · intro g y hgy
      rw [hlab] at hgy
      by_cases hM : l.at_ g = L.container ∧ Mine i (O i) (l.lab g)
      · obtain ⟨h1, h2 | ⟨k, s, y', h2, h3⟩⟩ := hM
        · rw [hgy] at h2; cases h2
        · rw [hgy] at h2
          cases h2
          refine ⟨i, { L with container := c1 }, k, s, by simp, ?_, h3⟩
          exact hatM g h1 (by rw [hgy]; exact .inr ⟨k, s, y, rfl, h3⟩)
      · rw [hat g hM]
        obtain ⟨j, Lj, k, s, h1, h2, h3⟩ := h.ends g y hgy
        refine ⟨j, Lj, k, s, ?_, h2, h3⟩
        rw [if_neg]
        · exact h1
        · rintro rfl
          rw [hL] at h1
          cases h1
          exact hM ⟨h2, by rw [hgy]; exact .inr ⟨k, s, y, rfl, h3⟩⟩
    · intro j Lj hLj
      by_cases hj : j = i
      · subst hj
        rw [if_pos rfl] at hLj
        cases hLj
        refine ⟨m, ?_⟩
        show (F'.at_ c1).Has _ _ _ _
        rw [e1, has_append]; exact .inr (.inl ⟨rfl, rfl, rfl, rfl⟩)
      · rw [if_neg hj] at hLj
        obtain ⟨mj, hmj⟩ := h.homes j Lj hLj
        refine ⟨mj, ?_⟩
        by_cases hc : Lj.container = L.container
        · rw [hc, e, has_append] at hmj
          rw [hc, e0, has_append]
          rcases hmj with h1 | ⟨rfl, -⟩ | h1 | h1
          · exact .inl h1
          · exact absurd rfl hj
          · exact absurd (has_level hm1 h1).1 (by simp)
          · exact .inr h1
        · by_cases hc' : Lj.container = c1
          · rw [hc', hg, has_append] at hmj
            rw [hc', e1, has_append]
            rcases hmj with h1 | h1
            · exact .inl h1
            · exact .inr (.inr (.inr h1))
          · rw [hx _ hc hc']; exact hmj
  refine ⟨⟨D.shown, fo⟩, ?_, hP, rfl, ?_⟩
  · refine inv_of_cells hi rfl hP (fun p x hx => ⟨p, (h.marks _ _).2 (.inl hx)⟩) ?_
    intro g
    have hold := h.order hi g
    rw [hlab]
    by_cases hM : Mine i (O i) (l.lab g)
    · by_cases ha : l.at_ g = L.container
      · rw [hatM g ha hM, m1 _ hM, ← ha]; exact hold
      · rw [hat g fun h4 => ha h4.1]
        by_cases hc' : l.at_ g = c1
        · rw [hc', m1' _ hM] at hold
          rw [List.sublist_nil.1 hold]
          exact List.nil_sublist _
        · rw [hx _ ha hc']; exact hold
    · rw [hat g fun h4 => hM h4.2, n0 _ hM]; exact hold
  · intro p x hpx
    have hold : ∀ p x, (F.at_ p).Marker x → (p, x) ∈ D.foreign := fun p x hm => (h.marks p x).2 (.inr hm)
    rcases (hfo p x).1 hpx with h1 | h1
    · exact .inl ((h.marks _ _).2 (.inl h1))
    · by_cases hc : p = L.container
      · rw [hc] at h1 ⊢
        rw [e0, Forest.marker_append] at h1
        refine .inl (hold _ _ ?_)
        rw [e, marker_list]
        rcases h1 with h1 | h1
        · exact .inl h1
        · exact .inr (.inr (.inr (.inr h1)))
      · by_cases hc' : p = c1
        · rw [hc', e1, marker_list] at h1
          rw [hc']
          have hin : x = L.listStart ∨ x = L.listEnd ∨ m.Marker x → (L.container, x) ∈ D.foreign := by
            intro h2
            refine hold _ _ ?_
            rw [e, marker_list]
            rcases h2 with h2 | h2 | h2
            · exact .inr (.inl h2)
            · exact .inr (.inr (.inl h2))
            · exact .inr (.inr (.inr (.inl h2)))
          have hin2 : g1.Marker x ∨ g2.Marker x → (c1, x) ∈ D.foreign := by
            intro h2
            refine hold _ _ ?_
            rw [hg, Forest.marker_append]; exact h2
          rcases h1 with h1 | h1 | h1 | h1 | h1
          · exact .inl (hin2 (.inl h1))
          · exact .inr ⟨rfl, hin (.inl h1)⟩
          · exact .inr ⟨rfl, hin (.inr (.inl h1))⟩
          · exact .inr ⟨rfl, hin (.inr (.inr h1))⟩
          · exact .inl (hin2 (.inr h1))
        · rw [hx p hc hc'] at h1; exact .inl (hold _ _ h1)

end
end Verif.Whole
