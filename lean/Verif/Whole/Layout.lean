import Verif.Whole.Cells3
import Verif.Dom.HistoryLemmas
/-! # Where the groups are, and the page -/
namespace Verif.Whole
open Verif.Dom Verif.Lists Verif.Lists.Forest

/-- For every group, the node in which it displays elements and the part of that node. -/
structure Lay where
  at_ : GroupId → NodeId
  lab : GroupId → Cell

/-- The marker at the end of a part. -/
def Cell.marker : Cell → Option NodeId
  | .item y => some y
  | _ => none

def Lay.P (l : Lay) : Places := fun g => (l.at_ g, Cell.marker (l.lab g))

theorem marker_eq {κ : Cell} {r : NodeId} : Cell.marker κ = some r ↔ κ = .item r := by
  cases κ <;> simp [Cell.marker]

/-- The page describes the document, and everything on it is known. -/
structure Paged (l : Lay) (lists : Nat → Option DynList) (fgn : List (NodeId × NodeId)) (O : Orders)
    (D : Display) (d : Dom) (F : Page) : Prop where
  ninv : NInv ⟨d, lists⟩ F
  level : ∀ c, (F.at_ c).Level 2
  cells : ∀ c κ n, n ∈ seq κ .top (F.at_ c) ↔ (κ = .top ∧ (c, n) ∈ fgn) ∨
    ∃ x ∈ D.shown, x.node = n ∧ l.at_ x.group = c ∧ l.lab x.group = κ
  marks : ∀ c n, (c, n) ∈ D.foreign ↔ (c, n) ∈ fgn ∨ (F.at_ c).Marker n
  rows : ∀ c i x y m, (F.at_ c).Has i x y m → m.entries = O i
  ends : ∀ g y, l.lab g = .item y → ∃ i L k s, lists i = some L ∧ l.at_ g = L.container ∧ (k, ⟨s, y⟩) ∈ O i
  homes : ∀ i L, lists i = some L → ∃ m, (F.at_ L.container).Has i L.listStart L.listEnd m

/-! ## about forests -/

theorem entry_marker {k : Key} {s : Stored} {m : Forest} (h : (k, s) ∈ m.entries) :
    m.Marker s.start ∧ m.Marker s.stop := by
  induction m with
  | nil => cases h
  | node n q ih => exact ih h
  | item k' a b m' q ih1 ih2 =>
    rcases List.mem_cons.1 h with h | h
    · cases h; exact ⟨.inl rfl, .inr (.inl rfl)⟩
    · exact ⟨.inr (.inr (.inr (ih2 h).1)), .inr (.inr (.inr (ih2 h).2))⟩
  | list i a b m' q ih1 ih2 => exact ⟨.inr (.inr (.inr (ih2 h).1)), .inr (.inr (.inr (ih2 h).2))⟩

theorem has_marker {i : Nat} {x y : NodeId} {f m : Forest} (h : f.Has i x y m) :
    f.Marker x ∧ f.Marker y ∧ ∀ n, m.Marker n → f.Marker n := by
  induction f with
  | nil => cases h
  | node n q ih => exact ih h
  | item k' a b m' q ih1 ih2 =>
    rcases h with h | h
    · exact ⟨.inr (.inr (.inl (ih1 h).1)), .inr (.inr (.inl (ih1 h).2.1)), fun n hn => .inr (.inr (.inl ((ih1 h).2.2 n hn)))⟩
    · exact ⟨.inr (.inr (.inr (ih2 h).1)), .inr (.inr (.inr (ih2 h).2.1)), fun n hn => .inr (.inr (.inr ((ih2 h).2.2 n hn)))⟩
  | list j a b m' q ih1 ih2 =>
    rcases h with ⟨rfl, rfl, rfl, rfl⟩ | h | h
    · exact ⟨.inl rfl, .inr (.inl rfl), fun n hn => .inr (.inr (.inl hn))⟩
    · exact ⟨.inr (.inr (.inl (ih1 h).1)), .inr (.inr (.inl (ih1 h).2.1)), fun n hn => .inr (.inr (.inl ((ih1 h).2.2 n hn)))⟩
    · exact ⟨.inr (.inr (.inr (ih2 h).1)), .inr (.inr (.inr (ih2 h).2.1)), fun n hn => .inr (.inr (.inr ((ih2 h).2.2 n hn)))⟩

theorem level0_marker {f : Forest} (h : f.Level 0) (n : NodeId) : ¬ f.Marker n := by
  induction f with
  | nil => exact id
  | node n r ih => exact ih h
  | item k x y m r _ ih => exact absurd h.1 (by simp)
  | list i x y m r _ ih => exact absurd h.1 (by simp)

theorem level1_marker {f : Forest} (h : f.Level 1) {n : NodeId} (hm : f.Marker n) :
    ∃ k s, (k, s) ∈ f.entries ∧ (n = s.start ∨ n = s.stop) := by
  induction f with
  | nil => cases hm
  | node n r ih => exact ih h hm
  | item k x y m r _ ih =>
    rcases hm with rfl | rfl | hm | hm
    · exact ⟨k, ⟨_, y⟩, by simp [entries], .inl rfl⟩
    · exact ⟨k, ⟨x, _⟩, by simp [entries], .inr rfl⟩
    · exact absurd hm (level0_marker h.2.1 n)
    · obtain ⟨k', s, h1, h2⟩ := ih h.2.2 hm
      exact ⟨k', s, by simp [entries, h1], h2⟩
  | list i x y m r _ ih => exact absurd h.1 (by simp)

theorem level2_marker {f : Forest} (h : f.Level 2) {n : NodeId} (hm : f.Marker n) :
    ∃ i x y m, f.Has i x y m ∧ (n = x ∨ n = y ∨ ∃ k s, (k, s) ∈ m.entries ∧ (n = s.start ∨ n = s.stop)) := by
  induction f with
  | nil => cases hm
  | node n r ih => exact ih h hm
  | item k x y m r _ ih => exact absurd h.1 (by simp)
  | list i x y m r _ ih =>
    rcases hm with rfl | rfl | hm | hm
    · exact ⟨i, _, y, m, .inl ⟨rfl, rfl, rfl, rfl⟩, .inl rfl⟩
    · exact ⟨i, x, _, m, .inl ⟨rfl, rfl, rfl, rfl⟩, .inr (.inl rfl)⟩
    · exact ⟨i, x, y, m, .inl ⟨rfl, rfl, rfl, rfl⟩, .inr (.inr (level1_marker h.2.1 hm))⟩
    · obtain ⟨i', x', y', m', h1, h2⟩ := ih h.2.2 hm
      exact ⟨i', x', y', m', .inr (.inr h1), h2⟩

/-- the markers, as a list -/
def markers : Forest → List NodeId
  | .nil => []
  | .node _ r => markers r
  | .item _ x y m r => x :: y :: (markers m ++ markers r)
  | .list _ x y m r => x :: y :: (markers m ++ markers r)

theorem mem_markers {n : NodeId} {f : Forest} : n ∈ markers f ↔ f.Marker n := by
  induction f with
  | nil => simp [markers, Marker]
  | node n r ih => exact ih
  | item k x y m r ih1 ih2 => simp only [markers, List.mem_cons, List.mem_append, ih1, ih2, Marker]
  | list i x y m r ih1 ih2 => simp only [markers, List.mem_cons, List.mem_append, ih1, ih2, Marker]

/-- A list of the foreign nodes of a page that differs from a known one in finitely many nodes. -/
theorem exists_foreign {fo fgn : List (NodeId × NodeId)} {F F' : Page}
    (h : ∀ c n, (c, n) ∈ fo ↔ (c, n) ∈ fgn ∨ (F.at_ c).Marker n) (C : List NodeId)
    (hC : ∀ c, c ∉ C → F'.at_ c = F.at_ c) :
    ∃ fo' : List (NodeId × NodeId), ∀ c n, (c, n) ∈ fo' ↔ (c, n) ∈ fgn ∨ (F'.at_ c).Marker n := by
  refine ⟨fgn ++ fo.filter (fun p => p.1 ∉ C) ++ C.flatMap fun c => (markers (F'.at_ c)).map fun n => (c, n), ?_⟩
  intro c n
  simp only [List.mem_append, List.mem_filter, List.mem_flatMap, List.mem_map, Prod.mk.injEq, mem_markers, h]
  by_cases hc : c ∈ C
  · simp only [hc, not_true, decide_false]
    constructor
    · rintro ((h1 | h1) | ⟨c', h1, n', h2, rfl, rfl⟩)
      · exact .inl h1
      · exact absurd h1.2 (by simp)
      · exact .inr h2
    · rintro (h1 | h1)
      · exact .inl (.inl h1)
      · exact .inr ⟨c, hc, n, h1, rfl, rfl⟩
  · rw [hC c hc]
    constructor
    · rintro ((h1 | h1) | ⟨c', h1, n', h2, rfl, rfl⟩)
      · exact .inl h1
      · exact h1.1
      · exact absurd h1 hc
    · rintro (h1 | h1)
      · exact .inl (.inl h1)
      · exact .inl (.inr ⟨.inr h1, by simpa using hc⟩)

/-! ## about lists -/

/-- Two sublists of a list without duplicates. -/
theorem sublist_of {α : Type} {A B l : List α} (hB : B.Nodup) (hA : List.Sublist A B) (hl : List.Sublist l B)
    (hs : ∀ x ∈ l, x ∈ A) : List.Sublist l A := by
  induction hA generalizing l with
  | slnil => simpa using hl
  | @cons A B b hA ih =>
    rw [List.nodup_cons] at hB
    refine ih hB.2 ?_ hs
    cases hl with
    | cons _ h => exact h
    | cons_cons _ h => exact absurd (hA.subset (hs b (by simp))) hB.1
  | @cons_cons A B b hA ih =>
    rw [List.nodup_cons] at hB
    cases hl with
    | cons _ h =>
      refine (ih hB.2 h ?_).cons _
      intro x hx
      rcases List.mem_cons.1 (hs x hx) with rfl | h'
      · exact absurd (h.subset hx) hB.1
      · exact h'
    | @cons_cons l _ _ h =>
      refine (ih hB.2 h ?_).cons_cons _
      intro x hx
      rcases List.mem_cons.1 (hs x (List.mem_cons_of_mem _ hx)) with rfl | h'
      · exact absurd (h.subset hx) hB.1
      · exact h'

/-! ## consequences -/

section
variable {l : Lay} {lists : Nat → Option DynList} {fgn : List (NodeId × NodeId)} {O : Orders} {D : Display}
  {d : Dom} {F : Page}

theorem Paged.nodup (h : Paged l lists fgn O D d F) (c : NodeId) : (F.at_ c).flat.Nodup := by
  have := h.ninv.proper.1 c
  rwa [h.ninv.kids] at this

theorem Paged.one (h : Paged l lists fgn O D d F) {c c' n : NodeId} (h1 : n ∈ (F.at_ c).flat)
    (h2 : n ∈ (F.at_ c').flat) : c = c' :=
  h.ninv.proper.2 c c' n (by rw [h.ninv.kids]; exact h1) (by rw [h.ninv.kids]; exact h2)

/-- what is between the markers of a list -/
theorem Paged.list (h : Paged l lists fgn O D d F) {i : Nat} {L : DynList} (hL : lists i = some L) :
    ∃ f1 f2 m, F.at_ L.container = f1 ++ Forest.list i L.listStart L.listEnd m f2 ∧ NoList i f1 ∧ NoList i f2 ∧
      m.Level 1 ∧ f1.Level 2 ∧ f2.Level 2 ∧ m.entries = O i ∧ (F.at_ L.container).Has i L.listStart L.listEnd m ∧
      m.keys.Nodup := by
  obtain ⟨m, hm⟩ := h.homes i L hL
  obtain ⟨f1, f2, e, h1, h2⟩ := split_list (h.level _) hm (h.nodup _) (fun _ _ _ h2 => (h.ninv.one h2 hm).2)
  have hl := h.level L.container
  rw [e, level_append] at hl
  obtain ⟨_, _, _, _, _, hk⟩ := h.ninv.known _ _ _ _ _ hm
  exact ⟨f1, f2, m, e, h1, h2, hl.2.2.1, hl.1, hl.2.2.2, h.rows _ _ _ _ _ hm, hm, hk⟩

/-- a list is only in one place -/
theorem Paged.only (h : Paged l lists fgn O D d F) {i : Nat} {L : DynList} (hL : lists i = some L) {c x y : NodeId}
    {m : Forest} (hm : (F.at_ c).Has i x y m) : c = L.container ∧ x = L.listStart ∧ y = L.listEnd := by
  obtain ⟨m', hm'⟩ := h.homes i L hL
  obtain ⟨L', hL', e1, e2, _⟩ := h.ninv.known _ _ _ _ _ hm
  rw [show lists i = some L' from hL'] at hL
  cases hL
  exact ⟨(h.ninv.one hm hm').1, e1.symm, e2.symm⟩

theorem Paged.ref (h : Paged l lists fgn O D d F) {g : GroupId} {y : NodeId} (hg : l.lab g = .item y) :
    Ref (.item y) y .top (F.at_ (l.at_ g)) ∧ (F.at_ (l.at_ g)).Marker y := by
  obtain ⟨i, L, k, s, hL, hat, hk⟩ := h.ends g y hg
  obtain ⟨f1, f2, m, -, -, -, -, -, -, he, hm, -⟩ := h.list hL
  rw [← he] at hk
  rw [hat]
  exact ⟨ref_has hm (ref_entry hk), (has_marker hm).2.2 _ (entry_marker hk).2⟩

theorem Paged.mem_flat (h : Paged l lists fgn O D d F) (c n : NodeId) : n ∈ (F.at_ c).flat ↔ D.In l.P c n := by
  rw [Forest.mem_flat .top, Display.In, h.marks]
  constructor
  · rintro (h1 | ⟨κ, h1⟩)
    · exact .inr (.inr h1)
    · rcases (h.cells c κ n).1 h1 with h2 | ⟨x, hx, h2, h3, _⟩
      · exact .inr (.inl h2.2)
      · exact .inl ⟨x, hx, h2, h3⟩
  · rintro (⟨x, hx, h2, h3⟩ | h2 | h2)
    · exact .inr ⟨_, (h.cells c _ n).2 (.inr ⟨x, hx, h2, h3, rfl⟩)⟩
    · exact .inr ⟨_, (h.cells c _ n).2 (.inl ⟨rfl, h2⟩)⟩
    · exact .inl h2

theorem Paged.not_marker (h : Paged l lists fgn O D d F) {κ : Cell} {c c' n : NodeId}
    (hn : n ∈ seq κ .top (F.at_ c)) : ¬ (F.at_ c').Marker n := by
  intro hm
  obtain rfl := h.one (seq_mem_flat hn) (marker_mem hm)
  exact seq_not_marker (h.nodup c) hn hm

theorem Paged.shown_seq (h : Paged l lists fgn O D d F) {x : Shown} (hx : x ∈ D.shown) :
    x.node ∈ seq (l.lab x.group) .top (F.at_ (l.at_ x.group)) :=
  (h.cells _ _ _).2 (.inr ⟨x, hx, rfl, rfl, rfl⟩)

/-- The nodes of a group are in order in their part of the page. -/
theorem Paged.order {st : State} (h : Paged l lists fgn O D st.dom F) (hi : Inv l.P D st) (g : GroupId) :
    List.Sublist ((st.groups g).map (·.2)) (seq (l.lab g) .top (F.at_ (l.at_ g))) := by
  have h1 := hi.order g
  rw [h.ninv.kids] at h1
  refine sublist_of (h.nodup _) (seq_sublist _ _ _) h1 ?_
  intro n hn
  obtain ⟨e, he, rfl⟩ := List.mem_map.1 hn
  exact h.shown_seq ((hi.agree g e.1 e.2).1 he)

/-- The document agrees with a page that has everything in order. -/
theorem inv_of_cells {l0 : Lay} {D0 : Display} {st : State} (hi : Inv l0.P D0 st) (hs : D.shown = D0.shown)
    (h : Paged l lists fgn O D d F) (hf : ∀ c n, (c, n) ∈ fgn → ∃ c', (c', n) ∈ D0.foreign)
    (ho : ∀ g, List.Sublist ((st.groups g).map (·.2)) (seq (l.lab g) .top (F.at_ (l.at_ g)))) :
    Inv l.P D ⟨st.groups, d⟩ := by
  refine ⟨hi.sorted, ?_, ?_, ?_, ?_, ?_, h.ninv.proper.1, ?_, ?_, ?_, ?_⟩
  · rw [hs]; exact hi.agree
  · rw [hs]; exact hi.uniq
  · rw [hs]; exact hi.shownNodup
  · intro x hx c hc
    rcases (h.marks c _).1 hc with h1 | h1
    · obtain ⟨c', h2⟩ := hf _ _ h1
      exact hi.sep x (hs ▸ hx) c' h2
    · exact h.not_marker (h.shown_seq hx) h1
  · intro c c' n h1 h2
    exact h.one ((h.mem_flat c n).2 (.inr h1)) ((h.mem_flat c' n).2 (.inr h2))
  · intro c n
    show n ∈ d.kids c ↔ _
    have := h.mem_flat c n
    rw [← h.ninv.kids c] at this
    exact this
  · intro g
    show List.Sublist _ (d.kids _)
    have := (ho g).trans (seq_sublist _ _ _)
    rw [← h.ninv.kids] at this
    exact this
  · intro g r hr _
    have hl : l.lab g = .item r := marker_eq.1 hr
    show List.Sublist _ (d.kids (l.at_ g))
    have h1 := seq_item_before (h.ref hl).1 (by simp) (h.nodup _)
    rw [← h.ninv.kids] at h1
    have h2 := ho g
    rw [hl] at h2
    exact (h2.append (List.Sublist.refl _)).trans h1
  · intro g r hr _
    have hl : l.lab g = .item r := marker_eq.1 hr
    exact (h.marks _ _).2 (.inr (h.ref hl).2)

/-- Only the places of groups that display something matter. -/
theorem Paged.relay {l' : Lay} (h : Paged l lists fgn O D d F)
    (hl : ∀ x ∈ D.shown, l'.at_ x.group = l.at_ x.group ∧ l'.lab x.group = l.lab x.group)
    (he : ∀ g y, l'.lab g = .item y → ∃ i L k s, lists i = some L ∧ l'.at_ g = L.container ∧ (k, ⟨s, y⟩) ∈ O i) :
    Paged l' lists fgn O D d F := by
  refine ⟨h.ninv, h.level, ?_, h.marks, h.rows, he, h.homes⟩
  intro c κ n
  rw [h.cells]
  constructor
  · rintro (h1 | ⟨x, hx, h1, h2, h3⟩)
    · exact .inl h1
    · exact .inr ⟨x, hx, h1, (hl x hx).1.trans h2, (hl x hx).2.trans h3⟩
  · rintro (h1 | ⟨x, hx, h1, h2, h3⟩)
    · exact .inl h1
    · exact .inr ⟨x, hx, h1, (hl x hx).1.symm.trans h2, (hl x hx).2.symm.trans h3⟩

theorem Paged.relay_inv {l' : Lay} {st : State} (hi : Inv l.P D st) (h : Paged l lists fgn O D st.dom F)
    (hl : ∀ x ∈ D.shown, l'.at_ x.group = l.at_ x.group ∧ l'.lab x.group = l.lab x.group)
    (he : ∀ g y, l'.lab g = .item y → ∃ i L k s, lists i = some L ∧ l'.at_ g = L.container ∧ (k, ⟨s, y⟩) ∈ O i) :
    Inv l'.P D st ∧ Paged l' lists fgn O D st.dom F := by
  have h' := h.relay hl he
  refine ⟨inv_of_cells hi rfl h' (fun c n hc => ⟨c, (h.marks _ _).2 (.inl hc)⟩) ?_, h'⟩
  intro g
  cases hg : st.groups g with
  | nil => simp
  | cons e es =>
    have he' : e ∈ st.groups g := by rw [hg]; simp
    have hx := (hi.agree g e.1 e.2).1 he'
    obtain ⟨h1, h2⟩ := hl _ hx
    have := h.order hi g
    rw [← hg]
    rw [show l'.at_ g = l.at_ g from h1, show l'.lab g = l.lab g from h2]
    exact this

end
end Verif.Whole
