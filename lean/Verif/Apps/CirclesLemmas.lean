import Verif.Apps.CirclesSpec
import Verif.Lists.DynamicProps
import Verif.Lists.ItemsInv
/-! # One operation of the circle drawer -/
namespace Verif.Circles
open Verif.Dom (NodeId Dom)
open Verif.Lists (Item Good)

theorem setLook_same (look : NodeId → Look) (n : NodeId) (f : Look → Look) : setLook look n f n = f (look n) := by
  simp [setLook]

theorem setLook_other (look : NodeId → Look) {n m : NodeId} (f : Look → Look) (h : m ≠ n) : setLook look n f m = look m := by
  simp [setLook, h]

/-- The slider changes nothing but the size of one element. -/
theorem slide_then (values : List Scale) (n : NodeId) (t : Scale) : ∀ look : NodeId → Look,
    setLook (values.foldl (fun look v => setLook look n fun l => { l with scale := v }) look) n (fun l => { l with scale := t }) =
      setLook look n fun l => { l with scale := t } := by
  induction values with
  | nil => intro look; rfl
  | cons v vs ih =>
    intro look
    rw [List.foldl_cons, ih]
    funext m
    simp only [setLook]
    split <;> rfl

/-- The document shows the picture, and the variables agree. -/
structure Sight (A : App) (l : List Item) (p : Picture) (lit : Option Nat) : Prop where
  good : Good A.sys l []
  contents : l.map Item.content = A.circles.map fun c => [c.elem]
  shown : ∀ x ∈ l, x.content = [A.displays x.key]
  plain : A.circles.map Circle.plain = p
  looks : ∀ (i : Nat) (c : Circle), A.circles[i]? = some c → A.look c.elem = ⟨c.x, c.y, c.scale, lit == some i⟩

theorem elems_sublist : ∀ {l : List Item} {cs : List Circle}, (l.map Item.content = cs.map fun c => [c.elem]) →
    List.Sublist (cs.map Circle.elem) (l.flatMap Item.nodes) := by
  intro l
  induction l with
  | nil =>
    intro cs h
    cases cs with
    | nil => exact List.Sublist.refl _
    | cons c cs => simp at h
  | cons x l ih =>
    intro cs h
    cases cs with
    | nil => simp at h
    | cons c cs =>
      simp only [List.map_cons, List.cons.injEq] at h
      rw [List.flatMap_cons, List.map_cons]
      refine List.Sublist.append (l₁ := [c.elem]) ?_ (ih h.2)
      rw [Item.nodes, h.1]
      exact List.Sublist.cons _ (List.sublist_append_left _ _)

theorem Sight.elems_in {A : App} {l : List Item} {p : Picture} {lit : Option Nat} (h : Sight A l p lit) :
    List.Sublist (A.circles.map Circle.elem) (A.sys.dom.kids A.sys.list.container) :=
  (elems_sublist h.contents).trans (Lists.shows_sublist h.good.shows)

theorem Sight.elems {A : App} {l : List Item} {p : Picture} {lit : Option Nat} (h : Sight A l p lit) :
    (A.circles.map Circle.elem).Nodup :=
  h.elems_in.nodup (h.good.proper.1 _)

theorem Sight.elem_ne {A : App} {l : List Item} {p : Picture} {lit : Option Nat} (h : Sight A l p lit) {i j : Nat}
    {c c' : Circle} (hi : A.circles[i]? = some c) (hj : A.circles[j]? = some c') (hij : i ≠ j) : c.elem ≠ c'.elem := by
  have hn := h.elems
  intro he
  obtain ⟨h1, rfl⟩ := List.getElem?_eq_some_iff.1 hi
  obtain ⟨h2, rfl⟩ := List.getElem?_eq_some_iff.1 hj
  rcases Nat.lt_or_gt_of_ne hij with h3 | h3
  · have := List.pairwise_iff_getElem.1 hn i j (by simpa using h1) (by simpa using h2) h3
    simp [he] at this
  · have := List.pairwise_iff_getElem.1 hn j i (by simpa using h2) (by simpa using h1) h3
    simp [he] at this

theorem Sight.length {A : App} {l : List Item} {p : Picture} {lit : Option Nat} (h : Sight A l p lit) :
    A.circles.length = p.length := by rw [← h.plain, List.length_map]

theorem Sight.len_items {A : App} {l : List Item} {p : Picture} {lit : Option Nat} (h : Sight A l p lit) :
    l.length = A.circles.length := by
  have := congrArg List.length h.contents
  simpa using this

theorem Sight.get {A : App} {l : List Item} {p : Picture} {lit : Option Nat} (h : Sight A l p lit) {i : Nat}
    {x y : Int} {s : Scale} (hi : p[i]? = some (x, y, s)) : ∃ c, A.circles[i]? = some c ∧ c.x = x ∧ c.y = y ∧ c.scale = s := by
  rw [← h.plain, List.getElem?_map] at hi
  obtain ⟨c, h1, h2⟩ := Option.map_eq_some_iff.1 hi
  refine ⟨c, h1, ?_⟩
  simpa [Circle.plain] using h2

/-! ## another size -/

theorem sight_scale {A : App} {l : List Item} {p : Picture} {lit : Option Nat} (h : Sight A l p lit) {i : Nat}
    {x y : Int} {s : Scale} (hi : p[i]? = some (x, y, s)) (f t : Scale) (ns : Nodes) :
    ∃ A', doOp A (.changeScale i f t) ns = some A' ∧ Sight A' l (p.set i (x, y, t)) lit ∧ A'.bar = A.bar ∧
      A'.nextId = A.nextId ∧ A'.selected = A.selected := by
  obtain ⟨c, hc, rfl, rfl, rfl⟩ := h.get hi
  refine ⟨{ A with
        circles := A.circles.set i { c with scale := t }
        look := setLook A.look c.elem fun l => { l with scale := t } }, by simp only [doOp, hc], ?_, rfl, rfl, rfl⟩
  have hlt : i < A.circles.length := (List.getElem?_eq_some_iff.1 hc).1
  constructor
  · exact h.good
  · show l.map Item.content = (A.circles.set i { c with scale := t }).map fun c => [c.elem]
    rw [h.contents, List.map_set]
    refine (List.set_getElem_self (by simpa using hlt)).symm.trans ?_
    obtain ⟨_, rfl⟩ := List.getElem?_eq_some_iff.1 hc
    simp
  · exact h.shown
  · show (A.circles.set i { c with scale := t }).map Circle.plain = _
    rw [List.map_set, h.plain]
    rfl
  · intro j c' hj
    show setLook A.look c.elem (fun l => { l with scale := t }) c'.elem = _
    replace hj : (A.circles.set i { c with scale := t })[j]? = some c' := hj
    rw [List.getElem?_set] at hj
    split at hj
    · rename_i hij
      subst hij
      cases hj
      simp only [setLook_same, h.looks i c hc]
    · rename_i hij
      rw [setLook_other _ _ (h.elem_ne hj hc (fun e => hij e.symm))]
      exact h.looks j c' hj

/-! ## the mouse -/

theorem mark_at {A : App} {l : List Item} {p : Picture} {lit : Option Nat} (h : Sight A l p lit) (on : Bool)
    (k : Option Nat) {i : Nat} {c : Circle} (hc : A.circles[i]? = some c) :
    mark A on k c.elem = ⟨c.x, c.y, c.scale, if k = some i then on else lit == some i⟩ := by
  cases hk : k.bind fun i => A.circles[i]? with
  | some c' =>
    simp only [mark, hk]
    obtain ⟨j, rfl, hj⟩ := Option.bind_eq_some_iff.1 hk
    by_cases e : j = i
    · subst e
      rw [hc] at hj
      cases hj
      rw [setLook_same, h.looks j c hc]
      simp
    · rw [setLook_other _ _ (h.elem_ne hc hj (Ne.symm e)), h.looks i c hc]
      simp [e]
  | none =>
    simp only [mark, hk]
    rw [h.looks i c hc]
    have : k ≠ some i := by
      rintro rfl
      simp [hc] at hk
    simp [this]

theorem sight_mark {A : App} {l : List Item} {p : Picture} {lit : Option Nat} (h : Sight A l p lit)
    (on : Bool) (k lit' : Option Nat) (s : Option Nat)
    (hl : ∀ i, i < A.circles.length → (if k = some i then on else lit == some i) = (lit' == some i)) :
    Sight { A with look := mark A on k, selected := s } l p lit' := by
  refine ⟨h.good, h.contents, h.shown, h.plain, ?_⟩
  intro i c hc
  show mark A on k c.elem = _
  rw [mark_at h on k hc, hl i (List.getElem?_eq_some_iff.1 hc).1]

theorem sight_track {A : App} {l : List Item} {p : Picture} {lit : Option Nat} (h : Sight A l p lit)
    (hlit : ∀ i, lit = some i → A.selected = some i) (mx my : Int) :
    Sight (track A mx my) l p (hit p mx my) := by
  unfold track
  rw [h.plain]
  simp only []
  split
  · rename_i e
    refine sight_mark h true _ _ _ fun i _ => ?_
    split
    · rename_i e'; simp [e']
    · rename_i e'
      have : lit ≠ some i := fun e'' => e' (e.trans (hlit i e''))
      rw [beq_eq_false_iff_ne.2 this, beq_eq_false_iff_ne.2 e']
  · rename_i e
    have h1 : Sight { A with look := mark A false A.selected, selected := A.selected } l p none := by
      refine sight_mark h false _ _ _ fun i _ => ?_
      split
      · rfl
      · rename_i e'
        have : lit ≠ some i := fun e'' => e' (hlit i e'')
        simp [this]
    refine sight_mark h1 true _ _ _ fun i _ => ?_
    split
    · rename_i e'; simp [e']
    · rename_i e'; simp [e']

/-! ## a new circle, and one that goes -/

theorem orphan_in {s : Lists.Sys} {l : List Item} {left : List NodeId} (h : Good s l left) {n : NodeId} (hn : n ∈ left) :
    n ∈ s.dom.kids s.list.container ∧ ¬ Lists.Owned s.list l n := by
  obtain ⟨pre, segs, post, h1, h2, h3⟩ := h.shows
  have hnd := h.proper.1 s.list.container
  have ho := (h3 n).2 hn
  obtain ⟨S1, S2, rfl⟩ := List.append_of_mem ho
  rw [h1] at hnd
  have hkid : n ∈ s.dom.kids s.list.container := by
    rw [h1]; simp [Lists.Seg.nodes]
  refine ⟨hkid, ?_⟩
  simp only [List.flatMap_append, List.flatMap_cons, Lists.Seg.nodes, List.append_assoc,
    List.cons_append, List.nil_append] at hnd
  have hnd1 := (List.nodup_append.1 hnd).2.1
  simp only [List.nodup_cons, List.mem_append, List.mem_cons, not_or] at hnd1
  have hnd2 := List.nodup_append.1 hnd1.2
  have hnd3 := List.nodup_cons.1 hnd2.2.1
  rintro (rfl | rfl | ⟨x, hx, hxn⟩)
  · exact hnd1.1.2.1 rfl
  · exact hnd3.1 (by simp)
  · rw [← h2] at hx
    obtain ⟨g, hg, hgx⟩ := List.mem_filterMap.1 hx
    cases g with
    | orphan m => cases hgx
    | item y =>
      cases hgx
      rcases List.mem_append.1 hg with hg | hg
      · exact hnd2.2.2 n (List.mem_flatMap.2 ⟨_, hg, hxn⟩) n (by simp) rfl
      · rcases List.mem_cons.1 hg with hg | hg
        · cases hg
        · exact hnd3.1 (List.mem_append_left _ (List.mem_flatMap.2 ⟨_, hg, hxn⟩))

theorem sight_create {A : App} {l : List Item} {p : Picture} {lit : Option Nat} (h : Sight A l p lit) {id : Nat}
    (hid : id ∉ l.map Item.key) {ns : Nodes} (hns : ns.new A) (hlit : lit ≠ some p.length) (x y : Int) :
    ∃ A', doOp A (.create x y id) ns = some A' ∧
      Sight A' (l ++ [⟨id, ns.start, ns.stop, [ns.elem]⟩]) (p ++ [(x, y, one)]) lit ∧ A'.bar = A.bar ∧
      A'.nextId = A.nextId ∧ A'.selected = A.selected := by
  obtain ⟨f1, f2, f3, n1, n2, n3⟩ := hns
  have hk : ∀ y ∈ l, y.key ≠ id := fun y hy e => hid (List.mem_map.2 ⟨y, hy, e⟩)
  obtain ⟨s1, e1, g1⟩ := Lists.good_step h.good (op := .insert id none ns.start ns.stop)
    ⟨(fun k hk => by cases hk), f2, f3, n3⟩
  have hf : Lists.find id l = none := Lists.find_none.2 (by rintro ⟨y, hy, e⟩; exact hk y hy e)
  simp only [Lists.specStep, Lists.specInsert, Lists.specLeft, hf, Lists.without_eq hk, Lists.place] at g1
  rw [if_neg (by simp)] at g1
  have hfr : Lists.Fresh s1.dom ns.elem := Lists.call_fresh h.good rfl e1 f1 (by simp [Lists.madeBy, n1, n2])
  obtain ⟨s2, e2, g2⟩ := Lists.good_step g1 (op := .content id [ns.elem])
    ⟨⟨id, ns.start, ns.stop, []⟩, by simp, rfl, by simp, by
      intro n hn
      rw [List.mem_singleton] at hn
      subst hn
      exact Or.inr hfr⟩
  have hl : Lists.specStep (l ++ [⟨id, ns.start, ns.stop, []⟩]) (.content id [ns.elem]) =
      l ++ [⟨id, ns.start, ns.stop, [ns.elem]⟩] := by
    simp only [Lists.specStep, Lists.specContent, List.map_append, List.map_cons, List.map_nil, if_true]
    congr 1
    refine (List.map_congr_left fun y hy => ?_).trans (List.map_id l)
    rw [if_neg (hk y hy)]
    rfl
  rw [hl] at g2
  have hnew : ∀ (i : Nat) (c : Circle), A.circles[i]? = some c → c.elem ≠ ns.elem := by
    intro i c hc e
    have := h.elems_in.subset (List.mem_map.2 ⟨c, List.mem_of_getElem? hc, e⟩)
    exact f1 _ this
  refine ⟨{ A with
      sys := s2
      look := setLook A.look ns.elem fun _ => ⟨x, y, one, false⟩
      displays := fun k => if k = id then ns.elem else A.displays k
      circles := A.circles ++ [⟨x, y, one, ns.elem⟩] }, ?_, ⟨g2, ?_, ?_, ?_, ?_⟩, rfl, rfl, rfl⟩
  · simp only [doOp, Lists.run, e1, e2, bind, Option.bind, pure]
  · simp [h.contents]
  · intro z hz
    rcases List.mem_append.1 hz with hz | hz
    · simp only [if_neg (hk z hz)]
      exact h.shown z hz
    · rw [List.mem_singleton] at hz
      subst hz
      simp
  · simp [h.plain, Circle.plain]
  · intro i c hc
    show setLook A.look ns.elem (fun _ => ⟨x, y, one, false⟩) c.elem = _
    rcases Nat.lt_or_ge i A.circles.length with hi | hi
    · have hc' : A.circles[i]? = some c := by
        rw [← hc]; exact (List.getElem?_append_left hi).symm
      rw [setLook_other _ _ (hnew i c hc'), h.looks i c hc']
    · replace hc : (A.circles ++ [⟨x, y, one, ns.elem⟩])[i]? = some c := hc
      rw [List.getElem?_append_right hi] at hc
      have hi0 : i - A.circles.length = 0 := by
        have := (List.getElem?_eq_some_iff.1 hc).1
        simp at this
        omega
      have hi' : i = p.length := by rw [← h.length]; omega
      rw [hi0] at hc
      cases hc
      rw [setLook_same, hi']
      simp [hlit]

theorem sight_remove {A : App} {l : List Item} {y : Item} {p : Picture} {lit : Option Nat} (h : Sight A (l ++ [y]) p lit)
    (ns : Nodes) :
    ∃ A', doOp A (.remove y.key) ns = some A' ∧ Sight A' l p.dropLast (lit.filter (· < p.dropLast.length)) ∧
      A'.bar = A.bar ∧ A'.nextId = A.nextId ∧ A'.selected = A.selected := by
  have hk : ∀ z ∈ l, z.key ≠ y.key := by
    intro z hz e
    have := h.good.keys
    rw [List.map_append, List.nodup_append] at this
    exact this.2.2 z.key (List.mem_map.2 ⟨z, hz, rfl⟩) y.key (by simp) e
  obtain ⟨s1, e1, g1⟩ := Lists.good_step h.good (op := .remove y.key) trivial
  have hf : Lists.find y.key (l ++ [y]) = some y := Lists.find_split (I2 := []) rfl hk
  have hy := h.shown y (by simp)
  have hw : Lists.without y.key (l ++ [y]) = l := by
    have := Lists.without_split (I1 := l) (I2 := []) (x := y) rfl hk (by simp)
    simpa using this
  simp only [Lists.specStep, Lists.specLeft, hf, hw, hy, List.append_nil] at g1
  obtain ⟨ho1, ho2⟩ := orphan_in g1 (List.mem_singleton.2 rfl)
  have hcont : s1.list.container = A.sys.list.container := Lists.call_list_same rfl e1
  rw [hcont] at ho1
  obtain ⟨s2, e2, g2⟩ := Lists.good_step g1 (op := .vanish A.sys.list.container (A.displays y.key)) ⟨ho1, ho2⟩
  simp only [Lists.specStep, Lists.specLeft] at g2
  have hnil : List.filter (· != A.displays y.key) [A.displays y.key] = [] := by simp
  rw [hnil] at g2
  have hne : A.circles ≠ [] := by
    intro e
    have := h.len_items
    rw [e] at this
    simp at this
  refine ⟨{ A with sys := s2, circles := A.circles.dropLast }, ?_, ⟨g2, ?_, ?_, ?_, ?_⟩, rfl, rfl, rfl⟩
  · simp only [doOp, if_neg hne, Lists.run, e1, e2, bind, Option.bind, pure]
  · show l.map Item.content = A.circles.dropLast.map fun c => [c.elem]
    rw [List.map_dropLast, ← h.contents]
    simp
  · intro z hz
    exact h.shown z (by simp [hz])
  · show A.circles.dropLast.map Circle.plain = _
    rw [List.map_dropLast, h.plain]
  · intro i c hc
    replace hc : A.circles.dropLast[i]? = some c := hc
    have hi := (List.getElem?_eq_some_iff.1 hc).1
    have hc' : A.circles[i]? = some c := by
      rw [List.getElem?_dropLast] at hc
      split at hc
      · exact hc
      · cases hc
    rw [List.length_dropLast, h.length] at hi
    show A.look c.elem = _
    rw [h.looks i c hc']
    congr 1
    rw [List.length_dropLast]
    cases lit with
    | none => rfl
    | some j =>
      rw [Option.filter_some]
      split
      · rfl
      · rename_i hj
        have : j ≠ i := by
          rintro rfl
          simp [hi] at hj
        simp [this]

end Verif.Circles
