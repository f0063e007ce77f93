import Verif.Apps.CirclesLemmas
/-!
# C60: the circle drawer

`circles_undo_redo_partial`: whatever the user does, the document shows what the memory of whole pictures says, and
the buttons are enabled exactly when there is something to undo or redo. Left out is a right click after the
highlighted circle was undone, for which `circles_menu_panics` says when the program panics.
-/
namespace Verif.Circles
open Verif.Dom (NodeId Dom)
open Verif.Lists (Item Good)

/-! ## the nearest circle -/

theorem hitFrom_spec (mx my : Int) (cs : List (Int × Int × Scale)) : ∀ (i : Nat) (best : Option (Nat × Int)),
    (∀ j d, best = some (j, d) → j < i) → ∀ (k : Nat) (d : Int), hitFrom mx my i best cs = some (k, d) ↔
      ((best = some (k, d) ∧ ∀ (j : Nat) (c : Int × Int × Scale), cs[j]? = some c → Inside c mx my →
          d ≤ dist c.1 c.2.1 mx my) ∨
        (∃ (j : Nat) (c : Int × Int × Scale), k = i + j ∧ cs[j]? = some c ∧ Inside c mx my ∧ d = dist c.1 c.2.1 mx my ∧
          (∀ b e, best = some (b, e) → d < e) ∧
          ∀ (j' : Nat) (c' : Int × Int × Scale), cs[j']? = some c' → Inside c' mx my →
            d < dist c'.1 c'.2.1 mx my ∨ (d = dist c'.1 c'.2.1 mx my ∧ j ≤ j'))) := by
  induction cs with
  | nil =>
    intro i best _ k d
    simp [hitFrom]
  | cons c cs ih =>
    intro i best hb k d
    obtain ⟨x, y, s⟩ := c
    have hcase : ∀ best' : Option (Nat × Int), (∀ j d, best' = some (j, d) → j < i + 1) →
        (hitFrom mx my (i + 1) best' cs = some (k, d) ↔ _) := fun best' h => ih (i + 1) best' h k d
    simp only [hitFrom]
    by_cases hin : 16 * dist x y mx my < (s * s : Nat)
    · rw [if_pos hin]
      cases best with
      | none =>
        rw [hcase _ (by intro j d h; cases h; omega)]
        constructor
        · rintro (⟨h1, h2⟩ | ⟨j, c, h1, h2, h3, h4, h5, h6⟩)
          · cases h1
            refine Or.inr ⟨0, (x, y, s), by omega, rfl, hin, rfl, (fun b e h => by cases h), ?_⟩
            intro j' c' hj' hc'
            cases j' with
            | zero => cases hj'; exact Or.inr ⟨rfl, Nat.le_refl _⟩
            | succ j' =>
              have := h2 j' c' hj' hc'
              omega
          · refine Or.inr ⟨j + 1, c, by omega, h2, h3, h4, (fun b e h => by cases h), ?_⟩
            intro j' c' hj' hc'
            cases j' with
            | zero => cases hj'; exact Or.inl (h5 _ _ rfl)
            | succ j' =>
              have := h6 j' c' hj' hc'
              omega
        · rintro (⟨h1, h2⟩ | ⟨j, c, h1, h2, h3, h4, h5, h6⟩)
          · cases h1
          · cases j with
            | zero =>
              cases h2
              refine Or.inl ⟨by subst h1 h4; rfl, ?_⟩
              intro j' c' hj' hc'
              have := h6 (j' + 1) c' hj' hc'
              omega
            | succ j =>
              refine Or.inr ⟨j, c, by omega, h2, h3, h4, ?_, ?_⟩
              · intro b e h
                cases h
                have := h6 0 (x, y, s) rfl hin
                simp only at this
                omega
              · intro j' c' hj' hc'
                have := h6 (j' + 1) c' hj' hc'
                omega
      | some be =>
        obtain ⟨b, e⟩ := be
        have hbi := hb b e rfl
        simp only []
        by_cases hlt : dist x y mx my < e
        · rw [if_pos hlt, hcase _ (by intro j d h; cases h; omega)]
          constructor
          · rintro (⟨h1, h2⟩ | ⟨j, c, h1, h2, h3, h4, h5, h6⟩)
            · cases h1
              refine Or.inr ⟨0, (x, y, s), by omega, rfl, hin, rfl, (fun b' e' h => by cases h; exact hlt), ?_⟩
              intro j' c' hj' hc'
              cases j' with
              | zero => cases hj'; exact Or.inr ⟨rfl, Nat.le_refl _⟩
              | succ j' =>
                have := h2 j' c' hj' hc'
                omega
            · have hd := h5 _ _ rfl
              refine Or.inr ⟨j + 1, c, by omega, h2, h3, h4, (fun b' e' h => by cases h; omega), ?_⟩
              intro j' c' hj' hc'
              cases j' with
              | zero => cases hj'; exact Or.inl hd
              | succ j' =>
                have := h6 j' c' hj' hc'
                omega
          · rintro (⟨h1, h2⟩ | ⟨j, c, h1, h2, h3, h4, h5, h6⟩)
            · cases h1
              have := h2 0 (x, y, s) rfl hin
              simp only at this
              omega
            · cases j with
              | zero =>
                cases h2
                refine Or.inl ⟨by subst h1 h4; rfl, ?_⟩
                intro j' c' hj' hc'
                have := h6 (j' + 1) c' hj' hc'
                omega
              | succ j =>
                refine Or.inr ⟨j, c, by omega, h2, h3, h4, ?_, ?_⟩
                · intro b' e' h
                  cases h
                  have := h6 0 (x, y, s) rfl hin
                  simp only at this
                  omega
                · intro j' c' hj' hc'
                  have := h6 (j' + 1) c' hj' hc'
                  omega
        · rw [if_neg hlt, hcase _ (by intro j d h; cases h; omega)]
          constructor
          · rintro (⟨h1, h2⟩ | ⟨j, c, h1, h2, h3, h4, h5, h6⟩)
            · cases h1
              refine Or.inl ⟨rfl, ?_⟩
              intro j' c' hj' hc'
              cases j' with
              | zero => cases hj'; simp only; omega
              | succ j' => exact h2 j' c' hj' hc'
            · have hd := h5 _ _ rfl
              refine Or.inr ⟨j + 1, c, by omega, h2, h3, h4, h5, ?_⟩
              intro j' c' hj' hc'
              cases j' with
              | zero => cases hj'; simp only; omega
              | succ j' =>
                have := h6 j' c' hj' hc'
                omega
          · rintro (⟨h1, h2⟩ | ⟨j, c, h1, h2, h3, h4, h5, h6⟩)
            · exact Or.inl ⟨h1, fun j' c' hj' hc' => h2 (j' + 1) c' hj' hc'⟩
            · have hd := h5 _ _ rfl
              cases j with
              | zero =>
                cases h2
                simp only at h4
                omega
              | succ j =>
                refine Or.inr ⟨j, c, by omega, h2, h3, h4, h5, ?_⟩
                intro j' c' hj' hc'
                have := h6 (j' + 1) c' hj' hc'
                omega
    · rw [if_neg hin, hcase best (fun j d h => Nat.lt_succ_of_lt (hb j d h))]
      constructor
      · rintro (⟨h1, h2⟩ | ⟨j, c, h1, h2, h3, h4, h5, h6⟩)
        · refine Or.inl ⟨h1, ?_⟩
          intro j' c' hj' hc'
          cases j' with
          | zero => cases hj'; exact absurd hc' hin
          | succ j' => exact h2 j' c' hj' hc'
        · refine Or.inr ⟨j + 1, c, by omega, h2, h3, h4, h5, ?_⟩
          intro j' c' hj' hc'
          cases j' with
          | zero => cases hj'; exact absurd hc' hin
          | succ j' =>
            have := h6 j' c' hj' hc'
            omega
      · rintro (⟨h1, h2⟩ | ⟨j, c, h1, h2, h3, h4, h5, h6⟩)
        · exact Or.inl ⟨h1, fun j' c' hj' hc' => h2 (j' + 1) c' hj' hc'⟩
        · cases j with
          | zero => cases h2; exact absurd h3 hin
          | succ j =>
            refine Or.inr ⟨j, c, by omega, h2, h3, h4, h5, ?_⟩
            intro j' c' hj' hc'
            have := h6 (j' + 1) c' hj' hc'
            omega

/-- **C60.** The circle under the mouse is the one around the point whose centre is nearest, the first such one. -/
theorem circles_nearest (p : Picture) (mx my : Int) (i : Nat) :
    hit p mx my = some i ↔ ∃ c, p[i]? = some c ∧ Inside c mx my ∧
      ∀ (j : Nat) (c' : Int × Int × Scale), p[j]? = some c' → Inside c' mx my →
        dist c.1 c.2.1 mx my < dist c'.1 c'.2.1 mx my ∨ (dist c.1 c.2.1 mx my = dist c'.1 c'.2.1 mx my ∧ i ≤ j) := by
  simp only [hit, Option.map_eq_some_iff]
  constructor
  · rintro ⟨⟨k, d⟩, h, rfl⟩
    rcases (hitFrom_spec mx my p 0 none (fun j d h => by cases h) k d).1 h with ⟨h1, _⟩ | ⟨j, c, h1, h2, h3, h4, _, h6⟩
    · cases h1
    · have : k = j := by omega
      subst this h4
      exact ⟨c, h2, h3, h6⟩
  · rintro ⟨c, h1, h2, h3⟩
    exact ⟨(i, dist c.1 c.2.1 mx my), (hitFrom_spec mx my p 0 none (fun j d h => by cases h) i _).2
      (Or.inr ⟨i, c, by omega, h1, h2, rfl, (fun b e h => by cases h), h3⟩), rfl⟩

theorem hit_lt {p : Picture} {mx my : Int} {i : Nat} (h : hit p mx my = some i) : i < p.length := by
  obtain ⟨c, h1, _⟩ := (circles_nearest p mx my i).1 h
  exact (List.getElem?_eq_some_iff.1 h1).1

/-! ## the operations remember the pictures -/

/-- The operations up to the cursor, the last first, with the pictures they were applied to. -/
inductive Back : List Operation → List Picture → Picture → List Nat → Prop
  | nil (p : Picture) (ks : List Nat) : Back [] [] p ks
  | create {ops past p ks} (x y : Int) (id : Nat) (h : Back ops past p ks) :
      Back (.create x y id :: ops) (p :: past) (p ++ [(x, y, one)]) (ks ++ [id])
  | scale {ops past p ks} (i : Nat) (x y : Int) (f t : Scale) (hi : p[i]? = some (x, y, f)) (h : Back ops past p ks) :
      Back (.changeScale i f t :: ops) (p :: past) (p.set i (x, y, t)) ks

/-- The operations after the cursor, with the pictures they make. -/
inductive Fwd : List Operation → Picture → List Nat → List Picture → Prop
  | nil (p : Picture) (ks : List Nat) : Fwd [] p ks []
  | create {ops p ks fut} (x y : Int) (id : Nat) (hid : id ∉ ks) (h : Fwd ops (p ++ [(x, y, one)]) (ks ++ [id]) fut) :
      Fwd (.create x y id :: ops) p ks ((p ++ [(x, y, one)]) :: fut)
  | scale {ops p ks fut} (i : Nat) (x y : Int) (f t : Scale) (hi : p[i]? = some (x, y, f))
      (h : Fwd ops (p.set i (x, y, t)) ks fut) :
      Fwd (.changeScale i f t :: ops) p ks (p.set i (x, y, t) :: fut)

structure Inv (A : App) (M : Memory) : Prop where
  sight : ∃ (l : List Item) (back fwd : List Operation), Sight A l M.now M.lit ∧
    A.bar = ⟨back.reverse ++ fwd, back.length, back.isEmpty, fwd.isEmpty⟩ ∧
    Back back M.past M.now (l.map Item.key) ∧ Fwd fwd M.now (l.map Item.key) M.future ∧
    (∀ x ∈ l, x.key < A.nextId) ∧ ∀ x y id, Operation.create x y id ∈ fwd → id < A.nextId
  pointed : A.selected = M.pointed
  lit : ∀ i, M.lit = some i → M.pointed = some i ∧ i < M.now.length

theorem add_eq (back fwd : List Operation) (b1 b2 : Bool) (op : Operation) :
    Bar.add ⟨back.reverse ++ fwd, back.length, b1, b2⟩ op = ⟨(op :: back).reverse ++ [], (op :: back).length, (op :: back).isEmpty, true⟩ := by
  simp [Bar.add]

theorem undo_eq (op : Operation) (back fwd : List Operation) (b1 b2 : Bool) :
    (⟨(op :: back).reverse ++ fwd, (op :: back).length, b1, b2⟩ : Bar).undo =
      match op with
      | .changeScale which f t => some (⟨back.reverse ++ (op :: fwd), back.length, back.isEmpty, false⟩, .changeScale which t f)
      | .create _ _ id => some (⟨back.reverse ++ (op :: fwd), back.length, back.isEmpty, false⟩, .remove id)
      | .remove _ => none := by
  have hget : (List.reverse (op :: back) ++ fwd)[back.length]? = some op := by
    simp
  have hemp : (back.length == 0) = back.isEmpty := by cases back <;> rfl
  unfold Bar.undo
  simp only [List.length_cons, Nat.add_sub_cancel, hget]
  rw [if_neg (by omega), hemp]
  cases op <;> simp

theorem redo_eq (op : Operation) (back fwd : List Operation) (b1 b2 : Bool) :
    (⟨back.reverse ++ (op :: fwd), back.length, b1, b2⟩ : Bar).redo =
      some (⟨(op :: back).reverse ++ fwd, (op :: back).length, (op :: back).isEmpty, fwd.isEmpty⟩, op) := by
  have hget : (List.reverse back ++ (op :: fwd))[back.length]? = some op := by
    simp
  have hemp : (back.length + 1 == (back.reverse ++ op :: fwd).length) = fwd.isEmpty := by
    cases fwd <;> simp
  unfold Bar.redo
  simp only [hget, hemp]
  simp

theorem set_set_back {p : Picture} {i : Nat} {c c' : Int × Int × Scale} (h : p[i]? = some c) : (p.set i c').set i c = p := by
  rw [List.set_set]
  obtain ⟨h1, rfl⟩ := List.getElem?_eq_some_iff.1 h
  exact List.set_getElem_self h1

theorem resize_eq {p : Picture} {i : Nat} {x y : Int} {f : Scale} (h : p[i]? = some (x, y, f)) (z : Scale) :
    resize p i z = p.set i (x, y, z) := by
  refine List.ext_getElem? fun j => ?_
  rw [resize, List.getElem?_modify, List.getElem?_set]
  by_cases e : i = j
  · subst e
    obtain ⟨h1, h2⟩ := List.getElem?_eq_some_iff.1 h
    simp [h1, h2]
  · simp [e]

theorem snoc_cases {l : List Item} {ks : List Nat} {id : Nat} (h : ks ++ [id] = l.map Item.key) :
    ∃ l' y, l = l' ++ [y] ∧ l'.map Item.key = ks ∧ y.key = id := by
  rcases List.eq_nil_or_concat l with rfl | ⟨l', y, rfl⟩
  · simp at h
  · rw [List.concat_eq_append, List.map_append, List.map_cons, List.map_nil] at h
    have := List.append_inj' h rfl
    exact ⟨l', y, by simp, this.1.symm, by simpa using this.2.symm⟩

theorem track_same (A : App) (mx my : Int) : (track A mx my).bar = A.bar ∧ (track A mx my).nextId = A.nextId ∧
    (track A mx my).selected = hit (A.circles.map Circle.plain) mx my := by
  unfold track
  by_cases h : hit (A.circles.map Circle.plain) mx my = A.selected <;> simp [h]

theorem inv_track {A : App} {M : Memory} (h : Inv A M) (mx my : Int) : Inv (track A mx my) (M.point mx my) := by
  obtain ⟨l, back, fwd, hs, hb, h1, h2, h3, h4⟩ := h.sight
  obtain ⟨t1, t2, t3⟩ := track_same A mx my
  refine ⟨⟨l, back, fwd, ?_, t1.trans hb, h1, h2, ?_, ?_⟩, ?_, ?_⟩
  · exact sight_track hs (fun i hi => h.pointed.trans (h.lit i hi).1) mx my
  · rw [t2]; exact h3
  · rw [t2]; exact h4
  · rw [t3, hs.plain]; rfl
  · intro i hi
    exact ⟨hi, hit_lt hi⟩

/-- an operation that is not redone -/
theorem inv_create {A : App} {M : Memory} (h : Inv A M) (x y : Int) {ns : Nodes} (hns : ns.new A) :
    ∃ A', doOp { A with nextId := A.nextId + 1, bar := A.bar.add (.create x y A.nextId) } (.create x y A.nextId) ns = some A' ∧
      Inv A' (M.draw (M.now ++ [(x, y, one)])) := by
  obtain ⟨l, back, fwd, hs, hb, h1, h2, h3, h4⟩ := h.sight
  have hs' : Sight { A with nextId := A.nextId + 1, bar := A.bar.add (.create x y A.nextId) } l M.now M.lit :=
    ⟨hs.good, hs.contents, hs.shown, hs.plain, hs.looks⟩
  have hid : A.nextId ∉ l.map Item.key := by
    intro hm
    obtain ⟨z, hz, e⟩ := List.mem_map.1 hm
    have := h3 z hz
    rw [e] at this
    exact Nat.lt_irrefl _ this
  obtain ⟨A', e, s', b', n', p'⟩ := sight_create hs' hid hns
    (fun hl => Nat.lt_irrefl _ (h.lit _ hl).2) x y
  refine ⟨A', e, ⟨⟨_, .create x y A.nextId :: back, [], s', ?_, ?_, ?_, ?_, ?_⟩, p'.trans h.pointed, ?_⟩⟩
  · rw [b', hb]
    exact add_eq back fwd _ _ _
  · rw [List.map_append]
    exact h1.create x y A.nextId
  · exact .nil _ _
  · intro z hz
    rw [n']
    rcases List.mem_append.1 hz with hz | hz
    · exact Nat.lt_succ_of_lt (h3 z hz)
    · rw [List.mem_singleton] at hz
      subst hz
      exact Nat.lt_succ_self _
  · intro x y id hm; cases hm
  · intro i hi
    refine ⟨(h.lit i hi).1, ?_⟩
    have := (h.lit i hi).2
    simp only [Memory.draw, List.length_append]
    omega

theorem menu_eq {A : App} {i : Nat} {c : Circle} (hi : A.selected = some i) (hc : A.circles[i]? = some c) (values : List Scale) :
    step A (.menu values) =
      match values.getLast? with
      | none => some A
      | some z => doOp { A with bar := A.bar.add (.changeScale i c.scale z) } (.changeScale i c.scale z) ⟨0, 0, 0⟩ := by
  obtain ⟨sys, look, displays, circles, selected, bar, nextId⟩ := A
  simp only at hi hc
  subst hi
  simp only [step, hc]
  cases hl : values.getLast? with
  | none =>
    rw [List.getLast?_eq_none_iff] at hl
    subst hl
    rfl
  | some z => simp only [doOp, hc, slide_then]

theorem inv_step {A : App} {M : Memory} (h : Inv A M) {e : Event} (ha : Allowed A M e) :
    ∃ A', step A e = some A' ∧ Inv A' (M.next e) := by
  cases e with
  | move mx my => exact ⟨_, rfl, inv_track h mx my⟩
  | click mx my ns =>
    obtain ⟨A', e1, h1⟩ := inv_create h mx my ha
    exact ⟨track A' mx my, by simp only [step, e1, bind, Option.bind, pure], inv_track h1 mx my⟩
  | menu values =>
    obtain ⟨l, back, fwd, hs, hb, h1, h2, h3, h4⟩ := h.sight
    cases hp : M.pointed with
    | none =>
      refine ⟨A, by simp only [step, h.pointed, hp], ?_⟩
      simp only [Memory.next, hp]
      exact h
    | some i =>
      have hi := ha i hp
      obtain ⟨⟨x, y, f⟩, hpi⟩ : ∃ c, M.now[i]? = some c := ⟨_, List.getElem?_eq_getElem hi⟩
      obtain ⟨c, hc, rfl, rfl, rfl⟩ := hs.get hpi
      rw [menu_eq (h.pointed.trans hp) hc]
      simp only [Memory.next, hp]
      cases hl : values.getLast? with
      | none => exact ⟨A, rfl, h⟩
      | some z =>
        simp only []
        have hs' : Sight { A with bar := A.bar.add (.changeScale i c.scale z) } l M.now M.lit :=
          ⟨hs.good, hs.contents, hs.shown, hs.plain, hs.looks⟩
        obtain ⟨A', e, s', b', n', p'⟩ := sight_scale hs' hpi c.scale z ⟨0, 0, 0⟩
        refine ⟨A', e, ⟨⟨l, .changeScale i c.scale z :: back, [], ?_, ?_, ?_, .nil _ _, ?_, ?_⟩, p'.trans h.pointed, ?_⟩⟩
        · simp only [Memory.draw, resize_eq hpi]
          exact s'
        · rw [b', hb]
          exact add_eq back fwd _ _ _
        · simp only [Memory.draw, resize_eq hpi]
          exact h1.scale i _ _ _ _ hpi
        · rw [n']; exact h3
        · intro x y id hm; cases hm
        · intro j hj
          refine ⟨(h.lit j hj).1, ?_⟩
          simp only [Memory.draw, resize_eq hpi, List.length_set]
          exact (h.lit j hj).2
  | undo =>
    obtain ⟨l, back, fwd, hs, hb, h1, h2, h3, h4⟩ := h.sight
    cases back with
    | nil =>
      refine ⟨A, by simp [step, hb], ?_⟩
      generalize hpast : M.past = past at h1
      cases h1
      simp only [Memory.next, hpast]
      exact h
    | cons op back =>
      have hoff : A.bar.undoOff = false := by rw [hb]; rfl
      have hun := undo_eq op back fwd (op :: back).isEmpty fwd.isEmpty
      rw [← hb] at hun
      generalize hpast : M.past = past at h1
      generalize hnow : M.now = now at h1
      generalize hks : l.map Item.key = ks at h1
      cases h1 with
      | @create _ past p ks x y id hback =>
        obtain ⟨l', z, rfl, rfl, rfl⟩ := snoc_cases hks.symm
        have hs' : Sight { A with bar := ⟨back.reverse ++ (.create x y z.key :: fwd), back.length, back.isEmpty, false⟩ }
            (l' ++ [z]) M.now M.lit := ⟨hs.good, hs.contents, hs.shown, hs.plain, hs.looks⟩
        obtain ⟨A', e, s', b', n', p'⟩ := sight_remove hs' ⟨0, 0, 0⟩
        have hdl : M.now.dropLast = p := by rw [hnow]; simp
        rw [hdl] at s'
        refine ⟨A', by simp only [step, hoff, hun, bind, Option.bind, e]; rfl, ⟨⟨l', back, .create x y z.key :: fwd, ?_, ?_, ?_, ?_, ?_, ?_⟩, ?_, ?_⟩⟩
        · simp only [Memory.next, hpast]; exact s'
        · rw [b']; rfl
        · simp only [Memory.next, hpast]; exact hback
        · simp only [Memory.next, hpast]
          have hfresh : z.key ∉ l'.map Item.key := by
            have := hs.good.keys
            rw [List.map_append, List.nodup_append] at this
            intro hm
            exact this.2.2 _ hm _ (by simp) rfl
          rw [hnow]
          refine .create x y z.key hfresh ?_
          rw [List.map_append, hnow] at h2
          exact h2
        · rw [n']; exact fun w hw => h3 w (by simp [hw])
        · rw [n']
          intro x' y' id' hm
          rcases List.mem_cons.1 hm with hm | hm
          · cases hm
            exact h3 z (by simp)
          · exact h4 x' y' id' hm
        · simp only [Memory.next, hpast]; exact p'.trans h.pointed
        · intro i hi
          simp only [Memory.next, hpast] at hi ⊢
          rw [Option.filter_eq_some_iff] at hi
          exact ⟨(h.lit i hi.1).1, by simpa using hi.2⟩
      | @scale _ past p ks i x y f t hi hback =>
        subst hks
        have hlt := (List.getElem?_eq_some_iff.1 hi).1
        have hpi : M.now[i]? = some (x, y, t) := by rw [hnow]; simp [hlt]
        have hs' : Sight { A with bar := ⟨back.reverse ++ (.changeScale i f t :: fwd), back.length, back.isEmpty, false⟩ }
            l M.now M.lit := ⟨hs.good, hs.contents, hs.shown, hs.plain, hs.looks⟩
        obtain ⟨A', e, s', b', n', p'⟩ := sight_scale hs' hpi t f ⟨0, 0, 0⟩
        have hset : M.now.set i (x, y, f) = p := by rw [hnow]; exact set_set_back hi
        rw [hset] at s'
        have hlen : M.now.length = p.length := by rw [hnow]; simp
        have hlit : M.lit.filter (· < p.length) = M.lit := by
          cases hl : M.lit with
          | none => rfl
          | some j =>
            have := (h.lit j hl).2
            simp [Option.filter_some, ← hlen, this]
        refine ⟨A', by simp only [step, hoff, hun, bind, Option.bind, e]; rfl, ⟨⟨l, back, .changeScale i f t :: fwd, ?_, ?_, ?_, ?_, ?_, ?_⟩, ?_, ?_⟩⟩
        · simp only [Memory.next, hpast, hlit]; exact s'
        · rw [b']; rfl
        · simp only [Memory.next, hpast]; exact hback
        · simp only [Memory.next, hpast]
          rw [hnow] at h2 ⊢
          exact .scale i x y f t hi h2
        · rw [n']; exact h3
        · rw [n']
          intro x' y' id' hm
          rcases List.mem_cons.1 hm with hm | hm
          · cases hm
          · exact h4 x' y' id' hm
        · simp only [Memory.next, hpast]; exact p'.trans h.pointed
        · intro j hj
          simp only [Memory.next, hpast, hlit] at hj ⊢
          rw [← hlen]
          exact h.lit j hj
  | redo ns =>
    obtain ⟨l, back, fwd, hs, hb, h1, h2, h3, h4⟩ := h.sight
    cases fwd with
    | nil =>
      refine ⟨A, by simp [step, hb], ?_⟩
      generalize hfut : M.future = fut at h2
      cases h2
      simp only [Memory.next, hfut]
      exact h
    | cons op fwd =>
      have hoff : A.bar.redoOff = false := by rw [hb]; rfl
      have hre := redo_eq op back fwd back.isEmpty (op :: fwd).isEmpty
      rw [← hb] at hre
      generalize hfut : M.future = fut at h2
      cases h2 with
      | @create _ _ _ fut x y id hid hf =>
        have hs' : Sight { A with bar := ⟨(.create x y id :: back).reverse ++ fwd, (Operation.create x y id :: back).length, (Operation.create x y id :: back).isEmpty, fwd.isEmpty⟩ }
            l M.now M.lit := ⟨hs.good, hs.contents, hs.shown, hs.plain, hs.looks⟩
        obtain ⟨A', e, s', b', n', p'⟩ := sight_create hs' hid ha
          (fun hl => Nat.lt_irrefl _ (h.lit _ hl).2) x y
        refine ⟨A', by simp only [step, hoff, hre, bind, Option.bind, e]; rfl, ⟨⟨l ++ [⟨id, ns.start, ns.stop, [ns.elem]⟩],
          .create x y id :: back, fwd, ?_, ?_, ?_, ?_, ?_, ?_⟩, ?_, ?_⟩⟩
        · simp only [Memory.next, hfut]; exact s'
        · rw [b']
        · simp only [Memory.next, hfut]
          rw [List.map_append]
          exact h1.create x y id
        · simp only [Memory.next, hfut]
          rw [List.map_append]
          exact hf
        · intro w hw
          rw [n']
          rcases List.mem_append.1 hw with hw | hw
          · exact h3 w hw
          · rw [List.mem_singleton] at hw
            subst hw
            exact h4 x y id (by simp)
        · rw [n']
          exact fun x' y' id' hm => h4 x' y' id' (by simp [hm])
        · simp only [Memory.next, hfut]; exact p'.trans h.pointed
        · intro i hi
          simp only [Memory.next, hfut] at hi ⊢
          have := h.lit i hi
          refine ⟨this.1, ?_⟩
          simp only [List.length_append]
          omega
      | @scale _ _ _ fut i x y f t hi hf =>
        have hs' : Sight { A with bar := ⟨(.changeScale i f t :: back).reverse ++ fwd, (Operation.changeScale i f t :: back).length, (Operation.changeScale i f t :: back).isEmpty, fwd.isEmpty⟩ }
            l M.now M.lit := ⟨hs.good, hs.contents, hs.shown, hs.plain, hs.looks⟩
        obtain ⟨A', e, s', b', n', p'⟩ := sight_scale hs' hi f t ns
        refine ⟨A', by simp only [step, hoff, hre, bind, Option.bind, e]; rfl, ⟨⟨l, .changeScale i f t :: back, fwd, ?_, ?_, ?_, ?_, ?_, ?_⟩, ?_, ?_⟩⟩
        · simp only [Memory.next, hfut]; exact s'
        · rw [b']
        · simp only [Memory.next, hfut]
          exact h1.scale i x y f t hi
        · simp only [Memory.next, hfut]; exact hf
        · rw [n']; exact h3
        · rw [n']; exact fun x' y' id' hm => h4 x' y' id' (by simp [hm])
        · simp only [Memory.next, hfut]; exact p'.trans h.pointed
        · intro j hj
          simp only [Memory.next, hfut] at hj ⊢
          rw [List.length_set]
          exact h.lit j hj
  | env op =>
    simp only [step]
    split
    · rename_i he
      obtain ⟨l, back, fwd, hs, hb, h1, h2, h3, h4⟩ := h.sight
      obtain ⟨s', e, g⟩ := Lists.good_step hs.good (ha l hs.good.shows)
      have hst : Lists.specStep l op = l := by cases op <;> first | rfl | cases he
      have hlf : Lists.specLeft l [] op = [] := by cases op <;> first | rfl | cases he
      rw [hst, hlf] at g
      exact ⟨{ A with sys := s' }, by simp only [e, bind, Option.bind, pure],
        ⟨⟨l, back, fwd, ⟨g, hs.contents, hs.shown, hs.plain, hs.looks⟩, hb, h1, h2, h3, h4⟩, h.pointed, h.lit⟩⟩
    · exact ⟨A, rfl, h⟩

theorem inv_run (es : List Event) : ∀ {A : App} {M : Memory}, Inv A M → AllowedRun A M es →
    ∃ A', run A es = some A' ∧ Inv A' (M.after es) := by
  induction es with
  | nil => intro A M h _; exact ⟨A, rfl, h⟩
  | cons e es ih =>
    intro A M h ha
    obtain ⟨A1, e1, h1⟩ := inv_step h ha.1
    obtain ⟨A2, e2, h2⟩ := ih h1 (ha.2 A1 e1)
    exact ⟨A2, by simp only [run, e1, bind, Option.bind, e2], h2⟩

theorem inv_init {s : Lists.Sys} (h : Good s [] []) : Inv (init s) Memory.start :=
  ⟨⟨[], [], [], ⟨h, rfl, (fun x hx => by cases hx), rfl, (fun i c hc => by simp [init] at hc)⟩, rfl, .nil _ _, .nil _ _,
    (fun x hx => by cases hx), (fun x y id hm => by cases hm)⟩, rfl, (fun i hi => by cases hi)⟩

theorem Inv.draws {A : App} {M : Memory} (h : Inv A M) : Draws A M := by
  obtain ⟨l, back, fwd, hs, _⟩ := h.sight
  refine ⟨l, A.circles.map Circle.elem, hs.good.shows, ?_, ?_⟩
  · rw [hs.contents, List.map_map]; rfl
  · refine List.ext_getElem? fun i => ?_
    rw [Memory.looks, ← hs.plain]
    simp only [List.map_map, List.getElem?_map, List.getElem?_zipIdx, Option.map_map]
    cases hc : A.circles[i]? with
    | none => rfl
    | some c =>
      simp only [Option.map_some, Function.comp, Circle.plain, Nat.zero_add, Option.some.injEq]
      exact hs.looks i c hc

theorem back_nil {ops : List Operation} {past : List Picture} {p : Picture} {ks : List Nat} (h : Back ops past p ks) :
    ops.isEmpty = true ↔ past = [] := by
  cases h <;> simp

theorem fwd_nil {ops : List Operation} {fut : List Picture} {p : Picture} {ks : List Nat} (h : Fwd ops p ks fut) :
    ops.isEmpty = true ↔ fut = [] := by
  cases h <;> simp

/-- **C60.** Start the circle drawer with a new list in any document. After any allowed history there was no panic,
the document shows exactly the circles of the present picture in the order in which they were drawn, with their
places and sizes and the right one highlighted, and a button is disabled exactly when there is nothing to undo or
redo. Pictures are as in `Memory.next`: undo shows the picture before the last change, redo the one that was undone,
and a new change forgets what was undone.

Missing: a right click after the circle under the mouse was undone. -/
theorem circles_undo_redo_partial {d : Dom} {frag ls le : NodeId} (hd : Lists.Proper d) (hf : d.kids frag = [])
    (hne : ls ≠ le) (es : List Event) :
    ∃ d0 L0, Lists.new d frag ls le = some (d0, L0) ∧
      (AllowedRun (init ⟨d0, L0⟩) Memory.start es → ∃ A, run (init ⟨d0, L0⟩) es = some A ∧
        Draws A (Memory.start.after es) ∧
        (A.bar.undoOff = true ↔ (Memory.start.after es).past = []) ∧
        (A.bar.redoOff = true ↔ (Memory.start.after es).future = [])) := by
  obtain ⟨d0, L0, h, hg⟩ := Lists.good_new hd hf hne
  refine ⟨d0, L0, h, fun ha => ?_⟩
  obtain ⟨A, e, hi⟩ := inv_run es (inv_init hg) ha
  obtain ⟨l, back, fwd, _, hb, h1, h2, _⟩ := hi.sight
  refine ⟨A, e, hi.draws, ?_, ?_⟩
  · rw [hb]; exact back_nil h1
  · rw [hb]; exact fwd_nil h2

/-- **C60.** When the missing case panics: exactly when the last circle under the mouse is no longer there. -/
theorem circles_menu_panics {d : Dom} {frag ls le : NodeId} (hd : Lists.Proper d) (hf : d.kids frag = [])
    (hne : ls ≠ le) (es : List Event) (values : List Scale) :
    ∃ d0 L0, Lists.new d frag ls le = some (d0, L0) ∧
      (AllowedRun (init ⟨d0, L0⟩) Memory.start es →
        (run (init ⟨d0, L0⟩) (es ++ [.menu values]) = none ↔
          ∃ i, (Memory.start.after es).pointed = some i ∧ (Memory.start.after es).now.length ≤ i)) := by
  obtain ⟨d0, L0, h, hg⟩ := Lists.good_new hd hf hne
  refine ⟨d0, L0, h, fun ha => ?_⟩
  obtain ⟨A, e, hi⟩ := inv_run es (inv_init hg) ha
  have happ : ∀ (es es' : List Event) (A : App), run A (es ++ es') = (run A es).bind fun A' => run A' es' := by
    intro es es'
    induction es with
    | nil => intro A; rfl
    | cons e es ih =>
      intro A
      simp only [List.cons_append, run, bind]
      cases step A e with
      | none => rfl
      | some A1 => exact ih A1
  rw [happ, e]
  have hrun : ∀ A : App, run A [.menu values] = step A (.menu values) := by
    intro A
    simp only [run, bind]
    cases step A (.menu values) <;> rfl
  simp only [Option.bind_some, hrun]
  constructor
  · intro hn
    apply Classical.byContradiction
    intro hno
    obtain ⟨A', e', _⟩ := inv_step hi (e := .menu values) (fun i hp => by
      apply Classical.byContradiction
      intro hge
      exact hno ⟨i, hp, by omega⟩)
    rw [hn] at e'
    cases e'
  · rintro ⟨i, hp, hge⟩
    obtain ⟨l, back, fwd, hs, _⟩ := hi.sight
    have hnone : A.circles[i]? = none := List.getElem?_eq_none (by rw [hs.length]; exact hge)
    simp only [step, hi.pointed, hp, hnone]

/-! ## examples -/

section Examples
open Verif.Lists (fresh)

theorem within_run {sup : List NodeId} (ops : List Lists.Op) : ∀ {s s' : Lists.Sys} {as : List (Option Bool)},
    Lists.Within sup s → (∀ op ∈ ops, Lists.opWithin sup op = true) → Lists.run s ops = some (s', as) → Lists.Within sup s' := by
  induction ops with
  | nil => intro s s' as hw _ h; cases h; exact hw
  | cons op ops ih =>
    intro s s' as hw ho h
    simp only [Lists.run, Option.bind_eq_bind, Option.bind_eq_some_iff, pure, Option.some.injEq] at h
    obtain ⟨⟨s1, a⟩, e1, ⟨s2, as2⟩, e2, h⟩ := h
    cases h
    exact ih (Lists.within_step hw (ho op (by simp)) e1) (fun op h => ho op (by simp [h])) e2

theorem within_doOp {sup : List NodeId} {A A' : App} (hw : Lists.Within sup A.sys) {op : Operation} {ns : Nodes}
    (h : doOp A op ns = some A') : Lists.Within sup A'.sys := by
  cases op with
  | create x y id =>
    simp only [doOp, Option.bind_eq_bind, Option.bind_eq_some_iff, pure, Option.some.injEq] at h
    obtain ⟨⟨s, as⟩, e, h⟩ := h
    subst h
    exact within_run _ hw (by intro op ho; simp only [List.mem_cons, List.not_mem_nil, or_false] at ho; rcases ho with rfl | rfl <;> rfl) e
  | remove id =>
    simp only [doOp] at h
    split at h
    · cases h
    · simp only [Option.bind_eq_bind, Option.bind_eq_some_iff, pure, Option.some.injEq] at h
      obtain ⟨⟨s, as⟩, e, h⟩ := h
      subst h
      refine within_run _ hw ?_ e
      intro op ho
      simp only [List.mem_cons, List.not_mem_nil, or_false] at ho
      rcases ho with rfl | rfl <;> rfl
  | changeScale i f t =>
    simp only [doOp] at h
    split at h
    · cases h; exact hw
    · cases h

def eventWithin (sup : List NodeId) : Event → Bool
  | .env op => Lists.opWithin sup op
  | _ => true

theorem within_track {sup : List NodeId} {A : App} (hw : Lists.Within sup A.sys) (mx my : Int) :
    Lists.Within sup (track A mx my).sys := by
  unfold track
  by_cases h : hit (A.circles.map Circle.plain) mx my = A.selected <;> simp [h] <;> exact hw

theorem within_event {sup : List NodeId} {A A' : App} (hw : Lists.Within sup A.sys) {e : Event}
    (he : eventWithin sup e = true) (h : step A e = some A') : Lists.Within sup A'.sys := by
  cases e with
  | move mx my => cases h; exact within_track hw mx my
  | click mx my ns =>
    simp only [step, Option.bind_eq_bind, Option.bind_eq_some_iff, pure, Option.some.injEq] at h
    obtain ⟨A1, e, h⟩ := h
    subst h
    refine within_track (within_doOp ?_ e) mx my; exact hw
  | menu values =>
    simp only [step] at h
    split at h
    · cases h; exact hw
    · split at h
      · cases h
      · split at h
        · cases h; exact hw
        · refine within_doOp ?_ h; exact hw
  | undo =>
    simp only [step] at h
    split at h
    · cases h; exact hw
    · simp only [Option.bind_eq_bind, Option.bind_eq_some_iff] at h
      obtain ⟨⟨b, op⟩, e, h⟩ := h
      refine within_doOp ?_ h; exact hw
  | redo ns =>
    simp only [step] at h
    split at h
    · cases h; exact hw
    · simp only [Option.bind_eq_bind, Option.bind_eq_some_iff] at h
      obtain ⟨⟨b, op⟩, e, h⟩ := h
      refine within_doOp ?_ h; exact hw
  | env op =>
    simp only [step] at h
    split at h
    · simp only [Option.bind_eq_bind, Option.bind_eq_some_iff, pure, Option.some.injEq] at h
      obtain ⟨⟨s, a⟩, e, h⟩ := h
      subst h
      exact Lists.within_step hw he e
    · cases h; exact hw

def newB (sup : List NodeId) (A : App) (ns : Nodes) : Bool :=
  Lists.freshB sup A.sys.dom ns.elem && Lists.freshB sup A.sys.dom ns.start && Lists.freshB sup A.sys.dom ns.stop &&
    (ns.elem != ns.start && ns.elem != ns.stop && ns.start != ns.stop)

theorem new_of {sup : List NodeId} {A : App} {ns : Nodes} (hw : Lists.Within sup A.sys) (h : newB sup A ns = true) : ns.new A := by
  simp only [newB, Bool.and_eq_true, bne_iff_ne, ne_eq] at h
  exact ⟨Lists.fresh_of hw h.1.1.1, Lists.fresh_of hw h.1.1.2, Lists.fresh_of hw h.1.2, h.2.1.1, h.2.1.2, h.2.2⟩

def allowedB (sup : List NodeId) (A : App) (M : Memory) : Event → Bool
  | .move _ _ => true
  | .click _ _ ns => newB sup A ns
  | .menu _ => match M.pointed with | some i => decide (i < M.now.length) | none => true
  | .undo => true
  | .redo ns => newB sup A ns
  | .env (.render p r) => Lists.allowedB sup A.sys [] (.render p r)
  | .env .unrender => Lists.allowedB sup A.sys [] .unrender
  | .env _ => false

theorem allowed_of {sup : List NodeId} {A : App} {M : Memory} {e : Event} (hw : Lists.Within sup A.sys)
    (h : allowedB sup A M e = true) : Allowed A M e := by
  cases e with
  | move mx my => trivial
  | click mx my ns => exact new_of hw h
  | menu values =>
    intro i hi
    simp only [allowedB, hi, decide_eq_true_eq] at h
    exact h
  | undo => trivial
  | redo ns => exact new_of hw h
  | env op =>
    intro l _
    cases op with
    | render p r => exact (Lists.allowed_of hw h : Lists.Allowed A.sys [] (.render p r))
    | unrender => exact (Lists.allowed_of hw h : Lists.Allowed A.sys [] .unrender)
    | _ => cases h

def allowedRunB (sup : List NodeId) (A : App) (M : Memory) : List Event → Bool
  | [] => true
  | e :: es => allowedB sup A M e && eventWithin sup e &&
      match step A e with
      | none => true
      | some A' => allowedRunB sup A' (M.next e) es

theorem allowedRun_of {sup : List NodeId} (es : List Event) : ∀ {A : App} {M : Memory},
    Lists.Within sup A.sys → allowedRunB sup A M es = true → AllowedRun A M es := by
  induction es with
  | nil => intro A M _ _; trivial
  | cons e es ih =>
    intro A M hw h
    simp only [allowedRunB, Bool.and_eq_true] at h
    refine ⟨allowed_of hw h.1.1, ?_⟩
    intro A' hs
    rw [hs] at h
    exact ih (within_event hw h.1.2 hs) h.2

/-- nodes for the circle number `n` -/
def demoNodes (n : Nat) : Nodes := ⟨1000 + 3 * n, 1001 + 3 * n, 1002 + 3 * n⟩

/-- Two circles, the first one made bigger, everything undone, and two changes redone; the list is on the page since
the first circle. -/
def demo : List Event :=
  [.click 10 10 (demoNodes 0), .env (.render 200 none), .click 90 90 (demoNodes 1), .move 12 11, .menu [120, 160],
    .undo, .undo, .undo, .redo (demoNodes 2), .redo (demoNodes 3)]

example : (run (init fresh) demo).map (fun A => (A.bar.undoOff, A.bar.redoOff, A.sys.dom.kids 200, A.look 1006, A.look 1009)) =
    some (false, false, [1, 1007, 1006, 1008, 1010, 1009, 1011, 2], ⟨10, 10, 100, false⟩, ⟨90, 90, 100, false⟩) := by
  decide +kernel

example : (Memory.start.after demo).now = [(10, 10, 100), (90, 90, 100)] ∧
    (Memory.start.after demo).past = [[(10, 10, 100)], []] ∧
    (Memory.start.after demo).future = [[(10, 10, 160), (90, 90, 100)]] := by decide +kernel

theorem demo_allowed : AllowedRun (init fresh) Memory.start demo :=
  allowedRun_of demo (A := init fresh) Lists.within_fresh (by decide +kernel)

/-- The theorem applied to the example. -/
example : ∃ A, run (init fresh) demo = some A ∧ Draws A (Memory.start.after demo) := by
  obtain ⟨d0, L0, h0, h⟩ := circles_undo_redo_partial Lists.proper_blank (frag := 100) (ls := 1) (le := 2) rfl (by decide) demo
  rw [Lists.new_blank] at h0
  cases h0
  obtain ⟨A, h1, h2, _⟩ := h demo_allowed
  exact ⟨A, h1, h2⟩

/-- **C60.** The property without the exception is false: draw a circle, undo it, and click the right button without
moving the mouse. -/
theorem circles_menu_after_undo :
    run (init fresh) [.click 10 10 (demoNodes 0), .undo] ≠ none ∧
    AllowedRun (init fresh) Memory.start [.click 10 10 (demoNodes 0), .undo] ∧
    ∀ values, run (init fresh) [.click 10 10 (demoNodes 0), .undo, .menu values] = none := by
  have ha : AllowedRun (init fresh) Memory.start [.click 10 10 (demoNodes 0), .undo] :=
    allowedRun_of _ (A := init fresh) Lists.within_fresh (by decide +kernel)
  refine ⟨?_, ha, ?_⟩
  · intro h
    have : (run (init fresh) [.click 10 10 (demoNodes 0), .undo]).isSome = true := by decide +kernel
    rw [h] at this
    cases this
  · intro values
    obtain ⟨d0, L0, h0, h⟩ := circles_menu_panics Lists.proper_blank (frag := 100) (ls := 1) (le := 2) rfl (by decide)
      [.click 10 10 (demoNodes 0), .undo] values
    rw [Lists.new_blank] at h0
    cases h0
    exact (h ha).2 ⟨0, by decide +kernel, by decide +kernel⟩

/-- two circles around the point: the nearer one, and the first of two at the same distance -/
example : hit [(0, 0, 200), (10, 0, 100), (40, 0, 100)] 9 0 = some 1 ∧ hit [(0, 0, 100), (20, 0, 100)] 10 0 = some 0 ∧
    hit [(0, 0, 100)] 25 0 = none := by decide +kernel

end Examples

end Verif.Circles
