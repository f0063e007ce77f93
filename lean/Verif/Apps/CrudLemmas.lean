import Verif.Apps.CrudSpec
import Verif.Lists.DynamicProps
import Verif.Lists.ItemsInv
import Verif.Apps.CirclesLemmas
/-! # One event of the list of persons -/
namespace Verif.Crud
open Verif.Dom (NodeId Dom)
open Verif.Lists (Item Good)

/-! ## nodes and options -/

/-- Only the elements of `D` count. -/
theorem filterMap_sub {α β : Type} {f : α → Option β} {D L : List α} (hs : List.Sublist D L) :
    L.Nodup → (∀ n ∈ L, (f n).isSome → n ∈ D) → L.filterMap f = D.filterMap f := by
  induction hs with
  | slnil => intro _ _; rfl
  | @cons D L a hs ih =>
    intro hn h
    rw [List.nodup_cons] at hn
    have ha : f a = none := by
      cases hf : f a with
      | none => rfl
      | some b => exact absurd (hs.subset (h a (by simp) (by simp [hf]))) hn.1
    rw [List.filterMap_cons_none ha]
    exact ih hn.2 fun n hm => h n (List.mem_cons_of_mem _ hm)
  | @cons_cons D L a hs ih =>
    intro hn h
    rw [List.nodup_cons] at hn
    have ih := ih hn.2 fun n hm hf => by
      rcases List.mem_cons.1 (h n (List.mem_cons_of_mem _ hm) hf) with e | e
      · subst e; exact absurd hm hn.1
      · exact e
    rw [List.filterMap_cons, List.filterMap_cons, ih]

theorem insertBefore_mem {d d' : Dom} {c n : NodeId} {r : Option NodeId} (h : d.insertBefore c n r = some d') {x m : NodeId}
    (hm : m ∈ d'.kids x) : m ∈ d.kids x ∨ m = n := by
  have hin : ∀ (q : NodeId) (l : List NodeId), m ∈ Dom.insertBeforeIn n q l → m ∈ l ∨ m = n := by
    intro q l
    induction l with
    | nil => intro h; simpa [Dom.insertBeforeIn] using h
    | cons y l ih =>
      intro h
      simp only [Dom.insertBeforeIn] at h
      split at h
      · rcases List.mem_cons.1 h with h | h
        · exact Or.inr h
        · exact Or.inl h
      · rcases List.mem_cons.1 h with h | h
        · exact Or.inl (by simp [h])
        · rcases ih h with h | h
          · exact Or.inl (List.mem_cons_of_mem _ h)
          · exact Or.inr h
  have hd : ∀ x, m ∈ (d.detach n).kids x → m ∈ d.kids x := fun x h => (List.mem_filter.1 h).1
  cases r with
  | none =>
    simp only [Dom.Dom.insertBefore, Option.some.injEq] at h
    subst h
    simp only at hm
    split at hm
    · rcases List.mem_append.1 hm with h | h
      · exact Or.inl (hd _ h)
      · exact Or.inr (by simpa using h)
    · exact Or.inl (hd _ hm)
  | some q =>
    simp only [Dom.Dom.insertBefore] at h
    split at h
    · split at h
      · cases h; exact Or.inl hm
      · simp only [Option.some.injEq] at h
        subst h
        simp only at hm
        split at hm
        · rcases hin _ _ hm with h | h
          · exact Or.inl (hd _ h)
          · exact Or.inr h
        · exact Or.inl (hd _ hm)
    · cases h

theorem removeChild_mem {d d' : Dom} {c n : NodeId} (h : d.removeChild c n = some d') {x m : NodeId}
    (hm : m ∈ d'.kids x) : m ∈ d.kids x := by
  simp only [Dom.Dom.removeChild] at h
  split at h
  · simp only [Option.some.injEq] at h
    subst h
    simp only at hm
    split at hm
    · exact (List.mem_filter.1 hm).1
    · exact hm
  · cases h

theorem removeMarkers_mem {d d' : Dom} {c : NodeId} {x : Lists.Stored} (h : Lists.removeMarkers d c x = some d') {y m : NodeId}
    (hm : m ∈ d'.kids y) : m ∈ d.kids y := by
  simp only [Lists.removeMarkers, Option.bind_eq_bind, Option.bind_eq_some_iff] at h
  obtain ⟨d1, e1, e2⟩ := h
  exact removeChild_mem e1 (removeChild_mem e2 hm)

/-- The document shows the persons, and the variables agree. -/
structure Sight (A : App) (l : List Item) (B : Book) : Prop where
  good : Good A.sys l []
  place : A.sys.list.container = A.select
  keys : l.map Item.key = B.persons.map Person.id
  shown : ∀ x ∈ l, x.content = [A.displays x.key]
  only : ∀ n ∈ A.sys.dom.kids A.select, (A.look n).isSome → ∃ p ∈ B.persons, n = A.displays p.id
  looks : ∀ p ∈ B.persons, A.look (A.displays p.id) = some (B.row p)
  people : A.people.Perm (B.persons.map fun p => (p.id, A.displays p.id, p.name))
  counter : A.counter = B.made
  ids : ∀ p ∈ B.persons, p.id ≤ B.made
  update : A.updateOff = !B.armed
  delete : A.deleteOff = !B.armed
  chosen : ∀ c, B.chosen = some c → ∃ p ∈ B.persons, p.id = c

theorem elems_sublist {f : Nat → NodeId} : ∀ {l : List Item}, (∀ x ∈ l, x.content = [f x.key]) →
    List.Sublist (l.map fun x => f x.key) (l.flatMap Item.nodes) := by
  intro l
  induction l with
  | nil => intro _; exact List.Sublist.refl _
  | cons x l ih =>
    intro h
    rw [List.flatMap_cons, List.map_cons]
    refine List.Sublist.append (l₁ := [f x.key]) ?_ (ih fun y hy => h y (List.mem_cons_of_mem _ hy))
    rw [Item.nodes, h x (by simp)]
    exact List.Sublist.cons _ (List.sublist_append_left _ _)

theorem Sight.elems_in {A : App} {l : List Item} {B : Book} (h : Sight A l B) :
    List.Sublist (B.persons.map fun p => A.displays p.id) (A.sys.dom.kids A.select) := by
  have h1 := (elems_sublist h.shown).trans (Lists.shows_sublist h.good.shows)
  have h2 : (l.map fun x => A.displays x.key) = B.persons.map fun p => A.displays p.id := by
    have := congrArg (List.map A.displays) h.keys
    simpa [Function.comp_def] using this
  rw [h2, h.place] at h1
  exact h1

theorem Sight.elems {A : App} {l : List Item} {B : Book} (h : Sight A l B) :
    (B.persons.map fun p => A.displays p.id).Nodup := h.elems_in.nodup (h.good.proper.1 _)

theorem inj_of_nodup {α β : Type} {f : α → β} {l : List α} (h : (l.map f).Nodup) {x y : α} (hx : x ∈ l) (hy : y ∈ l)
    (e : f x = f y) : x = y := by
  obtain ⟨i, hi, rfl⟩ := List.getElem_of_mem hx
  obtain ⟨j, hj, rfl⟩ := List.getElem_of_mem hy
  have := (List.getElem_inj (h₀ := by simpa using hi) (h₁ := by simpa using hj) h).1 (by simpa using e)
  subst this
  rfl

theorem Sight.nodup {A : App} {l : List Item} {B : Book} (h : Sight A l B) : (B.persons.map Person.id).Nodup := by
  rw [← h.keys]; exact h.good.keys

theorem Sight.options {A : App} {l : List Item} {B : Book} (h : Sight A l B) :
    options A = B.persons.map fun p => (A.displays p.id, B.row p) := by
  have h1 := filterMap_sub (f := fun n => (A.look n).map fun l => (n, l)) h.elems_in (h.good.proper.1 _) (by
    intro n hn hs
    obtain ⟨p, hp, rfl⟩ := h.only n hn (by simpa using hs)
    exact List.mem_map.2 ⟨p, hp, rfl⟩)
  rw [Verif.Crud.options, h1, List.filterMap_map]
  have h2 : ∀ ps : List Person, (∀ p ∈ ps, A.look (A.displays p.id) = some (B.row p)) →
      ps.filterMap ((fun n => (A.look n).map fun l => (n, l)) ∘ fun p => A.displays p.id) =
        ps.map fun p => (A.displays p.id, B.row p) := by
    intro ps
    induction ps with
    | nil => intro _; rfl
    | cons p ps ih =>
      intro hp
      rw [List.filterMap_cons, List.map_cons, ← ih fun q hq => hp q (List.mem_cons_of_mem _ hq)]
      simp [hp p]
  exact h2 _ h.looks

theorem Sight.draws {A : App} {l : List Item} {B : Book} (h : Sight A l B) : Draws A B := by
  refine ⟨?_, h.update, h.delete⟩
  rw [h.options, List.map_map]
  rfl

/-- The value of the `<select>` is the person chosen. -/
theorem Sight.value {A : App} {l : List Item} {B : Book} (h : Sight A l B) : value A = B.chosen := by
  rw [Verif.Crud.value, h.options, List.find?_map, Option.map_map]
  cases hc : B.chosen with
  | none =>
    have : List.find? ((fun o => o.2.selected) ∘ fun p => (A.displays p.id, B.row p)) B.persons = none := by
      refine List.find?_eq_none.2 fun p _ => ?_
      simp [Book.row, hc]
    rw [this]; rfl
  | some c =>
    obtain ⟨p, hp, rfl⟩ := h.chosen c hc
    cases hf : List.find? ((fun o => o.2.selected) ∘ fun p => (A.displays p.id, B.row p)) B.persons with
    | none =>
      have := List.find?_eq_none.1 hf p hp
      simp [Book.row, hc] at this
    | some q =>
      have := List.find?_some hf
      simp only [Function.comp_def, Book.row, hc, beq_iff_eq, Option.some.injEq] at this
      simp [Book.row, this]

/-! ## a new person -/

theorem sight_create {A : App} {l : List Item} {B : Book} (h : Sight A l B) {ns : Nodes} (hns : ns.new A) (a b : Text) :
    ∃ A' l' B', step A (.create a b ns) = some A' ∧ B.next (.create a b ns) = some B' ∧ Sight A' l' B' := by
  obtain ⟨hfr, n1, n2, n3⟩ := hns
  obtain ⟨f1, g1'⟩ := hfr ns.elem (by simp)
  obtain ⟨f2, g2'⟩ := hfr ns.start (by simp)
  obtain ⟨f3, g3'⟩ := hfr ns.stop (by simp)
  have hlt : ∀ x ∈ l, x.key ≤ A.counter := by
    intro x hx
    have : x.key ∈ B.persons.map Person.id := by rw [← h.keys]; exact List.mem_map.2 ⟨x, hx, rfl⟩
    obtain ⟨p, hp, e⟩ := List.mem_map.1 this
    rw [← e, h.counter]
    exact h.ids p hp
  have hk : ∀ y ∈ l, y.key ≠ A.counter + 1 := fun y hy e => by
    have := hlt y hy
    rw [e] at this
    exact Nat.not_succ_le_self _ this
  obtain ⟨s1, e1, g1⟩ := Lists.good_step h.good (op := .insert (A.counter + 1) none ns.start ns.stop)
    ⟨(fun k hk => by cases hk), f2, f3, n3⟩
  have hf : Lists.find (A.counter + 1) l = none := Lists.find_none.2 (by rintro ⟨y, hy, e⟩; exact hk y hy e)
  simp only [Lists.specStep, Lists.specInsert, Lists.specLeft, hf, Lists.without_eq hk, Lists.place] at g1
  rw [if_neg (by simp)] at g1
  have hfre : Lists.Fresh s1.dom ns.elem := Lists.call_fresh h.good rfl e1 f1 (by simp [Lists.madeBy, n1, n2])
  obtain ⟨s2, e2, g2⟩ := Lists.good_step g1 (op := .content (A.counter + 1) [ns.elem])
    ⟨⟨A.counter + 1, ns.start, ns.stop, []⟩, by simp, rfl, by simp, by
      intro n hn
      rw [List.mem_singleton] at hn
      subst hn
      exact Or.inr hfre⟩
  have hl : Lists.specStep (l ++ [⟨A.counter + 1, ns.start, ns.stop, []⟩]) (.content (A.counter + 1) [ns.elem]) =
      l ++ [⟨A.counter + 1, ns.start, ns.stop, [ns.elem]⟩] := by
    simp only [Lists.specStep, Lists.specContent, List.map_append, List.map_cons, List.map_nil, if_true]
    congr 1
    refine (List.map_congr_left fun y hy => ?_).trans (List.map_id l)
    rw [if_neg (hk y hy)]
    rfl
  rw [hl] at g2
  have c1 : s1.list.container = A.sys.list.container := Lists.call_list_same rfl e1
  have c2 : s2.list = s1.list := by
    simp only [Lists.step, Option.map_eq_some_iff] at e2
    obtain ⟨x, _, e⟩ := e2
    cases e
    rfl
  have m1 : ∀ c, ∀ m ∈ s1.dom.kids c, m ∈ A.sys.dom.kids c ∨ m = ns.start ∨ m = ns.stop := by
    intro c m hm
    simp only [Lists.step, Lists.insert, Option.map_eq_some_iff, Option.bind_eq_bind, Option.bind_eq_some_iff] at e1
    obtain ⟨r, ⟨af, -, d1, i1, d2, i2, hh⟩, he⟩ := e1
    have hm' : m ∈ d2.kids c := by
      split at hh
      · obtain ⟨d3, i3, hh⟩ := Option.bind_eq_some_iff.1 hh
        simp only [pure, Option.some.injEq] at hh
        have hd : s1.dom = d3 := by rw [← congrArg (fun z => z.1.dom) he, ← hh]
        rw [hd] at hm
        exact removeMarkers_mem i3 hm
      · simp only [pure, Option.some.injEq] at hh
        have hd : s1.dom = d2 := by rw [← congrArg (fun z => z.1.dom) he, ← hh]
        rw [hd] at hm
        exact hm
    rcases insertBefore_mem i2 hm' with hm | hm
    · rcases insertBefore_mem i1 hm with hm | hm
      · exact Or.inl hm
      · exact Or.inr (Or.inr hm)
    · exact Or.inr (Or.inl hm)
  have m2 : ∀ c, ∀ m ∈ s2.dom.kids c, m ∈ s1.dom.kids c ∨ m = ns.elem ∨ m = ns.start := by
    intro c m hm
    simp only [Lists.step, Option.map_eq_some_iff] at e2
    obtain ⟨x, hx, e⟩ := e2
    cases e
    simp only at hm
    split at hm
    · simp only [Lists.setBetween, List.mem_append, List.mem_cons] at hm
      rcases hm with hm | hm | hm | hm
      · exact Or.inl ((List.takeWhile_sublist _).subset hm)
      · right; right
        rw [hm]
        have hg := Lists.get_of_mem g1.perm g1.keys (x := ⟨A.counter + 1, ns.start, ns.stop, []⟩) (by simp)
        rw [hg] at hx
        cases hx
        rfl
      · right; left; simpa using hm
      · exact Or.inl ((List.dropWhile_sublist _).subset hm)
    · exact Or.inl hm
  have hnew : ∀ p ∈ B.persons, A.displays p.id ≠ ns.elem := by
    intro p hp e
    exact f1 _ (h.elems_in.subset (List.mem_map.2 ⟨p, hp, e⟩))
  have hid : ∀ p ∈ B.persons, p.id ≠ A.counter + 1 := by
    intro p hp e
    have := h.ids p hp
    rw [e, h.counter] at this
    exact Nat.not_succ_le_self _ this
  have hcont : s2.list.container = A.select := by rw [c2, c1, h.place]
  have hnc : ∀ x, B.chosen = some x → x ≠ A.counter + 1 := by
    intro x hx
    obtain ⟨p, hp, rfl⟩ := h.chosen x hx
    exact hid p hp
  refine ⟨{ A with
      sys := s2
      look := fun n => if n = ns.elem then some ⟨A.counter + 1, fullName a b, false, false, false⟩ else A.look n
      displays := fun k => if k = A.counter + 1 then ns.elem else A.displays k
      people := A.people ++ [(A.counter + 1, ns.elem, fullName a b)]
      counter := A.counter + 1 }, l ++ [⟨A.counter + 1, ns.start, ns.stop, [ns.elem]⟩],
    { B with persons := B.persons ++ [⟨B.made + 1, fullName a b, false⟩], made := B.made + 1 }, ?_, rfl, ?_⟩
  · simp only [step, Lists.run, e1, e2, bind, Option.bind, pure]
  · have hrow : ∀ (ps : List Person) (m : Nat) (p : Person), Book.row { B with persons := ps, made := m } p = B.row p :=
      fun _ _ _ => rfl
    refine ⟨g2, hcont, ?_, ?_, ?_, ?_, ?_, by simp [h.counter], ?_, h.update, h.delete, ?_⟩
    · simp [h.keys, h.counter]
    · intro x hx
      rcases List.mem_append.1 hx with hx | hx
      · simp only [if_neg (hk x hx)]
        exact h.shown x hx
      · rw [List.mem_singleton] at hx
        subst hx
        simp
    · intro n hn hs
      by_cases e : n = ns.elem
      · exact ⟨⟨B.made + 1, fullName a b, false⟩, by simp, by simp [h.counter, e]⟩
      · simp only [if_neg e] at hs
        have hn' : n ∈ A.sys.dom.kids A.select := by
          rcases m2 _ n hn with hn | hn | hn
          · rcases m1 _ n hn with hn | hn | hn
            · exact hn
            · rw [hn, g2'] at hs; cases hs
            · rw [hn, g3'] at hs; cases hs
          · exact absurd hn e
          · rw [hn, g2'] at hs; cases hs
        obtain ⟨p, hp, e'⟩ := h.only n hn' hs
        exact ⟨p, by simp [hp], by simp only [if_neg (hid p hp)]; exact e'⟩
    · intro p hp
      rcases List.mem_append.1 hp with hp | hp
      · simp only [if_neg (hid p hp), if_neg (hnew p hp)]
        exact h.looks p hp
      · rw [List.mem_singleton] at hp
        subst hp
        simp only [h.counter, if_true, Book.row]
        congr 2
        symm
        rw [beq_eq_false_iff_ne]
        intro e
        exact hnc _ e (by rw [h.counter])
    · rw [List.map_append]
      refine List.Perm.append ?_ ?_
      · refine h.people.trans (List.Perm.of_eq (List.map_congr_left fun p hp => ?_))
        simp only [if_neg (hid p hp)]
      · simp [h.counter]
    · intro p hp
      rcases List.mem_append.1 hp with hp | hp
      · exact Nat.le_succ_of_le (h.ids p hp)
      · rw [List.mem_singleton] at hp
        subst hp
        exact Nat.le_refl _
    · intro c hc
      obtain ⟨p, hp, e⟩ := h.chosen c hc
      exact ⟨p, by simp [hp], e⟩

/-! ## another name -/

theorem find_person {A : App} {l : List Item} {B : Book} (h : Sight A l B) {p : Person} (hp : p ∈ B.persons) :
    A.people.find? (fun e => e.1 == p.id) = some (p.id, A.displays p.id, p.name) := by
  cases hf : A.people.find? (fun e => e.1 == p.id) with
  | none =>
    have := List.find?_eq_none.1 hf (p.id, A.displays p.id, p.name) (h.people.mem_iff.2 (List.mem_map.2 ⟨p, hp, rfl⟩))
    simp at this
  | some e =>
    have h1 := List.find?_some hf
    have h2 := h.people.mem_iff.1 (List.mem_of_find?_eq_some hf)
    obtain ⟨q, hq, rfl⟩ := List.mem_map.1 h2
    simp only [beq_iff_eq] at h1
    have := inj_of_nodup h.nodup hq hp h1
    rw [this]

theorem sight_update {A : App} {l : List Item} {B : Book} (h : Sight A l B) (a b : Text) :
    (step A (.update a b) = none ∧ B.next (.update a b) = none) ∨
    ∃ A' l' B', step A (.update a b) = some A' ∧ B.next (.update a b) = some B' ∧ Sight A' l' B' := by
  cases harm : B.armed with
  | false =>
    refine Or.inr ⟨A, l, B, ?_, ?_, h⟩
    · simp only [step, h.update, harm, Bool.not_false, if_true]
    · simp [Book.next, harm]
  | true =>
    cases hc : B.chosen with
    | none =>
      refine Or.inl ⟨?_, ?_⟩
      · simp [step, h.update, harm, h.value, hc]
      · simp [Book.next, harm, hc]
    | some c =>
      obtain ⟨p, hp, rfl⟩ := h.chosen c hc
      refine Or.inr ⟨{ A with
        look := setLook A.look (A.displays p.id) fun l => { l with text := fullName a b }
        people := A.people.map fun e => if e.1 = p.id then (e.1, e.2.1, fullName a b) else e }, l,
        { B with persons := B.persons.map fun q => if q.id = p.id then { q with name := fullName a b } else q }, ?_, ?_, ?_⟩
      · simp [step, h.update, harm, h.value, hc, find_person h hp]
      · simp [Book.next, harm, hc]
      · have hids : (B.persons.map fun q => if q.id = p.id then { q with name := fullName a b } else q).map Person.id =
            B.persons.map Person.id := by
          rw [List.map_map]
          refine List.map_congr_left fun q _ => ?_
          simp only [Function.comp_def]
          split <;> rfl
        refine ⟨h.good, h.place, h.keys.trans hids.symm, h.shown, ?_, ?_, ?_, h.counter, ?_, h.update, h.delete, ?_⟩
        · intro n hn hs
          have hs' : (A.look n).isSome := by
            simp only [setLook] at hs
            split at hs
            · simpa using hs
            · exact hs
          obtain ⟨q, hq, e⟩ := h.only n hn hs'
          refine ⟨_, List.mem_map.2 ⟨q, hq, rfl⟩, ?_⟩
          rw [e]
          split <;> rfl
        · intro q' hq'
          obtain ⟨q, hq, rfl⟩ := List.mem_map.1 hq'
          by_cases e : q.id = p.id
          · simp only [if_pos e]
            simp only [e, setLook, if_true, h.looks p hp, Option.map_some]
            have := inj_of_nodup h.nodup hq hp e
            subst this
            rfl
          · simp only [if_neg e]
            have hne : A.displays q.id ≠ A.displays p.id := by
              intro e'
              exact e (congrArg Person.id (inj_of_nodup h.elems hq hp e'))
            simp only [setLook, if_neg hne]
            exact h.looks q hq
        · refine (h.people.map _).trans (List.Perm.of_eq ?_)
          rw [List.map_map, List.map_map]
          refine List.map_congr_left fun q hq => ?_
          simp only [Function.comp_def]
          split <;> rfl
        · intro q' hq'
          obtain ⟨q, hq, rfl⟩ := List.mem_map.1 hq'
          have := h.ids q hq
          split <;> exact this
        · intro c hc
          obtain ⟨q, hq, e⟩ := h.chosen c hc
          refine ⟨_, List.mem_map.2 ⟨q, hq, rfl⟩, ?_⟩
          rw [← e]
          split <;> rfl

/-! ## a person goes -/

theorem sight_delete {A : App} {l : List Item} {B : Book} (h : Sight A l B) :
    (step A .delete = none ∧ B.next .delete = none) ∨
    ∃ A' l' B', step A .delete = some A' ∧ B.next .delete = some B' ∧ Sight A' l' B' := by
  cases harm : B.armed with
  | false =>
    refine Or.inr ⟨A, l, B, ?_, ?_, h⟩
    · simp only [step, h.delete, harm, Bool.not_false, if_true]
    · simp [Book.next, harm]
  | true =>
    cases hc : B.chosen with
    | none =>
      refine Or.inl ⟨?_, ?_⟩
      · simp [step, h.delete, harm, h.value, hc]
      · simp [Book.next, harm, hc]
    | some c =>
      obtain ⟨p, hp, rfl⟩ := h.chosen c hc
      have hin : p.id ∈ l.map Item.key := by rw [h.keys]; exact List.mem_map.2 ⟨p, hp, rfl⟩
      obtain ⟨y, hy, hyk⟩ := List.mem_map.1 hin
      obtain ⟨s1, e1, g1⟩ := Lists.good_step h.good (op := .remove p.id) trivial
      obtain ⟨I1, y', I2, hl, hy'k, hI1, hI2⟩ := Lists.has_split ⟨y, hy, hyk⟩ h.good.keys
      have hf : Lists.find p.id l = some y' := by rw [hl]; exact Lists.find_split hy'k hI1
      have hy'c : y'.content = [A.displays p.id] := by rw [← hy'k]; exact h.shown y' (by rw [hl]; simp)
      simp only [Lists.specAnswer, hf, Option.isSome_some] at e1
      simp only [Lists.specStep, Lists.specLeft, hf, hy'c, List.append_nil] at g1
      obtain ⟨ho1, ho2⟩ := Circles.orphan_in g1 (List.mem_singleton.2 rfl)
      have hcont : s1.list.container = A.sys.list.container := Lists.call_list_same rfl e1
      rw [hcont] at ho1
      obtain ⟨s2, e2, g2⟩ := Lists.good_step g1 (op := .vanish A.sys.list.container (A.displays p.id)) ⟨ho1, ho2⟩
      simp only [Lists.specStep, Lists.specLeft] at g2
      have hnil : List.filter (· != A.displays p.id) [A.displays p.id] = [] := by simp
      rw [hnil] at g2
      have c2 : s2.list = s1.list ∧ s1.dom.removeChild A.sys.list.container (A.displays p.id) = some s2.dom := by
        simp only [Lists.step, Option.map_eq_some_iff] at e2
        obtain ⟨x, hx, e⟩ := e2
        cases e
        exact ⟨rfl, hx⟩
      have m1 : ∀ c, ∀ m ∈ s1.dom.kids c, m ∈ A.sys.dom.kids c := by
        intro c m hm
        simp only [Lists.step, Lists.remove, Option.map_eq_some_iff] at e1
        obtain ⟨r, hr, he⟩ := e1
        split at hr
        · simp only [Option.bind_eq_bind, Option.bind_eq_some_iff, pure, Option.some.injEq] at hr
          obtain ⟨d1, i1, hr⟩ := hr
          have hd : s1.dom = d1 := by rw [← congrArg (fun z => z.1.dom) he, ← hr]
          rw [hd] at hm
          exact removeMarkers_mem i1 hm
        · have hd : s1.dom = A.sys.dom := by
            rw [← congrArg (fun z => z.1.dom) he, ← Option.some.inj hr]
          rw [hd] at hm
          exact hm
      have hgone : A.displays p.id ∉ s2.dom.kids A.select := by
        have := c2.2
        intro hm
        rw [Dom.Dom.removeChild, if_pos ho1] at this
        rw [← Option.some.inj this] at hm
        simp [h.place] at hm
      refine Or.inr ⟨{ A with sys := s2, people := A.people.filter fun e => e.1 != p.id }, Lists.without p.id l,
        { B with persons := B.persons.filter fun q => q.id ≠ p.id, chosen := none }, ?_, ?_, ?_⟩
      · simp [step, h.delete, harm, h.value, hc, e1, itemEnds, hcont, e2]
      · simp [Book.next, harm, hc]
      · refine ⟨g2, by simp only; rw [c2.1, hcont, h.place], ?_, ?_, ?_, ?_, ?_, h.counter, ?_, h.update, h.delete, ?_⟩
        · have := congrArg (List.filter (· != p.id)) h.keys
          rw [List.filter_map, List.filter_map] at this
          refine this.trans ?_
          congr 1
          refine List.filter_congr fun q _ => ?_
          simp only [Function.comp_def, ne_eq, decide_not]
          by_cases e : q.id = p.id <;> simp [e]
        · intro x hx
          exact h.shown x (List.mem_filter.1 hx).1
        · intro n hn hs
          obtain ⟨q, hq, e⟩ := h.only n (m1 _ _ (removeChild_mem c2.2 hn)) hs
          refine ⟨q, List.mem_filter.2 ⟨hq, ?_⟩, e⟩
          simp only [ne_eq, decide_not, Bool.not_eq_true', decide_eq_false_iff_not]
          intro e'
          rw [e, e'] at hn
          exact hgone hn
        · intro q hq
          obtain ⟨hq, hne⟩ := List.mem_filter.1 hq
          rw [h.looks q hq]
          simp only [ne_eq, decide_not, Bool.not_eq_true', decide_eq_false_iff_not] at hne
          have : (B.chosen == some q.id) = false := by
            rw [hc, beq_eq_false_iff_ne]
            simp only [ne_eq, Option.some.injEq]
            exact fun e => hne e.symm
          simp only [Book.row, this]
          rfl
        · have := h.people.filter (fun e => e.1 != p.id)
          refine this.trans (List.Perm.of_eq ?_)
          rw [List.filter_map]
          congr 1
          refine List.filter_congr fun q _ => ?_
          simp only [Function.comp_def, ne_eq, decide_not]
          by_cases e : q.id = p.id <;> simp [e]
        · intro q hq
          exact h.ids q (List.mem_filter.1 hq).1
        · intro c hc; cases hc

/-! ## the filter -/

theorem foldl_look (pre : Text) : ∀ (es : List Entry) (look : NodeId → Option Look) (n : NodeId),
    (es.map fun e => e.2.1).Nodup →
    es.foldl (fun look e => setLook look e.2.1 fun l =>
        { l with disabled := !(pre.isPrefixOf e.2.2), hidden := !(pre.isPrefixOf e.2.2) }) look n =
      match es.find? fun e => e.2.1 == n with
      | some e => (look n).map fun l => { l with disabled := !(pre.isPrefixOf e.2.2), hidden := !(pre.isPrefixOf e.2.2) }
      | none => look n := by
  intro es
  induction es with
  | nil => intro look n _; rfl
  | cons e es ih =>
    intro look n hnd
    rw [List.map_cons, List.nodup_cons] at hnd
    rw [List.foldl_cons, ih _ _ hnd.2, List.find?_cons]
    by_cases he : e.2.1 = n
    · have : es.find? (fun e => e.2.1 == n) = none := by
        refine List.find?_eq_none.2 fun e' he' => ?_
        simp only [beq_iff_eq]
        intro e''
        exact hnd.1 (List.mem_map.2 ⟨e', he', by rw [e'', he]⟩)
      simp only [this]
      simp [he, setLook]
    · have h1 : (e.2.1 == n) = false := by simpa using he
      simp only [h1]
      have : ∀ f, setLook look e.2.1 f n = look n := fun f => by simp [setLook, Ne.symm he]
      rw [this]

theorem sight_filter {A : App} {l : List Item} {B : Book} (h : Sight A l B) (pre : Text) {sh : List Entry → List Entry}
    (hsh : ∀ l, (sh l).Perm l) :
    ∃ A' l' B', step A (.filter pre sh) = some A' ∧ B.next (.filter pre sh) = some B' ∧ Sight A' l' B' := by
  have hperm := (hsh A.people).trans h.people
  have hnd : ((sh A.people).map fun e => e.2.1).Nodup := by
    have := hperm.map (fun e : Entry => e.2.1)
    refine this.nodup_iff.2 ?_
    rw [List.map_map]
    exact h.elems
  have hlook := foldl_look pre (sh A.people) A.look
  have hget : ∀ p ∈ B.persons, (sh A.people).find? (fun e => e.2.1 == A.displays p.id) =
      some (p.id, A.displays p.id, p.name) := by
    intro p hp
    cases hf : (sh A.people).find? (fun e => e.2.1 == A.displays p.id) with
    | none =>
      have := List.find?_eq_none.1 hf (p.id, A.displays p.id, p.name) (hperm.mem_iff.2 (List.mem_map.2 ⟨p, hp, rfl⟩))
      simp at this
    | some e =>
      have h1 := List.find?_some hf
      obtain ⟨q, hq, rfl⟩ := List.mem_map.1 (hperm.mem_iff.1 (List.mem_of_find?_eq_some hf))
      simp only [beq_iff_eq] at h1
      rw [inj_of_nodup h.elems hq hp h1]
  refine ⟨_, l, { B with typed := pre, persons := B.persons.map fun p => { p with hidden := !(pre.isPrefixOf p.name) } },
    rfl, rfl, ?_⟩
  refine ⟨h.good, h.place, ?_, h.shown, ?_, ?_, ?_, h.counter, ?_, h.update, h.delete, ?_⟩
  · rw [List.map_map]; exact h.keys
  · intro n hn hs
    simp only [hlook n hnd] at hs
    have hs' : (A.look n).isSome := by
      split at hs
      · simpa using hs
      · exact hs
    obtain ⟨q, hq, e⟩ := h.only n hn hs'
    exact ⟨_, List.mem_map.2 ⟨q, hq, rfl⟩, e⟩
  · intro q hq
    obtain ⟨p, hp, rfl⟩ := List.mem_map.1 hq
    simp only [hlook _ hnd, hget p hp, h.looks p hp]
    rfl
  · rw [List.map_map]; exact h.people
  · intro q hq
    obtain ⟨p, hp, rfl⟩ := List.mem_map.1 hq
    exact h.ids p hp
  · intro c hc
    obtain ⟨p, hp, e⟩ := h.chosen c hc
    exact ⟨_, List.mem_map.2 ⟨p, hp, rfl⟩, e⟩

/-! ## another choice -/

theorem sight_select {A : App} {l : List Item} {B : Book} (h : Sight A l B) (sel : NodeId → Nat → Bool) :
    options (setSelected A sel) = B.persons.map fun p => (A.displays p.id, { B.row p with selected := sel (A.displays p.id) p.id }) := by
  have h1 := h.options
  simp only [options, setSelected] at h1 ⊢
  have h2 : ∀ (L : List NodeId), (∀ n ∈ L, n ∈ A.sys.dom.kids A.select) →
      L.filterMap (fun n => (if n ∈ A.sys.dom.kids A.select then (A.look n).map fun l => { l with selected := sel n l.value }
        else A.look n).map fun l => (n, l)) =
      (L.filterMap fun n => (A.look n).map fun l => (n, l)).map fun o => (o.1, { o.2 with selected := sel o.1 o.2.value }) := by
    intro L
    induction L with
    | nil => intro _; rfl
    | cons n L ih =>
      intro hL
      rw [List.filterMap_cons, List.filterMap_cons, ih fun m hm => hL m (List.mem_cons_of_mem _ hm), if_pos (hL n (by simp))]
      cases A.look n <;> simp
  rw [h2 _ fun n hn => hn, h1, List.map_map]
  rfl

theorem sight_choose {A : App} {l : List Item} {B : Book} (h : Sight A l B) (sel : Nat → Bool) :
    ∃ A' l' B', step A (.choose sel) = some A' ∧ B.next (.choose sel) = some B' ∧ Sight A' l' B' := by
  refine ⟨_, l, _, rfl, rfl, ?_⟩
  have ho := sight_select h fun _ id => sel id
  have hv : value (setSelected A fun _ id => sel id) = (B.persons.find? fun p => sel p.id).map Person.id := by
    rw [value, ho, List.find?_map, Option.map_map]
    rfl
  simp only [hv]
  generalize hc : (B.persons.find? fun p => sel p.id).map Person.id = c
  have ho2 : ((options (setSelected A fun _ id => sel id)).find? fun o => some o.2.value == c).map Prod.fst =
      c.map A.displays := by
    rw [ho, List.find?_map, Option.map_map]
    cases c with
    | none =>
      have : List.find? ((fun o : NodeId × Look => some o.2.value == (none : Option Nat)) ∘ fun p =>
          (A.displays p.id, { B.row p with selected := sel p.id })) B.persons = none :=
        List.find?_eq_none.2 fun p _ => by simp
      rw [this]; rfl
    | some c =>
      obtain ⟨p, hp, rfl⟩ := Option.map_eq_some_iff.1 hc
      have hp := List.mem_of_find?_eq_some hp
      cases hf : List.find? ((fun o : NodeId × Look => some o.2.value == some p.id) ∘ fun p =>
          (A.displays p.id, { B.row p with selected := sel p.id })) B.persons with
      | none =>
        have := List.find?_eq_none.1 hf p hp
        simp [Book.row] at this
      | some q =>
        have h1 := List.find?_some hf
        simp only [Function.comp_def, Book.row, beq_iff_eq, Option.some.injEq] at h1
        simp [h1]
  have hlook : ∀ n ∈ A.sys.dom.kids A.select,
      (setValue (setSelected A fun _ id => sel id) c).look n =
        (A.look n).map fun l => { l with selected := c.map A.displays == some n } := by
    intro n hn
    simp only [setValue, ho2]
    simp only [setSelected, if_pos hn, Option.map_map]
    cases A.look n <;> simp
  refine ⟨h.good, h.place, h.keys, h.shown, ?_, ?_, h.people, h.counter, h.ids, ?_, ?_, ?_⟩
  · intro n hn hs
    refine h.only n hn ?_
    simp only [hlook n hn] at hs
    simpa using hs
  · intro p hp
    have hk : A.displays p.id ∈ A.sys.dom.kids A.select := h.elems_in.subset (List.mem_map.2 ⟨p, hp, rfl⟩)
    refine (hlook _ hk).trans ?_
    rw [h.looks p hp]
    simp only [Option.map_some, Book.row, Option.some.injEq, Look.mk.injEq, true_and]
    cases c with
    | none => rfl
    | some c =>
      obtain ⟨q, hq, rfl⟩ := Option.map_eq_some_iff.1 hc
      have hq := List.mem_of_find?_eq_some hq
      by_cases e : q.id = p.id
      · simp [e]
      · have : A.displays q.id ≠ A.displays p.id := fun e' => e (congrArg Person.id (inj_of_nodup h.elems hq hp e'))
        have h1 : (some (A.displays q.id) == some (A.displays p.id)) = false := by
          rw [beq_eq_false_iff_ne]; intro e'; exact this (Option.some.inj e')
        have h2 : (some q.id == some p.id) = false := by
          rw [beq_eq_false_iff_ne]; intro e'; exact e (Option.some.inj e')
        rw [h2]
        exact h1
  · cases c <;> rfl
  · cases c <;> rfl
  · intro x hx
    simp only at hx
    subst hx
    obtain ⟨q, hq, e⟩ := Option.map_eq_some_iff.1 hc
    exact ⟨q, List.mem_of_find?_eq_some hq, e⟩

end Verif.Crud
