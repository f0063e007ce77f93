import Verif.Lists.NestLemmas
/-! # Every call does to the document what it does to the description -/
namespace Verif.Lists
open Verif.Dom
namespace Forest

theorem entries_unwrap {keep : Key → Bool} {f : Forest} (h : f.Clean) :
    (f.unwrap keep).entries = f.entries.filter fun e => keep e.1 := by
  induction f with
  | nil => rfl
  | node n r ih => simpa [unwrap, entries] using ih h
  | item k x y m r _ ih =>
    simp only [unwrap, entries, List.filter_cons]
    split
    · simp [entries, ih h.2.2]
    · simp [h.1, ih h.2.2]
  | list i x y m r _ ih => simpa [unwrap, entries] using ih h.2

theorem keys_unwrap {keep : Key → Bool} {f : Forest} (h : f.Clean) (hn : f.keys.Nodup) :
    (f.unwrap keep).keys.Nodup := by
  unfold keys
  rw [entries_unwrap h]
  exact hn.sublist ((List.filter_sublist).map _)

theorem unwrap_congr {p q : Key → Bool} {f : Forest} (h : ∀ k ∈ f.keys, p k = q k) : f.unwrap p = f.unwrap q := by
  induction f with
  | nil => rfl
  | node n r ih => simp only [unwrap]; rw [ih (by simpa [keys, entries] using h)]
  | item k x y m r _ ih =>
    simp only [keys, entries, List.map_cons, List.forall_mem_cons] at h
    simp only [unwrap]
    rw [h.1, ih h.2]
  | list i x y m r _ ih => simp only [unwrap]; rw [ih (by simpa [keys, entries] using h)]

theorem unwrap_unwrap {p q : Key → Bool} {f : Forest} (h : f.Clean) :
    (f.unwrap p).unwrap q = f.unwrap fun k => p k && q k := by
  induction f with
  | nil => rfl
  | node n r ih => simp only [unwrap]; rw [ih h]
  | item k x y m r _ ih =>
    simp only [unwrap]
    by_cases hp : p k = true
    · rw [if_pos hp]; simp only [hp, Bool.true_and, unwrap, ih h.2.2]
    · rw [if_neg hp]
      simp only [hp, Bool.false_and, Bool.false_eq_true, if_false]
      rw [unwrap_append, ih h.2.2, unwrap_id (f := m) (by simp [keys, h.1])]
  | list i x y m r _ ih => simp only [unwrap]; rw [ih h.2]

theorem clean_unwrap {keep : Key → Bool} {f : Forest} (h : f.Clean) : (f.unwrap keep).Clean := by
  induction f with
  | nil => trivial
  | node n r ih => exact ih h
  | item k x y m r _ ih =>
    simp only [unwrap]
    split
    · exact ⟨h.1, h.2.1, ih h.2.2⟩
    · rw [clean_append]; exact ⟨h.2.1, ih h.2.2⟩
  | list i x y m r _ ih => exact ⟨h.1, ih h.2⟩

theorem has_unwrap {keep : Key → Bool} {f m : Forest} {j : Nat} {x y : NodeId} :
    (f.unwrap keep).Has j x y m ↔ f.Has j x y m := by
  induction f with
  | nil => rfl
  | node n r ih => exact ih
  | item k x y m r _ ih =>
    simp only [unwrap]
    split
    · simp [Has, ih]
    · simp [Has, ih]
  | list i x y m r _ ih => simp [unwrap, Has, ih]

theorem flat_ne_nil {f : Forest} (h : f ≠ nil) : ∃ n ns, f.flat = n :: ns := by
  cases f with
  | nil => exact absurd rfl h
  | node n r => exact ⟨_, _, rfl⟩
  | item k x y m r => exact ⟨_, _, rfl⟩
  | list k x y m r => exact ⟨_, _, rfl⟩

/-- two items, in either order -/
theorem split2 {a b : Key} {f : Forest} (ha : a ∈ f.keys) (hb : b ∈ f.keys) (hab : a ≠ b) :
    (∃ p xa ya ma q xb yb mb s, f = p ++ item a xa ya ma (q ++ item b xb yb mb s)) ∨
    (∃ p xa ya ma q xb yb mb s, f = p ++ item b xb yb mb (q ++ item a xa ya ma s)) := by
  obtain ⟨p, xa, ya, ma, q, rfl, hp⟩ := split ha
  rw [keys_append, List.mem_append] at hb
  rcases hb with hb | hb
  · obtain ⟨p1, xb, yb, mb, p2, rfl, hp1⟩ := split hb
    exact Or.inr ⟨p1, xa, ya, ma, p2, xb, yb, mb, q, by simp [append_assoc]⟩
  · have : b ∈ q.keys := by
      simp only [keys, entries, List.map_cons, List.mem_cons] at hb
      exact hb.resolve_left fun e => hab e.symm
    obtain ⟨q1, xb, yb, mb, q2, rfl, hq1⟩ := split this
    exact Or.inl ⟨p, xa, ya, ma, q1, xb, yb, mb, q2, rfl⟩

end Forest
open Forest

/-- what a call has to do -/
def Does (d : Dom) (L : DynList) (f : Forest) (A B : List NodeId) (c : Call) : Prop :=
  ∃ d' its, c.run d L = some (d', { L with items := its }, c.answer f) ∧
    d'.kids L.container = A ++ L.listStart :: ((c.spec f).flat ++ L.listEnd :: B) ∧
    Same d d' L.container ∧ Proper d' ∧ its.Perm (c.spec f).entries ∧ (its.map (·.1)).Nodup ∧
    (∀ j x y m, (c.spec f).Has j x y m ↔ f.Has j x y m) ∧ (c.spec f).Clean

section
variable {d : Dom} {L : DynList} {f : Forest} {A B : List NodeId}

/-- the markers of an item taken away -/
theorem for_remove (hp : Proper d) {c ls le : NodeId} {p q m : Forest} {k : Key} {x y : NodeId}
    (hk : d.kids c = A ++ ls :: ((p ++ item k x y m q).flat ++ le :: B)) :
    ∃ d', removeMarkers d c ⟨x, y⟩ = some d' ∧ d'.kids c = A ++ ls :: ((p ++ (m ++ q)).flat ++ le :: B) ∧
      Same d d' c ∧ Proper d' := by
  obtain ⟨d', h1, h2, h3, h4⟩ := tok_remove (x := x) (y := y) (P := A ++ ls :: p.flat) (M := m.flat) (Q := q.flat ++ le :: B) hp
    (by rw [hk]; simp [Forest.flat])
  exact ⟨d', h1, by rw [h2]; simp, h3, h4⟩

/-- a new item -/
theorem for_insert (hp : Proper d) {c ls le r : NodeId} {s t : Forest} (k : Key) {x y : NodeId}
    (hk : d.kids c = A ++ ls :: ((s ++ t).flat ++ le :: B)) (hr : (t.flat ++ le :: B).head? = some r)
    (hx : Fresh d x) (hy : Fresh d y) (hne : x ≠ y) :
    ∃ d1 d2, d.insertBefore c y (some r) = some d1 ∧ d1.insertBefore c x (some y) = some d2 ∧
      d2.kids c = A ++ ls :: ((s ++ item k x y nil t).flat ++ le :: B) ∧ Same d d2 c ∧ Proper d2 := by
  obtain ⟨Q, hQ⟩ : ∃ Q, t.flat ++ le :: B = r :: Q := by
    cases h : t.flat ++ le :: B with
    | nil => rw [h] at hr; cases hr
    | cons a b => rw [h] at hr; simp at hr; exact ⟨b, by rw [hr]⟩
  obtain ⟨d1, d2, h1, h2, h3, h4, h5⟩ := tok_insert (P := A ++ ls :: s.flat) (Q := Q) (r := r) hp
    (by rw [hk, ← hQ]; simp) hx hy hne
  refine ⟨d1, d2, h1, h2, ?_, h4, h5⟩
  rw [h3, ← hQ]; simp [Forest.flat]

theorem items_nodup (hperm : L.items.Perm f.entries) (hnd : f.keys.Nodup) : (L.items.map (·.1)).Nodup :=
  ((hperm.map _).nodup_iff).2 hnd

theorem does_remove (hp : Proper d) (hk : d.kids L.container = A ++ L.listStart :: (f.flat ++ L.listEnd :: B))
    (hperm : L.items.Perm f.entries) (hnd : f.keys.Nodup) (hcl : f.Clean) (k : Key) :
    Does d L f A B (.remove k) := by
  by_cases h : k ∈ f.keys
  · obtain ⟨p, x, y, m, q, rfl, hkp⟩ := split h
    have hkq : k ∉ q.keys := by
      have := hnd
      rw [keys_append, List.nodup_append] at this
      simp only [keys, entries, List.map_cons, List.nodup_cons] at this
      exact this.2.1.1
    obtain ⟨d', h1, h2, h3, h4⟩ := for_remove hp hk
    refine ⟨d', L.items.filter fun e => e.1 != k, ?_, ?_, h3, h4, ?_⟩
    · have hg := get_entries hperm hnd (k := k) (x := ⟨x, y⟩) (by simp [entries])
      have hc : (p ++ item k x y m q).keys.contains k = true := by rw [List.contains_iff_mem]; exact h
      simp only [Call.run, Lists.remove, hg, h1, Call.answer, hc, bind, Option.bind, Option.map_some, pure]
    · simp only [Call.spec]
      rw [unwrap_split x y m hkp hkq]; exact h2
    · simp only [Call.spec]
      rw [entries_unwrap hcl]
      exact ⟨hperm.filter _, (items_nodup hperm hnd).sublist (List.filter_sublist.map _),
        fun _ _ _ _ => has_unwrap, clean_unwrap hcl⟩
  · refine ⟨d, L.items, ?_, ?_, fun _ _ => rfl, hp, ?_⟩
    · have hc : f.keys.contains k = false := by
        rw [Bool.eq_false_iff, ne_eq, List.contains_iff_mem]; exact h
      simp only [Call.run, Lists.remove, get_absent hperm h, Call.answer, hc, Option.map_some]
    · simp only [Call.spec]; rw [unwrap_ne h]; exact hk
    · simp only [Call.spec]; rw [unwrap_ne h]
      exact ⟨hperm, items_nodup hperm hnd, fun _ _ _ _ => Iff.rfl, hcl⟩

theorem retain_loop {c ls le : NodeId} {keep : Key → Bool} (es : List (Key × Stored)) :
    ∀ (d : Dom) (f : Forest), Proper d → d.kids c = A ++ ls :: (f.flat ++ le :: B) → f.Clean → f.keys.Nodup →
      (∀ e ∈ es, e ∈ f.entries) → (es.map (·.1)).Nodup →
      ∃ d', retainLoop c keep es d = some d' ∧
        d'.kids c = A ++ ls :: ((f.unwrap fun k => keep k || !(es.map (·.1)).contains k).flat ++ le :: B) ∧
        Same d d' c ∧ Proper d' := by
  induction es with
  | nil =>
    intro d f hp hk _ _ _ _
    refine ⟨d, rfl, ?_, fun _ _ => rfl, hp⟩
    rw [unwrap_id (by simp)]; exact hk
  | cons e es ih =>
    intro d f hp hk hcl hnd hes hn
    simp only [List.map_cons, List.nodup_cons] at hn
    by_cases hke : keep e.1 = true
    · obtain ⟨d', h1, h2, h3, h4⟩ := ih d f hp hk hcl hnd (fun e he => hes e (by simp [he])) hn.2
      refine ⟨d', ?_, ?_, h3, h4⟩
      · simp only [retainLoop, if_pos hke]; exact h1
      · rw [h2]
        congr 4
        refine unwrap_congr ?_
        intro k _
        by_cases h : k = e.1
        · subst h; simp [hke]
        · have : (k == e.1) = false := by simpa using h
          simp only [List.map_cons, List.contains_cons, this, Bool.false_or]
    · have hmem := hes e (by simp)
      have hkm : e.1 ∈ f.keys := List.mem_map_of_mem (f := (·.1)) hmem
      obtain ⟨p, x, y, m, q, e', hkp⟩ := split hkm
      have hkq : e.1 ∉ q.keys := by
        have := hnd
        rw [e', keys_append, List.nodup_append] at this
        simp only [keys, entries, List.map_cons, List.nodup_cons] at this
        exact this.2.1.1
      have he2 : e.2 = ⟨x, y⟩ := by
        rw [e'] at hmem
        simp only [entries_append, entries, List.mem_append, List.mem_cons] at hmem
        rcases hmem with h | h | h
        · exact absurd (List.mem_map_of_mem (f := (·.1)) h) hkp
        · rw [h]
        · exact absurd (List.mem_map_of_mem (f := (·.1)) h) hkq
      obtain ⟨d1, g1, g2, g3, g4⟩ := for_remove hp (e' ▸ hk)
      have hu : f.unwrap (· != e.1) = p ++ (m ++ q) := by rw [e', unwrap_split x y m hkp hkq]
      rw [← hu] at g2
      obtain ⟨d', h1, h2, h3, h4⟩ := ih d1 (f.unwrap (· != e.1)) g4 g2 (clean_unwrap hcl) (keys_unwrap hcl hnd)
        (by
          intro e1 he1
          rw [entries_unwrap hcl, List.mem_filter]
          refine ⟨hes e1 (by simp [he1]), ?_⟩
          simp only [bne_iff_ne, ne_eq]
          intro heq
          exact hn.1 (by rw [← heq]; exact List.mem_map_of_mem (f := (·.1)) he1)) hn.2
      refine ⟨d', ?_, ?_, g3.trans h3, h4⟩
      · simp only [retainLoop, if_neg hke, he2, g1, bind, Option.bind]; exact h1
      · rw [h2, unwrap_unwrap hcl]
        congr 4
        refine unwrap_congr ?_
        intro k _
        by_cases h : k = e.1
        · subst h; simpa using hke
        · have h1 : (k == e.1) = false := by simpa using h
          simp only [List.map_cons, List.contains_cons, bne, h1, Bool.false_or, Bool.not_false, Bool.true_and]

theorem does_retain (hp : Proper d) (hk : d.kids L.container = A ++ L.listStart :: (f.flat ++ L.listEnd :: B))
    (hperm : L.items.Perm f.entries) (hnd : f.keys.Nodup) (hcl : f.Clean) (keep : Key → Bool) :
    Does d L f A B (.retain keep) := by
  obtain ⟨d', h1, h2, h3, h4⟩ := retain_loop (keep := keep) L.items d f hp hk hcl hnd (fun e he => hperm.mem_iff.1 he)
    (((hperm.map _).nodup_iff).2 hnd)
  refine ⟨d', L.items.filter fun e => keep e.1, ?_, ?_, h3, h4, ?_⟩
  · simp only [Call.run, Lists.retain, h1, bind, Option.bind, pure, Option.map_some, Call.answer]
  · rw [h2]
    congr 4
    refine unwrap_congr ?_
    intro k hkk
    have : k ∈ L.items.map (·.1) := ((hperm.map (·.1)).mem_iff).2 hkk
    simp [this]
  · simp only [Call.spec]
    rw [entries_unwrap hcl]
    exact ⟨hperm.filter _, (items_nodup hperm hnd).sublist (List.filter_sublist.map _),
      fun _ _ _ _ => has_unwrap, clean_unwrap hcl⟩

/-- where `insert` and `move_before` put things -/
theorem after_forest (hperm : L.items.Perm f.entries) (hnd : f.keys.Nodup) (b : Option Key)
    (hb : ∀ k, b = some k → k ∈ f.keys) :
    ∃ s t r, f = s ++ t ∧ L.after b = some r ∧ (t.flat ++ L.listEnd :: B).head? = some r ∧
      ((b = none ∧ t = nil) ∨ ∃ k x y m q, b = some k ∧ t = item k x y m q ∧ k ∉ s.keys) := by
  cases b with
  | none => exact ⟨f, nil, L.listEnd, by simp, rfl, rfl, Or.inl ⟨rfl, rfl⟩⟩
  | some k =>
    obtain ⟨p, x, y, m, q, e, hkp⟩ := split (hb k rfl)
    refine ⟨p, item k x y m q, x, e, ?_, rfl, Or.inr ⟨k, x, y, m, q, rfl, rfl, hkp⟩⟩
    have hg := get_entries hperm hnd (k := k) (x := ⟨x, y⟩) (by rw [e]; simp [entries])
    simp [DynList.after, hg]

theorem map_new {k : Key} {z : Stored} {l : List (Key × Stored)} (h : k ∉ l.map (·.1)) :
    (l.map fun e => if e.1 = k then (k, z) else e) = l := by
  conv => rhs; rw [← List.map_id l]
  apply List.map_congr_left
  intro e he
  rw [if_neg (fun e' => h (by rw [← e']; exact List.mem_map_of_mem (f := (·.1)) he))]; rfl

theorem does_insert (hp : Proper d) (hk : d.kids L.container = A ++ L.listStart :: (f.flat ++ L.listEnd :: B))
    (hperm : L.items.Perm f.entries) (hnd : f.keys.Nodup) (hcl : f.Clean) {k : Key} {b : Option Key} {x y : NodeId}
    (hok : Call.ok d f (.insert k b x y)) : Does d L f A B (.insert k b x y) := by
  obtain ⟨hb, hx, hy, hne⟩ := hok
  obtain ⟨s, t, r, e, haf, hr, hcase⟩ := after_forest (B := B) hperm hnd b hb
  obtain ⟨d1, d2, e1, e2, k2, sm2, p2⟩ := for_insert hp k (e ▸ hk) hr hx hy hne
  by_cases hkf : k ∈ f.keys
  · -- an item with the key is there
    have hc : f.keys.contains k = true := by rw [List.contains_iff_mem]; exact hkf
    have fin : ∀ (U V m0 : Forest) (x0 y0 : NodeId), (k, (⟨x0, y0⟩ : Stored)) ∈ f.entries →
        s ++ item k x y nil t = U ++ item k x0 y0 m0 V → Forest.insert k b x y f = U ++ (m0 ++ V) →
        (f.entries.map fun e => if e.1 = k then (k, (⟨x, y⟩ : Stored)) else e).Perm (U ++ (m0 ++ V)).entries →
        Does d L f A B (.insert k b x y) := by
      intro U V m0 x0 y0 hin e' hs hpm
      obtain ⟨d3, g1, g2, g3, g4⟩ := for_remove p2 (e' ▸ k2)
      refine ⟨d3, L.items.map fun e => if e.1 = k then (k, (⟨x, y⟩ : Stored)) else e, ?_, ?_, sm2.trans g3, g4, ?_⟩
      · have hg := get_entries hperm hnd hin
        simp only [Call.run, Lists.insert, haf, e1, e2, hg, g1, bind, Option.bind, pure, Option.map_some, Call.answer, hc]
      · simp only [Call.spec]; rw [hs]; exact g2
      · simp only [Call.spec]; rw [hs]
        have hcl' : (s ++ item k x y nil t).Clean := by
          rw [e, clean_append] at hcl
          rw [clean_append]; exact ⟨hcl.1, rfl, trivial, hcl.2⟩
        refine ⟨(hperm.map _).trans hpm, ?_, ?_, ?_⟩
        · rw [List.map_map]
          have : ((fun z => z.1) ∘ fun e : Key × Stored => if e.1 = k then (k, (⟨x, y⟩ : Stored)) else e) = (·.1) := by
            funext z
            simp only [Function.comp]
            split
            · rename_i h; exact h.symm
            · rfl
          rw [this]; exact items_nodup hperm hnd
        · intro j xj yj mj
          have h1 : (s ++ item k x y nil t).Has j xj yj mj ↔ f.Has j xj yj mj := by rw [e]; simp [Forest.Has]
          rw [← h1, e']; simp [Forest.Has]
        · rw [e', clean_append] at hcl'
          rw [clean_append, clean_append]
          exact ⟨hcl'.1, hcl'.2.2.1, hcl'.2.2.2⟩
    have hkeys : ∀ {p q m : Forest} {x0 y0 : NodeId}, f = p ++ item k x0 y0 m q → k ∉ p.keys ∧ k ∉ q.keys := by
      intro p q m x0 y0 e0
      have := hnd
      rw [e0, keys_append, List.nodup_append] at this
      simp only [keys, entries, List.map_cons, List.nodup_cons] at this
      exact ⟨fun h => this.2.2 _ h _ (by simp) rfl, this.2.1.1⟩
    have hmap : ∀ {p q m : Forest} {x0 y0 : NodeId}, f = p ++ item k x0 y0 m q →
        (f.entries.map fun e => if e.1 = k then (k, (⟨x, y⟩ : Stored)) else e) = p.entries ++ (k, ⟨x, y⟩) :: q.entries := by
      intro p q m x0 y0 e0
      obtain ⟨h1, h2⟩ := hkeys e0
      rw [e0, entries_append]
      simp only [entries, List.map_append, List.map_cons, if_true]
      rw [map_new h1, map_new h2]
    have hcm : ∀ {p q m : Forest} {x0 y0 : NodeId}, f = p ++ item k x0 y0 m q → m.entries = [] := by
      intro p q m x0 y0 e0
      rw [e0, clean_append] at hcl
      exact hcl.2.1
    by_cases hbk : b = some k
    · -- the place is before the old item
      rcases hcase with ⟨h, _⟩ | ⟨k', x0, y0, m0, q, h, ht, hks⟩
      · rw [h] at hbk; cases hbk
      · rw [h] at hbk; cases hbk
        subst ht
        refine fin (s ++ item k x y nil nil) q m0 x0 y0 (by rw [e]; simp [entries]) (by simp [append_assoc]) ?_ ?_
        · unfold Forest.insert
          rw [if_pos h]
          obtain ⟨h1, h2⟩ := hkeys e
          rw [e, pick_split x0 y0 m0 q h1, replace_append, replace_id (f := s) (by
            intro k' hk'; rw [if_neg (by rintro rfl; exact h1 hk')])]
          simp only [replace, if_true]
          rw [replace_id (f := q) (by intro k' hk'; rw [if_neg (by rintro rfl; exact h2 hk')])]
          simp [unwrap, append_assoc]
        · rw [hmap e]
          simp [entries, hcm e]
    · have hspec : Forest.insert k b x y f = put (item k x y nil nil) b (f.unwrap (· != k)) := by
        unfold Forest.insert; rw [if_neg hbk]
      -- in front of the place or behind it
      have : k ∈ s.keys ∨ k ∈ t.keys := by rw [e, keys_append, List.mem_append] at hkf; exact hkf
      rcases this with hks | hkt
      · obtain ⟨p, x0, y0, m0, q, rfl, hkp⟩ := split hks
        have e0 : f = p ++ item k x0 y0 m0 (q ++ t) := by rw [e]; simp [append_assoc]
        obtain ⟨h1, h2⟩ := hkeys e0
        refine fin p (q ++ item k x y nil t) m0 x0 y0 (by rw [e0]; simp [entries]) (by simp [append_assoc]) ?_ ?_
        · rw [hspec, e0, unwrap_split x0 y0 m0 h1 h2]
          rcases hcase with ⟨rfl, rfl⟩ | ⟨k', x1, y1, m1, q1, rfl, rfl, hks'⟩
          · rw [put_none]; simp [append_assoc]
          · rw [show p ++ (m0 ++ (q ++ item k' x1 y1 m1 q1)) = (p ++ (m0 ++ q)) ++ item k' x1 y1 m1 q1 by
              simp [append_assoc], put_some]
            · simp [append_assoc]
            · simp only [keys_append, List.mem_append, not_or] at hks' ⊢
              refine ⟨hks'.1, ?_, ?_⟩
              · simp [keys, hcm e0]
              · simp only [keys, entries, List.map_cons, List.mem_cons, not_or] at hks'; exact hks'.2.2
        · rw [hmap e0]
          simp only [entries_append, entries, hcm e0, List.nil_append]
          refine List.Perm.append_left _ ?_
          exact List.perm_middle.symm
      · -- behind it: the place is before another item
        rcases hcase with ⟨rfl, rfl⟩ | ⟨k', x1, y1, m1, q1, rfl, rfl, hks'⟩
        · simp [keys, entries] at hkt
        · have hkk : k' ≠ k := fun e => hbk (by rw [e])
          have hkt' : k ∈ q1.keys := by
            simp only [keys, entries, List.map_cons, List.mem_cons] at hkt
            exact hkt.resolve_left fun e => hkk e.symm
          obtain ⟨p, x0, y0, m0, q, rfl, hkp⟩ := split hkt'
          have e0 : f = (s ++ item k' x1 y1 m1 p) ++ item k x0 y0 m0 q := by rw [e]; simp [append_assoc]
          obtain ⟨h1, h2⟩ := hkeys e0
          refine fin (s ++ item k x y nil (item k' x1 y1 m1 p)) q m0 x0 y0 (by rw [e0]; simp [entries])
            (by simp [append_assoc]) ?_ ?_
          · rw [hspec, e0, unwrap_split x0 y0 m0 h1 h2]
            rw [show (s ++ item k' x1 y1 m1 p) ++ (m0 ++ q) = s ++ item k' x1 y1 m1 (p ++ (m0 ++ q)) by
              simp [append_assoc], put_some _ _ _ _ _ _ hks']
            simp [append_assoc]
          · rw [hmap e0]
            simp only [entries_append, entries, hcm e0, List.nil_append, List.append_assoc, List.cons_append]
            refine List.Perm.append_left _ ?_
            refine (List.Perm.cons _ List.perm_middle).trans ?_
            exact List.Perm.swap _ _ _
  · -- a new key
    have hc : f.keys.contains k = false := by
      rw [Bool.eq_false_iff, ne_eq, List.contains_iff_mem]; exact hkf
    have hbk : b ≠ some k := fun h => hkf (hb k h)
    have hspec : Forest.insert k b x y f = s ++ item k x y nil t := by
      unfold Forest.insert
      rw [if_neg hbk, unwrap_ne hkf, e]
      rcases hcase with ⟨rfl, rfl⟩ | ⟨k', x1, y1, m1, q1, rfl, rfl, hks'⟩
      · rw [put_none]; simp
      · rw [put_some _ _ _ _ _ _ hks']; simp
    refine ⟨d2, L.items ++ [(k, ⟨x, y⟩)], ?_, ?_, sm2, p2, ?_⟩
    · simp only [Call.run, Lists.insert, haf, e1, e2, get_absent hperm hkf, bind, Option.bind, pure, Option.map_some,
        Call.answer, hc]
    · simp only [Call.spec]; rw [hspec]; exact k2
    · simp only [Call.spec]; rw [hspec]
      simp only [entries_append, entries]
      have hpm := hperm.append_right [(k, (⟨x, y⟩ : Stored))]
      rw [e, entries_append] at hpm
      rw [e]
      refine ⟨hpm.trans ((List.perm_append_comm).trans ?_), ?_, ?_, ?_⟩
      · rw [List.singleton_append]
        exact List.perm_middle.symm
      · rw [List.map_append, List.nodup_append]
        refine ⟨items_nodup hperm hnd, by simp, ?_⟩
        intro k1 h1 k2 h2
        simp only [List.map_cons, List.map_nil, List.mem_singleton] at h2
        rw [h2]
        rintro rfl
        exact hkf (((hperm.map (·.1)).mem_iff).1 h1)
      · intro j xj yj mj; simp [Forest.Has]
      · rw [e, clean_append] at hcl
        rw [clean_append]; exact ⟨hcl.1, rfl, trivial, hcl.2⟩

theorem for_right (hp : Proper d) {c ls le r : NodeId} {p q t m : Forest} {k : Key} {x y : NodeId}
    (hk : d.kids c = A ++ ls :: ((p ++ item k x y m (q ++ t)).flat ++ le :: B))
    (hr : (t.flat ++ le :: B).head? = some r) :
    ∃ d', moveNodes d c c x y (some r) = some d' ∧
      d'.kids c = A ++ ls :: ((p ++ (q ++ item k x y m t)).flat ++ le :: B) ∧ Same d d' c ∧ Proper d' := by
  obtain ⟨Q, hQ⟩ : ∃ Q, t.flat ++ le :: B = r :: Q := by
    cases h : t.flat ++ le :: B with
    | nil => rw [h] at hr; cases hr
    | cons a b => rw [h] at hr; simp at hr; exact ⟨b, by rw [hr]⟩
  obtain ⟨d', h1, h2, h3, h4⟩ := tok_right (P := A ++ ls :: p.flat) (M := m.flat) (N := q.flat) (Q := Q) (r := r)
    (x := x) (y := y) hp (by rw [hk, ← hQ]; simp [Forest.flat])
  refine ⟨d', h1, ?_, h3, h4⟩
  rw [h2, ← hQ]; simp [Forest.flat]

theorem for_left (hp : Proper d) {c ls le r : NodeId} {p q t m : Forest} {k : Key} {x y : NodeId}
    (hk : d.kids c = A ++ ls :: ((p ++ (q ++ item k x y m t)).flat ++ le :: B)) (hr : q.flat.head? = some r) :
    ∃ d', moveNodes d c c x y (some r) = some d' ∧
      d'.kids c = A ++ ls :: ((p ++ item k x y m (q ++ t)).flat ++ le :: B) ∧ Same d d' c ∧ Proper d' := by
  obtain ⟨Q, hQ⟩ : ∃ Q, q.flat = r :: Q := by
    cases h : q.flat with
    | nil => rw [h] at hr; cases hr
    | cons a b => rw [h] at hr; simp at hr; exact ⟨b, by rw [hr]⟩
  obtain ⟨d', h1, h2, h3, h4⟩ := tok_left (P := A ++ ls :: p.flat) (M := m.flat) (N := Q)
    (Q := t.flat ++ le :: B) (r := r) (x := x) (y := y) hp (by rw [hk]; simp [Forest.flat, hQ])
  refine ⟨d', h1, ?_, h3, h4⟩
  rw [h2]; simp [Forest.flat, hQ]

theorem does_move (hp : Proper d) (hk : d.kids L.container = A ++ L.listStart :: (f.flat ++ L.listEnd :: B))
    (hperm : L.items.Perm f.entries) (hnd : f.keys.Nodup) (hcl : f.Clean) {k : Key} {b : Option Key}
    (hok : Call.ok d f (.moveBefore k b)) : Does d L f A B (.moveBefore k b) := by
  obtain ⟨hkf, hb⟩ := hok
  have hkeys : ∀ {p q m : Forest} {x0 y0 : NodeId}, f = p ++ item k x0 y0 m q → k ∉ p.keys ∧ k ∉ q.keys := by
    intro p q m x0 y0 e0
    have := hnd
    rw [e0, keys_append, List.nodup_append] at this
    simp only [keys, entries, List.map_cons, List.nodup_cons] at this
    exact ⟨fun h => this.2.2 _ h _ (by simp) rfl, this.2.1.1⟩
  have hcut : ∀ {p q m : Forest} {x0 y0 : NodeId}, f = p ++ item k x0 y0 m q →
      Forest.move k b f = put (item k x0 y0 m nil) b (p ++ q) := by
    intro p q m x0 y0 e0
    obtain ⟨h1, h2⟩ := hkeys e0
    unfold Forest.move
    rw [e0, pick_split x0 y0 m q h1, replace_append, replace_id (f := p) (by
      intro k' hk'; rw [if_neg (by rintro rfl; exact h1 hk')])]
    simp only [replace, if_true]
    rw [replace_id (f := q) (by intro k' hk'; rw [if_neg (by rintro rfl; exact h2 hk')])]
    rfl
  have fin : ∀ (x y r : NodeId) (g : Forest), (k, (⟨x, y⟩ : Stored)) ∈ f.entries → L.after b = some r →
      (∃ d', moveNodes d L.container L.container x y (some r) = some d' ∧
        d'.kids L.container = A ++ L.listStart :: (g.flat ++ L.listEnd :: B) ∧ Same d d' L.container ∧ Proper d') →
      Forest.move k b f = g → f.entries.Perm g.entries ∧ (∀ j x y m, g.Has j x y m ↔ f.Has j x y m) ∧ (f.Clean → g.Clean) → Does d L f A B (.moveBefore k b) := by
    rintro x y r g hin haf ⟨d', h1, h2, h3, h4⟩ hs hpm
    refine ⟨d', L.items, ?_, ?_, h3, h4, ?_⟩
    · simp only [Call.run, Lists.moveBefore, haf, get_entries hperm hnd hin, h1, bind, Option.bind, Option.map_some,
        Call.answer]
    · simp only [Call.spec]; rw [hs]; exact h2
    · simp only [Call.spec]; rw [hs]; exact ⟨hperm.trans hpm.1, items_nodup hperm hnd, hpm.2.1, hpm.2.2 hcl⟩
  cases b with
  | none =>
    obtain ⟨p, x, y, m, q, e, hkp⟩ := split hkf
    have hk' : d.kids L.container = A ++ L.listStart :: ((p ++ item k x y m (q ++ nil)).flat ++ L.listEnd :: B) := by
      rw [hk, e]; simp
    refine fin x y L.listEnd (p ++ (q ++ item k x y m nil)) (by rw [e]; simp [entries]) rfl (for_right hp hk' rfl) ?_ ?_
    · rw [hcut e, put_none]; simp [append_assoc]
    · rw [e]; refine ⟨?_, by intro j xj yj mj; simp [Forest.Has]; try grind, by simp [Clean]; try grind⟩
      simp only [entries_append, entries]
      refine List.Perm.append_left _ ?_
      exact (List.perm_append_comm (l₁ := [_])) 
  | some b =>
    obtain ⟨hbf, hbk⟩ := hb b rfl
    rcases split2 hkf hbf (fun e => hbk e.symm) with ⟨p, x, y, m, q, xb, yb, mb, s, e⟩ | ⟨p, x, y, m, q, xb, yb, mb, s, e⟩
    · -- to the right
      have haf : L.after (some b) = some xb := by
        simp [DynList.after, get_entries hperm hnd (k := b) (x := ⟨xb, yb⟩) (by rw [e]; simp [entries])]
      refine fin x y xb (p ++ (q ++ item k x y m (item b xb yb mb s))) (by rw [e]; simp [entries]) haf
        (for_right hp (e ▸ hk) rfl) ?_ ?_
      · rw [hcut e, show p ++ (q ++ item b xb yb mb s) = (p ++ q) ++ item b xb yb mb s by simp [append_assoc],
          put_some]
        · simp [append_assoc]
        · have := hnd
          rw [e] at this
          simp only [keys, entries_append, entries, List.map_cons, List.map_append, List.nodup_append,
            List.nodup_cons] at this
          simp only [keys_append, List.mem_append, not_or]
          constructor
          · intro h; exact this.2.2 _ h b (by simp) rfl
          · intro h; exact this.2.1.2.2.2 _ h b (by simp) rfl
      · rw [e]; refine ⟨?_, by intro j xj yj mj; simp [Forest.Has]; try grind, by simp [Clean]; try grind⟩
        simp only [entries_append, entries]
        refine List.Perm.append_left _ ?_
        exact List.perm_middle.symm
    · -- to the left
      have haf : L.after (some b) = some xb := by
        simp [DynList.after, get_entries hperm hnd (k := b) (x := ⟨xb, yb⟩) (by rw [e]; simp [entries])]
      have hk' : d.kids L.container = A ++ L.listStart ::
          ((p ++ (item b xb yb mb q ++ item k x y m s)).flat ++ L.listEnd :: B) := by
        rw [hk, e]; simp
      have e' : f = (p ++ item b xb yb mb q) ++ item k x y m s := by rw [e]; simp [append_assoc]
      refine fin x y xb (p ++ item k x y m (item b xb yb mb q ++ s)) (by rw [e]; simp [entries]) haf
        (for_left hp hk' rfl) ?_ ?_
      · rw [hcut e', show (p ++ item b xb yb mb q) ++ s = p ++ item b xb yb mb (q ++ s) by simp [append_assoc],
          put_some]
        · simp
        · have := hnd
          rw [e] at this
          simp only [keys, entries_append, entries, List.map_cons, List.map_append, List.nodup_append,
            List.nodup_cons] at this
          intro h; exact this.2.2 _ h b (by simp) rfl
      · rw [e]; refine ⟨?_, by intro j xj yj mj; simp [Forest.Has]; try grind, by simp [Clean]; try grind⟩
        simp only [entries_append, entries, item_append]
        refine List.Perm.append_left _ ?_
        refine (List.Perm.cons _ List.perm_middle).trans ?_
        exact List.Perm.swap _ _ _

theorem does_swap (hp : Proper d) (hk : d.kids L.container = A ++ L.listStart :: (f.flat ++ L.listEnd :: B))
    (hperm : L.items.Perm f.entries) (hnd : f.keys.Nodup) (hcl : f.Clean) {a b : Key}
    (hok : Call.ok d f (.swap a b)) : Does d L f A B (.swap a b) := by
  obtain ⟨haf, hbf, hadj⟩ := hok
  by_cases hab : a = b
  · subst hab
    obtain ⟨p, x, y, m, q, e, hkp⟩ := split haf
    have hkq : a ∉ q.keys := by
      have := hnd
      rw [e, keys_append, List.nodup_append] at this
      simp only [keys, entries, List.map_cons, List.nodup_cons] at this
      exact this.2.1.1
    have hs : Forest.swap a a f = f := by
      unfold Forest.swap
      rw [e, pick_split x y m q hkp, replace_append, replace_id (f := p) (by
        intro k' hk'
        have : k' ≠ a := by rintro rfl; exact hkp hk'
        simp [this])]
      simp only [replace, if_true]
      rw [replace_id (f := q) (by
        intro k' hk'
        have : k' ≠ a := by rintro rfl; exact hkq hk'
        simp [this])]
      rfl
    refine ⟨d, L.items, ?_, ?_, fun _ _ => rfl, hp, ?_⟩
    · have hg := get_entries hperm hnd (k := a) (x := ⟨x, y⟩) (by rw [e]; simp [entries])
      simp only [Call.run, Lists.swap, hg, bind, Option.bind, if_true, pure, Option.map_some, Call.answer]
    · simp only [Call.spec]; rw [hs]; exact hk
    · simp only [Call.spec]; rw [hs]; exact ⟨hperm, items_nodup hperm hnd, fun _ _ _ _ => Iff.rfl, hcl⟩
  · have fin : ∀ (xa ya xb yb r : NodeId) (g : Forest) (d1 : Dom),
        (a, (⟨xa, ya⟩ : Stored)) ∈ f.entries → (b, (⟨xb, yb⟩ : Stored)) ∈ f.entries →
        nextIn ya (d.kids L.container) = some r →
        moveNodes d L.container L.container xa ya (some xb) = some d1 → Same d d1 L.container →
        (∃ d', moveNodes d1 L.container L.container xb yb (some r) = some d' ∧
          d'.kids L.container = A ++ L.listStart :: (g.flat ++ L.listEnd :: B) ∧ Same d1 d' L.container ∧ Proper d') →
        Forest.swap a b f = g → f.entries.Perm g.entries ∧ (∀ j x y m, g.Has j x y m ↔ f.Has j x y m) ∧ (f.Clean → g.Clean) → Does d L f A B (.swap a b) := by
      rintro xa ya xb yb r g d1 hina hinb hnx h0 hs0 ⟨d', h1, h2, h3, h4⟩ hs hpm
      refine ⟨d', L.items, ?_, ?_, hs0.trans h3, h4, ?_⟩
      · simp only [Call.run, Lists.swap, get_entries hperm hnd hina, get_entries hperm hnd hinb, if_neg hab, hnx, h0, h1,
          bind, Option.bind, Option.map_some, Call.answer]
      · simp only [Call.spec]; rw [hs]; exact h2
      · simp only [Call.spec]; rw [hs]; exact ⟨hperm.trans hpm.1, items_nodup hperm hnd, hpm.2.1, hpm.2.2 hcl⟩
    have hnext : ∀ {p q m : Forest} {x y n : NodeId}, f = p ++ item a x y m q →
        (q.flat ++ L.listEnd :: B).head? = some n → nextIn y (d.kids L.container) = some n := by
      intro p q m x y n e hn
      have hk' : d.kids L.container = (A ++ L.listStart :: (p.flat ++ x :: m.flat)) ++ y :: (q.flat ++ L.listEnd :: B) := by
        rw [hk, e]; simp [Forest.flat]
      have := hp.1 L.container
      rw [hk'] at this
      rw [hk', nextIn_split (notMem_of_nodup this), hn]
    have hrep : ∀ {p q s : Forest} (k1 k2 : Key) (x1 y1 x2 y2 : NodeId) (m1 m2 : Forest),
        f = p ++ item k1 x1 y1 m1 (q ++ item k2 x2 y2 m2 s) → (k1 = a ∧ k2 = b ∨ k1 = b ∧ k2 = a) →
        Forest.swap a b f = p ++ item k2 x2 y2 m2 (q ++ item k1 x1 y1 m1 s) := by
      intro p q s k1 k2 x1 y1 x2 y2 m1 m2 e hkk
      have h := hnd
      rw [e] at h
      simp only [keys, entries_append, entries, List.map_cons, List.map_append, List.nodup_append,
        List.nodup_cons, List.mem_append, List.mem_cons, not_or] at h
      have p1 : k1 ∉ p.keys := fun hh => h.2.2 _ hh _ (Or.inl rfl) rfl
      have p2 : k2 ∉ p.keys := fun hh => h.2.2 _ hh _ (Or.inr (Or.inr (Or.inl rfl))) rfl
      have q1 : k1 ∉ q.keys := h.2.1.1.1
      have q2 : k2 ∉ q.keys := fun hh => h.2.1.2.2.2 _ hh _ (Or.inl rfl) rfl
      have s1 : k1 ∉ s.keys := h.2.1.1.2.2
      have s2 : k2 ∉ s.keys := h.2.1.2.2.1.1
      have e2 : f = (p ++ item k1 x1 y1 m1 q) ++ item k2 x2 y2 m2 s := by rw [e]; simp [append_assoc]
      have hk12 : k1 ≠ k2 := by rcases hkk with ⟨rfl, rfl⟩ | ⟨rfl, rfl⟩; exact hab; exact fun e => hab e.symm
      have pk1 : f.pick k1 = item k1 x1 y1 m1 nil := by rw [e, pick_split _ _ _ _ p1]
      have pk2 : f.pick k2 = item k2 x2 y2 m2 nil := by
        rw [e2, pick_split]
        simp only [keys_append, List.mem_append, not_or]
        refine ⟨p2, ?_⟩
        simp only [keys, entries, List.map_cons, List.mem_cons, not_or]
        exact ⟨fun e => hk12 e.symm, q2⟩
      have idl : ∀ {g : Forest} {P : Key → Option Forest}, k1 ∉ g.keys → k2 ∉ g.keys →
          (∀ k, k ≠ k1 → k ≠ k2 → P k = none) → g.replace P = g := by
        intro g P h1 h2 hP
        refine replace_id ?_
        intro k hk
        exact hP k (by rintro rfl; exact h1 hk) (by rintro rfl; exact h2 hk)
      unfold Forest.swap
      have gen : ∀ P : Key → Option Forest, P k1 = some (f.pick k2) → P k2 = some (f.pick k1) →
          (∀ k, k ≠ k1 → k ≠ k2 → P k = none) →
          f.replace P = p ++ item k2 x2 y2 m2 (q ++ item k1 x1 y1 m1 s) := by
        intro P hP1 hP2 hP3
        have : (p ++ item k1 x1 y1 m1 (q ++ item k2 x2 y2 m2 s)).replace P =
            p ++ item k2 x2 y2 m2 (q ++ item k1 x1 y1 m1 s) := by
          rw [replace_append, idl p1 p2 hP3]
          simp only [replace, hP1]
          rw [replace_append, idl q1 q2 hP3]
          simp only [replace, hP2]
          rw [idl s1 s2 hP3, pk1, pk2]
          rfl
        rw [← e] at this
        exact this
      rcases hkk with ⟨rfl, rfl⟩ | ⟨rfl, rfl⟩
      · refine gen _ (by simp) (by simp [Ne.symm hk12]) ?_
        intro k h1 h2; simp [h1, h2]
      · refine gen _ (by simp [hk12]) (by simp) ?_
        intro k h1 h2; simp [h1, h2]
    rcases split2 haf hbf hab with ⟨p, xa, ya, ma, q, xb, yb, mb, s, e⟩ | ⟨p, xa, ya, ma, q, xb, yb, mb, s, e⟩
    · -- the first one is in front
      have hq : q ≠ nil := by
        rintro rfl
        exact hadj ⟨p, xa, ya, ma, xb, yb, mb, s, e⟩
      obtain ⟨n, ns, hn⟩ := Forest.flat_ne_nil hq
      obtain ⟨d1, g1, g2, g3, g4⟩ := for_right (r := xb) hp (e ▸ hk) rfl
      have g2' : d1.kids L.container = A ++ L.listStart ::
          ((p ++ ((q ++ item a xa ya ma nil) ++ item b xb yb mb s)).flat ++ L.listEnd :: B) := by
        rw [g2]; simp [append_assoc]
      refine fin xa ya xb yb n _ d1 (by rw [e]; simp [entries]) (by rw [e]; simp [entries]) (hnext e ?_) g1 g3
        (for_left g4 g2' (by simp [hn])) ?_ ?_
      · simp [hn]
      · rw [hrep a b _ _ _ _ _ _ e (Or.inl ⟨rfl, rfl⟩)]; simp [append_assoc]
      · rw [e]; refine ⟨?_, by intro j xj yj mj; simp [Forest.Has]; try grind, by simp [Clean]; try grind⟩
        simp only [entries_append, entries, List.append_assoc, List.cons_append, List.nil_append]
        refine List.Perm.append_left _ ?_
        refine (List.Perm.cons _ List.perm_middle).trans ((List.Perm.swap _ _ _).trans (List.Perm.cons _ ?_))
        exact List.perm_middle.symm
    · -- the second one is in front
      obtain ⟨n, hn⟩ : ∃ n, (s.flat ++ L.listEnd :: B).head? = some n := by
        cases s.flat <;> simp
      have hk' : d.kids L.container = A ++ L.listStart ::
          ((p ++ (item b xb yb mb q ++ item a xa ya ma s)).flat ++ L.listEnd :: B) := by
        rw [hk, e]; simp
      obtain ⟨d1, g1, g2, g3, g4⟩ := for_left (r := xb) hp hk' rfl
      have g2' : d1.kids L.container = A ++ L.listStart ::
          (((p ++ item a xa ya ma nil) ++ item b xb yb mb (q ++ s)).flat ++ L.listEnd :: B) := by
        rw [g2]; simp [append_assoc]
      have e' : f = (p ++ item b xb yb mb q) ++ item a xa ya ma s := by rw [e]; simp [append_assoc]
      refine fin xa ya xb yb n _ d1 (by rw [e]; simp [entries]) (by rw [e]; simp [entries]) (hnext e' hn) g1 g3
        (for_right g4 g2' hn) ?_ ?_
      · rw [hrep b a _ _ _ _ _ _ e (Or.inr ⟨rfl, rfl⟩)]; simp [append_assoc]
      · rw [e]; refine ⟨?_, by intro j xj yj mj; simp [Forest.Has]; try grind, by simp [Clean]; try grind⟩
        simp only [entries_append, entries, List.append_assoc, List.cons_append, List.nil_append]
        refine List.Perm.append_left _ ?_
        refine (List.Perm.cons _ List.perm_middle).trans ((List.Perm.swap _ _ _).trans (List.Perm.cons _ ?_))
        exact List.perm_middle.symm

theorem does (hp : Proper d) (hk : d.kids L.container = A ++ L.listStart :: (f.flat ++ L.listEnd :: B))
    (hperm : L.items.Perm f.entries) (hnd : f.keys.Nodup) (hcl : f.Clean) {c : Call} (hok : c.ok d f) :
    Does d L f A B c := by
  cases c with
  | insert k b x y => exact does_insert hp hk hperm hnd hcl hok
  | remove k => exact does_remove hp hk hperm hnd hcl k
  | moveBefore k b => exact does_move hp hk hperm hnd hcl hok
  | swap a b => exact does_swap hp hk hperm hnd hcl hok
  | retain p => exact does_retain hp hk hperm hnd hcl p

end
end Verif.Lists
