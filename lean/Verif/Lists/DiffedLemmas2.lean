import Verif.Lists.DiffedLemmas
/-! # Items before and after `DiffedList::update` -/
namespace Verif.Lists
open Verif.Dom

variable {mk : Key → NodeId × NodeId}

/-- the nodes the loop creates are among those of the new keys -/
theorem diffLoop_made (keys : List Key) : ∀ (set it : List Key),
    List.Sublist ((diffLoop mk set it keys).1.flatMap madeBy) (keys.flatMap fun k => [(mk k).1, (mk k).2]) := by
  induction keys with
  | nil => intro set it; simp [diffLoop]
  | cons k keys ih =>
    intro set it
    simp only [diffLoop]
    split
    · split
      · exact (ih _ _).trans (List.sublist_append_right _ _)
      · exact (ih _ _).trans (List.sublist_append_right _ _)
    · simp only [List.flatMap_cons, madeBy]
      exact List.Sublist.append (List.Sublist.refl _) (ih _ _)

/-- keys that are there already, or are not asked for, are not re-created -/
theorem diffLoop_keeps (keys : List Key) : ∀ (set it : List Key) (x : Key), keys.Nodup → (x ∈ set ∨ x ∉ keys) →
    ∀ op ∈ (diffLoop mk set it keys).1, keepsKey x op = true := by
  induction keys with
  | nil => intro set it x _ _ op hop; simp [diffLoop] at hop
  | cons k keys ih =>
    intro set it x hn hx op hop
    rw [List.nodup_cons] at hn
    simp only [diffLoop] at hop
    have hx' : x ∈ set.filter (· != k) ∨ x ∉ keys := by
      by_cases hxk : x = k
      · exact Or.inr (hxk ▸ hn.1)
      · rcases hx with hx | hx
        · exact Or.inl (List.mem_filter.2 ⟨hx, by simpa using hxk⟩)
        · exact Or.inr (fun h => hx (by simp [h]))
    split at hop
    · split at hop
      · exact ih _ _ x hn.2 hx' op hop
      · rcases List.mem_cons.1 hop with rfl | hop
        · rfl
        · exact ih _ _ x hn.2 hx' op hop
    · rename_i hks
      rcases List.mem_cons.1 hop with rfl | hop
      · simp only [keepsKey, bne_iff_ne, ne_eq]
        rintro rfl
        rcases hx with hx | hx
        · exact hks hx
        · exact hx (by simp)
      · refine ih _ _ x hn.2 ?_ op hop
        rcases hx with hx | hx
        · exact Or.inl hx
        · exact Or.inr (fun h => hx (by simp [h]))

/-- keys that are not there yet are inserted once -/
theorem diffLoop_adds (keys : List Key) : ∀ (set it : List Key) (x : Key), keys.Nodup → x ∈ keys → x ∉ set →
    ∃ pre b post, (diffLoop mk set it keys).1 = pre ++ .insert x b (mk x).1 (mk x).2 :: post ∧
      ∀ op ∈ post, keepsKey x op = true := by
  induction keys with
  | nil => intro set it x _ hx; cases hx
  | cons k keys ih =>
    intro set it x hn hx hset
    rw [List.nodup_cons] at hn
    by_cases hxk : x = k
    · subst hxk
      refine ⟨[], it.head?, (diffLoop mk set it keys).1, ?_, ?_⟩
      · simp only [diffLoop, if_neg hset, List.nil_append]
      · exact diffLoop_keeps keys _ _ x hn.2 (Or.inr hn.1)
    · have hx' : x ∈ keys := by
        rcases List.mem_cons.1 hx with h | h
        · exact absurd h hxk
        · exact h
      have hset' : x ∉ set.filter (· != k) := fun h => hset (List.mem_filter.1 h).1
      simp only [diffLoop]
      split
      · split
        · exact ih _ _ x hn.2 hx' hset'
        · obtain ⟨pre, b, post, h1, h2⟩ := ih (set.filter (· != k)) it x hn.2 hx' hset'
          exact ⟨.moveBefore k it.head? :: pre, b, post, by rw [h1]; rfl, h2⟩
      · obtain ⟨pre, b, post, h1, h2⟩ := ih set it x hn.2 hx' hset
        exact ⟨.insert k it.head? (mk k).1 (mk k).2 :: pre, b, post, by rw [h1]; rfl, h2⟩

/-! ## generic facts about calls and items -/

/-- an inserted item is there -/
theorem item_added {l : List Item} {k : Key} {b : Option Key} {x y : NodeId}
    (hok : CallOk l (.insert k b x y)) : (⟨k, x, y, []⟩ : Item) ∈ specStep l (.insert k b x y) := by
  simp only [specStep, specInsert]
  split
  · rename_i h
    obtain ⟨z, hz, hk⟩ := hok k h
    exact List.mem_map.2 ⟨z, hz, if_pos hk⟩
  · rename_i h
    apply mem_place_new
    intro k' hk'
    obtain ⟨z, hz, hzk⟩ := hok k' hk'
    refine ⟨z, List.mem_filter.2 ⟨hz, ?_⟩, hzk⟩
    simp only [bne_iff_ne, ne_eq]
    intro e
    exact h (by rw [hk', ← hzk, e])

theorem nodup_sub {α : Type} {l l' : List α} (h : List.Sublist l l') (hn : l'.Nodup) : l.Nodup := List.Nodup.sublist h hn

/-- the inserted item is there after the calls -/
theorem items_added {pre post : List Op} {s : Sys} {l : List Item} {given : List NodeId} {k : Key} {b : Option Key}
    {x y : NodeId} (h : Tracks s l given) (hok : CallsOk l (pre ++ .insert k b x y :: post))
    (hnd : ((pre ++ Op.insert k b x y :: post).flatMap madeBy).Nodup)
    (hfr : ∀ n ∈ (pre ++ Op.insert k b x y :: post).flatMap madeBy, Fresh s.dom n)
    (hk : ∀ op ∈ post, keepsKey k op = true) :
    (⟨k, x, y, []⟩ : Item) ∈ (pre ++ Op.insert k b x y :: post).foldl specStep l := by
  rw [show pre ++ Op.insert k b x y :: post = (pre ++ [.insert k b x y]) ++ post by simp] at *
  rw [List.flatMap_append] at hnd hfr
  rw [callsOk_append] at hok
  have hnd' := List.nodup_append.1 hnd
  obtain ⟨s1, -, t1, f1⟩ := run_calls _ h hok.1 hnd'.1 (fun n hn => hfr n (List.mem_append_left _ hn))
  rw [List.foldl_append]
  refine items_kept t1 hok.2 hnd'.2.1 ?_ ?_ hk
  · intro n hn
    refine f1 n (hfr n (List.mem_append_right _ hn)) ?_
    intro hm
    exact hnd'.2.2 n hm n hn rfl
  · rw [List.foldl_append]
    apply item_added
    exact ((callsOk_append.1 hok.1).2).1

theorem perm_of_keys {a b : List Item} (ha : (a.map Item.key).Nodup) (h : (a.map Item.key).Perm (b.map Item.key))
    (hs : ∀ x ∈ b, x ∈ a) : a.Perm b := by
  have nd : ∀ {l : List Item}, (l.map Item.key).Nodup → l.Nodup := fun h => by
    rw [List.Nodup, List.pairwise_map] at h
    exact h.imp fun hxy e => hxy (congrArg _ e)
  rw [List.perm_ext_iff_of_nodup (nd ha) (nd (h.nodup_iff.1 ha))]
  intro x
  refine ⟨fun hx => ?_, hs x⟩
  obtain ⟨y, hy, hk⟩ := List.mem_map.1 (h.mem_iff.1 (List.mem_map_of_mem (f := Item.key) hx))
  have := key_inj ha (hs y hy) hx hk
  exact this ▸ hy

theorem eq_of_keys {a b : List Item} (ha : (a.map Item.key).Nodup) (h : a.map Item.key = b.map Item.key)
    (hs : ∀ x ∈ b, x ∈ a) : a = b := by
  have hp := fun x => (perm_of_keys ha (h ▸ List.Perm.refl _) hs).mem_iff (a := x)
  apply List.ext_getElem
  · simpa using congrArg List.length h
  · intro i h1 h2
    refine key_inj ha (List.getElem_mem h1) ((hp _).2 (List.getElem_mem h2)) ?_
    have := congrArg (fun l => l[i]?) h
    simpa [h1, h2] using this

/-- the removals at the end -/
theorem removes_keys (ks rest : List Key) :
    (rest.map Op.remove).foldl keyStep ks = ks.filter (fun x => decide (x ∉ rest)) := by
  induction rest generalizing ks with
  | nil =>
    simp only [List.map_nil, List.foldl_nil]
    symm
    rw [List.filter_eq_self]
    simp
  | cons r rest ih =>
    rw [List.map_cons, List.foldl_cons, ih]
    simp only [keyStep]
    rw [List.filter_filter]
    apply List.filter_congr
    intro x _
    simp only [List.mem_cons, not_or]
    by_cases h1 : x = r <;> by_cases h2 : x ∈ rest <;> simp [h1, h2]

theorem removes_ok (ks rest : List Key) : KeysOk ks (rest.map Op.remove) := by
  induction rest generalizing ks with
  | nil => trivial
  | cons r rest ih => exact ⟨trivial, ih _⟩

theorem removes_made (rest : List Key) : (rest.map Op.remove).flatMap madeBy = [] := by
  induction rest with
  | nil => rfl
  | cons r rest ih => simp [List.flatMap_cons, madeBy, ih]

theorem find_perm {l l' : List Item} (hn : (l.map Item.key).Nodup) (h : l.Perm l') (k : Key) : find k l = find k l' := by
  have hn' : (l'.map Item.key).Nodup := (h.map _).nodup_iff.1 hn
  cases hf : find k l with
  | none =>
    rw [find_none] at hf
    symm
    rw [find_none]
    rintro ⟨x, hx, hk⟩
    exact hf ⟨x, h.mem_iff.2 hx, hk⟩
  | some x =>
    obtain ⟨h1, h2⟩ := find_mem hf
    cases hf' : find k l' with
    | none => exact absurd ⟨x, h.mem_iff.1 h1, h2⟩ (find_none.1 hf')
    | some y =>
      obtain ⟨h3, h4⟩ := find_mem hf'
      rw [key_inj hn' (h.mem_iff.1 h1) h3 (h2.trans h4.symm)]

theorem itemsFor_keys {mk : Key → NodeId × NodeId} {keys : List Key} {l : List Item} :
    (itemsFor mk keys l).map Item.key = keys := by
  unfold itemsFor
  rw [List.map_map]
  conv => rhs; rw [← List.map_id keys]
  apply List.map_congr_left
  intro k _
  simp only [Function.comp, id]
  cases hf : find k l with
  | none => rfl
  | some x => exact (find_mem hf).2

/-- what is needed of an update, for any list that makes its items out of keys: if the calls lead to
the right keys, keep the items that stay and insert the others once, then they lead to the right items -/
theorem itemsFor_of_calls {s : Sys} {l : List Item} {given : List NodeId} {ops : List Op} {keys : List Key}
    (h : Tracks s l given) (hok : CallsOk l ops) (hnd : (ops.flatMap madeBy).Nodup)
    (hfr : ∀ n ∈ ops.flatMap madeBy, Fresh s.dom n)
    (hkeep : ∀ k ∈ keys, k ∈ l.map Item.key → ∀ op ∈ ops, keepsKey k op = true)
    (hadd : ∀ k ∈ keys, k ∉ l.map Item.key → ∃ pre b post, ops = pre ++ .insert k b (mk k).1 (mk k).2 :: post ∧
      ∀ op ∈ post, keepsKey k op = true) :
    ∀ x ∈ itemsFor mk keys l, x ∈ ops.foldl specStep l := by
  intro x hx
  obtain ⟨k, hk, rfl⟩ := List.mem_map.1 hx
  cases hf : find k l with
  | some y =>
    obtain ⟨h1, h2⟩ := find_mem hf
    subst h2
    exact items_kept h hok hnd hfr h1 (hkeep _ hk (List.mem_map_of_mem h1))
  | none =>
    rw [find_none, has_iff] at hf
    obtain ⟨pre, b, post, e, hp⟩ := hadd k hk hf
    subst e
    exact items_added h hok hnd hfr hp

end Verif.Lists
