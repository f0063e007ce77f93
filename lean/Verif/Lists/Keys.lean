import Verif.Lists.Calls
/-! # What a sequence of calls does to the keys -/
namespace Verif.Lists
open Verif.Dom

def kBefore (k b : Key) : List Key → List Key
  | [] => []
  | y :: ys => if y = b then k :: y :: ys else y :: kBefore k b ys

def kPlace (k : Key) : Option Key → List Key → List Key
  | none, ks => ks ++ [k]
  | some b, ks => kBefore k b ks

def keyStep (ks : List Key) : Op → List Key
  | .insert k b _ _ => if b = some k then ks else kPlace k b (ks.filter (· != k))
  | .remove k => ks.filter (· != k)
  | .moveBefore k b => if k ∈ ks then kPlace k b (ks.filter (· != k)) else ks
  | .swap a b => if a ∈ ks ∧ b ∈ ks then ks.map fun z => if z = a then b else if z = b then a else z else ks
  | .retain p => ks.filter p
  | _ => ks

theorem has_iff {l : List Item} {k : Key} : Has l k ↔ k ∈ l.map Item.key := by
  simp only [Has, List.mem_map]

theorem keys_placeBefore (x : Item) (b : Key) (l : List Item) :
    (placeBefore x b l).map Item.key = kBefore x.key b (l.map Item.key) := by
  induction l with
  | nil => rfl
  | cons y ys ih =>
    simp only [placeBefore, List.map_cons, kBefore]
    split
    · rfl
    · rw [List.map_cons, ih]

theorem keys_place (x : Item) (b : Option Key) (l : List Item) :
    (place x b l).map Item.key = kPlace x.key b (l.map Item.key) := by
  cases b with
  | none => simp [place, kPlace]
  | some b => exact keys_placeBefore x b l

theorem keys_without (k : Key) (l : List Item) : (without k l).map Item.key = (l.map Item.key).filter (· != k) := by
  rw [List.filter_map]; rfl

theorem keys_step (l : List Item) (op : Op) : (specStep l op).map Item.key = keyStep (l.map Item.key) op := by
  cases op with
  | insert k b x y =>
    simp only [specStep, specInsert, keyStep]
    split
    · rw [List.map_map]
      apply List.map_congr_left
      intro z _
      simp only [Function.comp]
      split
      · rename_i h; exact h.symm
      · rfl
    · rw [keys_place, keys_without]
  | remove k => exact keys_without k l
  | moveBefore k b =>
    simp only [specStep, specMove, keyStep]
    cases hf : find k l with
    | none =>
      rw [find_none, has_iff] at hf
      rw [if_neg hf]
    | some x =>
      obtain ⟨h1, h2⟩ := find_mem hf
      rw [if_pos (h2 ▸ List.mem_map_of_mem h1)]
      simp only
      rw [keys_place, keys_without, h2]
  | swap a b =>
    simp only [specStep, specSwap, keyStep]
    cases hf : find a l with
    | none =>
      rw [find_none, has_iff] at hf
      rw [if_neg (fun h => hf h.1)]
    | some x =>
      obtain ⟨h1, h2⟩ := find_mem hf
      cases hf' : find b l with
      | none =>
        rw [find_none, has_iff] at hf'
        rw [if_neg (fun h => hf' h.2)]
      | some y =>
        obtain ⟨h3, h4⟩ := find_mem hf'
        rw [if_pos ⟨h2 ▸ List.mem_map_of_mem h1, h4 ▸ List.mem_map_of_mem h3⟩]
        simp only [List.map_map]
        apply List.map_congr_left
        intro z _
        simp only [Function.comp]
        split
        · exact h4
        · split
          · exact h2
          · rfl
  | retain p => simp only [specStep, keyStep, List.filter_map]; rfl
  | content k ns =>
    rw [env_keys rfl]; rfl
  | render => rfl
  | unrender => rfl
  | place => rfl
  | vanish => rfl

theorem keys_run (l : List Item) (ops : List Op) :
    (ops.foldl specStep l).map Item.key = ops.foldl keyStep (l.map Item.key) := by
  induction ops generalizing l with
  | nil => rfl
  | cons op ops ih => rw [List.foldl_cons, List.foldl_cons, ih, keys_step]

/-- What is asked of a call, in terms of the keys. -/
def KeyOk (ks : List Key) : Op → Prop
  | .insert _ b _ _ => ∀ k, b = some k → k ∈ ks
  | .remove _ => True
  | .moveBefore k b => k ∈ ks ∧ ∀ k', b = some k' → k' ∈ ks ∧ k' ≠ k
  | .swap a b => a ∈ ks ∧ b ∈ ks ∧ ¬ [a, b] <:+: ks
  | .retain _ => True
  | _ => False

def KeysOk (ks : List Key) : List Op → Prop
  | [] => True
  | op :: ops => KeyOk ks op ∧ KeysOk (keyStep ks op) ops

theorem keysOk_append {ops1 ops2 : List Op} : ∀ {ks : List Key},
    KeysOk ks (ops1 ++ ops2) ↔ KeysOk ks ops1 ∧ KeysOk (ops1.foldl keyStep ks) ops2 := by
  induction ops1 with
  | nil => intro l; simp [KeysOk]
  | cons op ops ih => intro l; simp only [List.cons_append, KeysOk, List.foldl_cons, ih, and_assoc]

theorem callOk_iff {l : List Item} {op : Op} : CallOk l op ↔ KeyOk (l.map Item.key) op := by
  cases op <;> simp only [CallOk, KeyOk, has_iff, directlyBefore]

theorem callsOk_iff {ops : List Op} : ∀ {l : List Item}, CallsOk l ops ↔ KeysOk (l.map Item.key) ops := by
  induction ops with
  | nil => intro l; simp [CallsOk, KeysOk]
  | cons op ops ih => intro l; simp only [CallsOk, KeysOk, callOk_iff, ih, keys_step]

/-! ## items stay the same -/

/-- The call does not remove or replace the item with this key. -/
def keepsKey (k : Key) : Op → Bool
  | .insert k' _ _ _ => k' != k
  | .remove k' => k' != k
  | .retain p => p k
  | .content k' _ => k' != k
  | _ => true

theorem mem_placeBefore_old {x y : Item} {b : Key} {l : List Item} (h : y ∈ l) : y ∈ placeBefore x b l := by
  induction l with
  | nil => cases h
  | cons z zs ih =>
    unfold placeBefore
    split
    · exact List.mem_cons_of_mem _ h
    · rcases List.mem_cons.1 h with rfl | h
      · simp
      · exact List.mem_cons_of_mem _ (ih h)

theorem mem_placeBefore_new {x : Item} {b : Key} {l : List Item} (h : Has l b) : x ∈ placeBefore x b l := by
  obtain ⟨y, hy, hk⟩ := h
  induction l with
  | nil => cases hy
  | cons z zs ih =>
    unfold placeBefore
    split
    · simp
    · rename_i hz
      rcases List.mem_cons.1 hy with rfl | hy
      · exact absurd hk hz
      · exact List.mem_cons_of_mem _ (ih hy)

theorem mem_place_old {x y : Item} {b : Option Key} {l : List Item} (h : y ∈ l) : y ∈ place x b l := by
  cases b with
  | none => exact List.mem_append_left _ h
  | some b => exact mem_placeBefore_old h

theorem mem_place_new {x : Item} {b : Option Key} {l : List Item} (h : ∀ k, b = some k → Has l k) :
    x ∈ place x b l := by
  cases b with
  | none => simp [place]
  | some b => exact mem_placeBefore_new (h b rfl)

theorem key_inj {l : List Item} (hn : (l.map Item.key).Nodup) {x y : Item} (hx : x ∈ l) (hy : y ∈ l)
    (h : x.key = y.key) : x = y := by
  induction l with
  | nil => cases hx
  | cons z zs ih =>
    simp only [List.map_cons, List.nodup_cons] at hn
    rcases List.mem_cons.1 hx with rfl | hx' <;> rcases List.mem_cons.1 hy with rfl | hy'
    · rfl
    · exact absurd (h ▸ List.mem_map_of_mem hy') hn.1
    · exact absurd (h ▸ List.mem_map_of_mem hx') hn.1
    · exact ih hn.2 hx' hy'

theorem item_kept {l : List Item} {op : Op} (hn : (l.map Item.key).Nodup) (hok : CallOk l op) {x : Item}
    (hx : x ∈ l) (hk : keepsKey x.key op = true) : x ∈ specStep l op := by
  cases op with
  | insert k b s e =>
    simp only [keepsKey, bne_iff_ne, ne_eq] at hk
    simp only [specStep, specInsert]
    split
    · exact List.mem_map.2 ⟨x, hx, if_neg (fun h => hk h.symm)⟩
    · exact mem_place_old (List.mem_filter.2 ⟨hx, by simp; exact fun h => hk h.symm⟩)
  | remove k =>
    simp only [keepsKey, bne_iff_ne, ne_eq] at hk
    exact List.mem_filter.2 ⟨hx, by simp; exact fun h => hk h.symm⟩
  | moveBefore k b =>
    simp only [specStep, specMove]
    split
    · rename_i y hy
      obtain ⟨h1, h2⟩ := find_mem hy
      by_cases hxk : x.key = k
      · have := key_inj hn hx h1 (hxk.trans h2.symm)
        subst this
        apply mem_place_new
        intro k' hk'
        obtain ⟨⟨z, hz, hzk⟩, hne⟩ := hok.2 k' hk'
        exact ⟨z, List.mem_filter.2 ⟨hz, by simp [hzk, hne]⟩, hzk⟩
      · exact mem_place_old (List.mem_filter.2 ⟨hx, by simp [hxk]⟩)
    · exact hx
  | swap a b =>
    simp only [specStep, specSwap]
    split
    · rename_i y z hy hz
      obtain ⟨h1, h2⟩ := find_mem hy
      obtain ⟨h3, h4⟩ := find_mem hz
      refine List.mem_map.2 ?_
      by_cases hxa : x.key = a
      · have := key_inj hn hx h1 (hxa.trans h2.symm)
        subst this
        refine ⟨z, h3, ?_⟩
        by_cases hab : a = b
        · subst hab
          have := key_inj hn h3 hx (h4.trans h2.symm)
          subst this
          rw [if_pos h2]
        · rw [if_neg (fun h => hab (h.symm.trans h4)), if_pos h4]
      · by_cases hxb : x.key = b
        · have := key_inj hn hx h3 (hxb.trans h4.symm)
          subst this
          exact ⟨y, h1, if_pos h2⟩
        · exact ⟨x, hx, by rw [if_neg hxa, if_neg hxb]⟩
    · exact hx
  | retain p => exact List.mem_filter.2 ⟨hx, hk⟩
  | _ => exact hok.elim

/-- the items of the keys that no call removes or replaces are the same afterwards -/
theorem items_kept {ops : List Op} : ∀ {s : Sys} {l : List Item} {given : List NodeId}, Tracks s l given →
    CallsOk l ops → (ops.flatMap madeBy).Nodup → (∀ n ∈ ops.flatMap madeBy, Fresh s.dom n) →
    ∀ {x : Item}, x ∈ l → (∀ op ∈ ops, keepsKey x.key op = true) → x ∈ ops.foldl specStep l := by
  intro s l given h hok hnd hfr x hx hk
  -- the invariant is kept after every prefix, so that keys stay distinct
  induction ops generalizing s l with
  | nil => exact hx
  | cons op ops ih =>
    obtain ⟨s1, -, t1, f1⟩ := run_calls [op] h ⟨hok.1, trivial⟩
      (by
        simp only [List.flatMap_cons, List.flatMap_nil, List.append_nil] at hnd ⊢
        exact (List.nodup_append.1 hnd).1)
      (by
        intro n hn
        apply hfr
        simp only [List.flatMap_cons, List.flatMap_nil, List.append_nil, List.mem_append] at hn ⊢
        exact Or.inl hn)
    rw [List.flatMap_cons, List.nodup_append] at hnd
    refine ih t1 hok.2 hnd.2.1 ?_ (item_kept h.keys hok.1 hx (hk op (by simp))) (fun o ho => hk o (by simp [ho]))
    intro n hn
    refine f1 n (hfr n (by simp only [List.flatMap_cons, List.mem_append]; exact Or.inr hn)) ?_
    simp only [List.flatMap_cons, List.flatMap_nil, List.append_nil]
    intro hm
    exact hnd.2.2 n hm n hn rfl

/-! ## plain lists of keys -/

theorem kBefore_split {k b : Key} {A B : List Key} (h : b ∉ A) : kBefore k b (A ++ b :: B) = A ++ k :: b :: B := by
  induction A with
  | nil => simp [kBefore]
  | cons a A ih =>
    simp only [List.mem_cons, not_or] at h
    rw [List.cons_append, kBefore, if_neg (fun e => h.1 e.symm), ih h.2]
    rfl

theorem kBefore_perm {k b : Key} {l : List Key} (h : b ∈ l) : (kBefore k b l).Perm (k :: l) := by
  induction l with
  | nil => cases h
  | cons a l ih =>
    unfold kBefore
    split
    · exact List.Perm.refl _
    · rename_i hab
      rcases List.mem_cons.1 h with h | h
      · exact absurd h.symm hab
      · exact ((ih h).cons a).trans (List.Perm.swap ..)

theorem kPlace_perm {k : Key} {b : Option Key} {l : List Key} (h : ∀ x, b = some x → x ∈ l) :
    (kPlace k b l).Perm (k :: l) := by
  cases b with
  | none => exact List.perm_append_singleton k l
  | some b => exact kBefore_perm (h b rfl)

theorem filter_ne_of_notMem {k : Key} {l : List Key} (h : k ∉ l) : l.filter (· != k) = l := by
  rw [List.filter_eq_self]
  intro a ha
  simp only [bne_iff_ne, ne_eq]
  rintro rfl
  exact h ha

end Verif.Lists
