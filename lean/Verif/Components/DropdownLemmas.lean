import Verif.Components.DropdownSpec
import Verif.Lists.DiffedLemmas

/-! # The loop of `Dropdown::update_options` -/

namespace Verif.Dropdown
open Verif.Lists (diffLoop diffLoop_perm diffLoop_order keyStep kPlace kBefore KeysOk)

/-- What is visible of the options: identity and text. -/
def look (kids : List Elem) : List (Nat × Text) := kids.map fun e => (e.id, e.text)

theorem look_settle (kids : List Elem) : look (settle kids) = look kids := by
  unfold settle
  split
  · split
    · rfl
    · simp [look]
  · simp [look, Function.comp_def]

theorem look_select (kids : List Elem) (id : Nat) : look (select kids id) = look kids := by
  simp [look, select, Function.comp_def]

theorem look_clear (kids : List Elem) : look (clear kids) = look kids := by
  unfold clear
  split
  · exact look_select _ _
  · simp [look, Function.comp_def]

theorem look_ids (kids : List Elem) : kids.map (·.id) = (look kids).map Prod.fst := by
  simp [look, Function.comp_def]

theorem look_takeOut (kids : List Elem) (id : Nat) :
    look (takeOut kids id) = (look kids).filter (·.1 != id) := by
  unfold takeOut
  split
  · rw [look_settle]
    simp [look, List.filter_map, Function.comp_def]
  · rename_i h
    symm
    rw [List.filter_eq_self]
    intro p hp
    simp only [bne_iff_ne, ne_eq]
    rintro rfl
    rw [look_ids] at h
    exact h (List.mem_map_of_mem hp)

/-- Puts a pair before the one with the given identity. -/
def insertLook (e : Nat × Text) (r : Nat) : List (Nat × Text) → List (Nat × Text)
  | [] => []
  | x :: xs => if x.1 = r then e :: x :: xs else x :: insertLook e r xs

theorem look_insertIn (e : Elem) (r : Nat) (kids : List Elem) :
    look (insertIn e r kids) = insertLook (e.id, e.text) r (look kids) := by
  induction kids with
  | nil => rfl
  | cons x xs ih =>
    simp only [insertIn, look, List.map_cons, insertLook] at ih ⊢
    split
    · simp
    · simp [ih]

/-- The options are those of the keys `K`, in this order, with identities from `map` and the texts
`tx`. -/
structure Rel (kids : List Elem) (map : Key → Option Nat) (next : Nat) (K : List Key)
    (tx : Key → Text) : Prop where
  look : look kids = K.map fun k => ((map k).getD 0, tx k)
  dom : ∀ k, k ∈ K ↔ (map k).isSome = true
  inj : ∀ k k' i, map k = some i → map k' = some i → k = k'
  lt : ∀ k i, map k = some i → i < next
  nodup : K.Nodup

theorem getD_eq {map : Key → Option Nat} {k : Key} {i : Nat} (h : map k = some i) :
    (map k).getD 0 = i := by rw [h]; rfl

theorem Rel.get {kids map next K tx} (h : Rel kids map next K tx) {k : Key} (hk : k ∈ K) :
    ∃ i, map k = some i := Option.isSome_iff_exists.1 ((h.dom k).1 hk)

theorem Rel.ne {kids map next K tx} (h : Rel kids map next K tx) {k k' : Key} {i : Nat} (hk : k ∈ K)
    (hi : map k' = some i) : (map k).getD 0 = i ↔ k = k' := by
  obtain ⟨j, hj⟩ := h.get hk
  rw [getD_eq hj]
  constructor
  · rintro rfl; exact h.inj _ _ _ hj hi
  · rintro rfl; rw [hj] at hi; exact Option.some.inj hi

theorem filter_map_key {kids map next K tx} (h : Rel kids map next K tx) {k : Key} {i : Nat}
    (hi : map k = some i) :
    (K.map fun k => ((map k).getD 0, tx k)).filter (·.1 != i) =
      (K.filter (· != k)).map fun k => ((map k).getD 0, tx k) := by
  rw [List.filter_map]
  congr 1
  apply List.filter_congr
  intro x hx
  have := h.ne hx hi
  simp only [Function.comp]
  by_cases hxk : x = k
  · subst hxk; simp [hi]
  · have h1 : (map x).getD 0 ≠ i := fun e => hxk (this.1 e)
    rw [bne_iff_ne.2 h1, bne_iff_ne.2 hxk]

theorem insertLook_map {map : Key → Option Nat} {tx : Key → Text} {k p : Key} {j : Nat}
    (xs : List Key) (hp : ∀ x ∈ xs, (map x).getD 0 = j ↔ x = p) :
    insertLook ((map k).getD 0, tx k) j (xs.map fun k => ((map k).getD 0, tx k)) =
      (kBefore k p xs).map fun k => ((map k).getD 0, tx k) := by
  induction xs with
  | nil => rfl
  | cons x xs ih =>
    have hx := hp x (by simp)
    have ih := ih fun y hy => hp y (by simp [hy])
    simp only [List.map_cons, insertLook, kBefore]
    by_cases hxp : x = p
    · rw [if_pos (hx.2 hxp), if_pos hxp]; simp
    · rw [if_neg (fun e => hxp (hx.1 e)), if_neg hxp]
      simp [ih]

/-- Moving an option, or adding a new one, moves or adds its key. -/
theorem rel_place {kids map next K tx} (h : Rel kids map next K tx) {k : Key} {i : Nat}
    (hi : map k = some i) {ref : Option Key} (hr : ∀ p, ref = some p → p ∈ K ∧ p ≠ k) :
    ∃ kids' r, refFor map ref = some r ∧ place kids i r = some kids' ∧
      Rel kids' map next (kPlace k ref (K.filter (· != k))) tx := by
  have hk : k ∈ K := (h.dom k).2 (by simp [hi])
  -- the element that is moved
  have hids : kids.map (·.id) = K.map fun k => (map k).getD 0 := by
    rw [look_ids, h.look]; simp [Function.comp_def]
  have he : ∃ e, kids.find? (·.id == i) = some e ∧ e.id = i ∧ e.text = tx k := by
    cases hf : kids.find? (·.id == i) with
    | none =>
      rw [List.find?_eq_none] at hf
      have : i ∈ kids.map (·.id) := by
        rw [hids, List.mem_map]; exact ⟨k, hk, getD_eq hi⟩
      obtain ⟨e, he, hei⟩ := List.mem_map.1 this
      exact absurd (by simpa using hei) (hf e he)
    | some e =>
      have hm := List.mem_of_find?_eq_some hf
      have hei : e.id = i := by simpa using List.find?_some hf
      have : (e.id, e.text) ∈ look kids := List.mem_map.2 ⟨e, hm, rfl⟩
      rw [h.look, List.mem_map] at this
      obtain ⟨k', hk', hkk⟩ := this
      simp only [Prod.mk.injEq] at hkk
      have : k' = k := (h.ne hk' hi).1 (hkk.1.trans hei)
      subst this
      exact ⟨e, rfl, hei, hkk.2.symm⟩
  obtain ⟨e, hfe, hei, het⟩ := he
  have hek : (e.id, e.text) = ((map k).getD 0, tx k) := by rw [hei, het, getD_eq hi]
  have hperm : ∀ (x : Option Key), (∀ p, x = Option.some p → p ∈ K ∧ p ≠ k) →
      (kPlace k x (K.filter (· != k))).Perm K := by
    intro x hx
    refine (Verif.Lists.kPlace_perm ?_).trans (Verif.Lists.perm_filter_ne h.nodup hk)
    intro p hp
    obtain ⟨h1, h2⟩ := hx p hp
    exact List.mem_filter.2 ⟨h1, by simpa using h2⟩
  have fin : ∀ kids', look kids' = (kPlace k ref (K.filter (· != k))).map
      (fun k => ((map k).getD 0, tx k)) → Rel kids' map next (kPlace k ref (K.filter (· != k))) tx := by
    intro kids' hl
    have hp := hperm ref hr
    exact ⟨hl, fun x => by rw [hp.mem_iff]; exact h.dom x, h.inj, h.lt, hp.nodup_iff.2 h.nodup⟩
  cases ref with
  | none =>
    refine ⟨settle (takeOut kids i ++ [e]), none, rfl, by simp [place, hfe], fin _ ?_⟩
    rw [look_settle]
    have : look (takeOut kids i ++ [e]) = look (takeOut kids i) ++ [(e.id, e.text)] := by simp [look]
    rw [this, look_takeOut, h.look, filter_map_key h hi, hek]
    simp [kPlace]
  | some p =>
    obtain ⟨hp1, hp2⟩ := hr p rfl
    obtain ⟨j, hj⟩ := h.get hp1
    have hji : j ≠ i := by rintro rfl; exact hp2 (h.inj _ _ _ hj hi)
    have hjm : j ∈ kids.map (·.id) := by
      rw [hids, List.mem_map]; exact ⟨p, hp1, getD_eq hj⟩
    refine ⟨settle (insertIn e j (takeOut kids i)), some j, by simp [refFor, hj],
      by simp only [place, hfe, Option.getD_some, if_pos hjm, if_neg hji], fin _ ?_⟩
    rw [look_settle, look_insertIn, look_takeOut, h.look, filter_map_key h hi, hek]
    simp only [kPlace]
    apply insertLook_map
    intro x hx
    exact h.ne (List.mem_filter.1 hx).1 hj

theorem rel_setText {kids map next K tx} (h : Rel kids map next K tx) {k : Key} {i : Nat}
    (hi : map k = some i) (t : Text) :
    Rel (setText kids i t) map next K (fun j => if j = k then t else tx j) := by
  refine ⟨?_, h.dom, h.inj, h.lt, h.nodup⟩
  have : look (setText kids i t) = (look kids).map fun p => if p.1 = i then (p.1, t) else p := by
    simp only [look, setText, List.map_map]
    apply List.map_congr_left
    intro e _
    simp only [Function.comp]
    split <;> simp
  rw [this, h.look, List.map_map]
  apply List.map_congr_left
  intro x hx
  simp only [Function.comp]
  have := h.ne hx hi
  by_cases hxk : x = k
  · subst hxk; simp [hi]
  · rw [if_neg (fun e => hxk (this.1 e)), if_neg hxk]

/-- A new element for a new key, before it is put among the others: as if it were there already. -/
theorem rel_place_new {kids map next K tx} (h : Rel kids map next K tx) {k : Key} (hk : k ∉ K)
    {ref : Option Key} (hr : ∀ p, ref = some p → p ∈ K) :
    ∃ kids' r, refFor (fun j => if j = k then some next else map j) ref = some r ∧ place kids next r = some kids' ∧
      Rel kids' (fun j => if j = k then some next else map j) (next + 1) (kPlace k ref K)
        (fun j => if j = k then [] else tx j) := by
  have hmk : map k = none := by
    have := mt (h.dom k).2 hk
    simpa using this
  have hids : ∀ e ∈ kids, e.id < next := by
    intro e he
    have : (e.id, e.text) ∈ look kids := List.mem_map.2 ⟨e, he, rfl⟩
    rw [h.look, List.mem_map] at this
    obtain ⟨k', hk', hkk⟩ := this
    obtain ⟨j, hj⟩ := h.get hk'
    simp only [Prod.mk.injEq, getD_eq hj] at hkk
    rw [← hkk.1]; exact h.lt _ _ hj
  have hnotin : next ∉ kids.map (·.id) := by
    intro hm
    obtain ⟨e, he, hei⟩ := List.mem_map.1 hm
    have := hids e he
    omega
  have hfind : kids.find? (·.id == next) = none := by
    rw [List.find?_eq_none]
    intro e he
    have := hids e he
    simp; omega
  have htake : takeOut kids next = kids := by unfold takeOut; rw [if_neg hnotin]
  have hlook : look kids = K.map fun j => (((if j = k then some next else map j) : Option Nat).getD 0,
      if j = k then [] else tx j) := by
    rw [h.look]
    apply List.map_congr_left
    intro x hx
    have : x ≠ k := by rintro rfl; exact hk hx
    simp [this]
  have hper : (kPlace k ref K).Perm (k :: K) := Verif.Lists.kPlace_perm hr
  have fin : ∀ kids', look kids' = (kPlace k ref K).map
      (fun j => (((if j = k then some next else map j) : Option Nat).getD 0,
        if j = k then [] else tx j)) →
      Rel kids' (fun j => if j = k then some next else map j) (next + 1) (kPlace k ref K)
        (fun j => if j = k then [] else tx j) := by
    intro kids' hl
    refine ⟨hl, ?_, ?_, ?_, hper.nodup_iff.2 (List.nodup_cons.2 ⟨hk, h.nodup⟩)⟩
    · intro x
      rw [hper.mem_iff, List.mem_cons, h.dom]
      by_cases hx : x = k <;> simp [hx]
    · intro x y i hx hy
      have hlt := h.lt
      have hinj := h.inj x y i
      split at hx <;> split at hy
      · simp [*]
      · have := hlt y i hy; have := Option.some.inj hx; omega
      · have := hlt x i hx; have := Option.some.inj hy; omega
      · exact hinj hx hy
    · intro x i hx
      split at hx
      · have := Option.some.inj hx; omega
      · have := h.lt x i hx; omega
  cases ref with
  | none =>
    refine ⟨settle (kids ++ [⟨next, [], false⟩]), none, rfl, by simp [place, hfind, htake], fin _ ?_⟩
    rw [look_settle]
    have : look (kids ++ [⟨next, [], false⟩]) = look kids ++ [(next, [])] := by simp [look]
    rw [this, hlook]
    simp [kPlace]
  | some p =>
    have hp := hr p rfl
    obtain ⟨j, hj⟩ := h.get hp
    have hpk : p ≠ k := by rintro rfl; exact hk hp
    have hjn : j ≠ next := by have := h.lt _ _ hj; omega
    have hjm : j ∈ kids.map (·.id) := by
      rw [look_ids, h.look]
      simp only [List.map_map, List.mem_map, Function.comp]
      exact ⟨p, hp, getD_eq hj⟩
    refine ⟨settle (insertIn ⟨next, [], false⟩ j kids), some j, by simp [refFor, hj, hpk],
      by simp only [place, hfind, Option.getD_none, htake, if_pos hjm, if_neg hjn], fin _ ?_⟩
    rw [look_settle, look_insertIn, hlook]
    have := insertLook_map (map := fun j => if j = k then some next else map j)
      (tx := fun j => if j = k then [] else tx j) (k := k) (p := p) (j := j) K (by
        intro x hx
        have hxk : x ≠ k := by rintro rfl; exact hk hx
        simpa [hxk] using h.ne hx hj)
    simpa [kPlace] using this

/-- The loop does to the keys what the loop of `DiffedList::update` does, and sets the texts. -/
theorem putAll_rel (mk : Key → Nat × Nat) (opts : List (Key × Text)) :
    ∀ (D : State) (set it K A : List Key) (tx : Key → Text),
    Rel D.kids D.map D.next K tx → K.Perm (A ++ set) → (opts.map Prod.fst).Nodup →
    (∀ k ∈ opts.map Prod.fst, k ∉ A) → (∀ p ∈ it, p ∈ A ++ set) →
    ∃ D' tx', putAll D set it opts = some (D', (diffLoop mk set it (opts.map Prod.fst)).2) ∧
      Rel D'.kids D'.map D'.next
        ((diffLoop mk set it (opts.map Prod.fst)).1.foldl keyStep K) tx' ∧
      (∀ o ∈ opts, tx' o.1 = o.2) ∧ (∀ k, k ∉ opts.map Prod.fst → tx' k = tx k) ∧
      D'.selected = D.selected := by
  induction opts with
  | nil =>
    intro D set it K A tx h _ _ _ _
    exact ⟨D, tx, rfl, h, by simp, by simp, rfl⟩
  | cons o opts ih =>
    obtain ⟨k, t⟩ := o
    intro D set it K A tx h hp hn hA hit
    simp only [List.map_cons, List.nodup_cons] at hn
    have hkA : k ∉ A := hA k (by simp)
    have hnd : (A ++ set).Nodup := hp.nodup_iff.1 h.nodup
    have hAs := List.nodup_append.1 hnd
    have hkeys : ∀ x ∈ opts.map Prod.fst, x ∉ A ++ [k] := by
      intro x hx
      simp only [List.mem_append, List.mem_singleton, not_or]
      exact ⟨hA x (by simp [hx]), fun e => hn.1 (e ▸ hx)⟩
    -- the rest of the loop
    have finish : ∀ (D1 : State) (set1 it1 K1 : List Key) (tx1 : Key → Text) (ops : List Verif.Lists.Op),
        putOne D set it k t = some (D1, set1, it1) →
        diffLoop mk set it (k :: opts.map Prod.fst) =
          (ops ++ (diffLoop mk set1 it1 (opts.map Prod.fst)).1, (diffLoop mk set1 it1 (opts.map Prod.fst)).2) →
        ops.foldl keyStep K = K1 → Rel D1.kids D1.map D1.next K1 tx1 → K1.Perm ((A ++ [k]) ++ set1) →
        (∀ p ∈ it1, p ∈ (A ++ [k]) ++ set1) → tx1 k = t → (∀ j, j ≠ k → tx1 j = tx j) →
        D1.selected = D.selected →
        ∃ D' tx', putAll D set it ((k, t) :: opts) =
            some (D', (diffLoop mk set it (((k, t) :: opts).map Prod.fst)).2) ∧
          Rel D'.kids D'.map D'.next
            ((diffLoop mk set it (((k, t) :: opts).map Prod.fst)).1.foldl keyStep K) tx' ∧
          (∀ o ∈ (k, t) :: opts, tx' o.1 = o.2) ∧
          (∀ x, x ∉ ((k, t) :: opts).map Prod.fst → tx' x = tx x) ∧ D'.selected = D.selected := by
      intro D1 set1 it1 K1 tx1 ops e1 e2 e3 h1 hp1 hit1 ht1 ht2 hs1
      obtain ⟨D', tx', r1, r2, r3, r4, r5⟩ := ih D1 set1 it1 K1 (A ++ [k]) tx1 h1 hp1 hn.2 hkeys hit1
      refine ⟨D', tx', ?_, ?_, ?_, ?_, r5.trans hs1⟩
      · simp only [putAll, e1, bind, Option.bind, List.map_cons, e2, r1]
      · simp only [List.map_cons, e2, List.foldl_append, e3]; exact r2
      · intro o ho
        rcases List.mem_cons.1 ho with rfl | ho
        · rw [r4 k hn.1, ht1]
        · exact r3 o ho
      · intro x hx
        simp only [List.map_cons, List.mem_cons, not_or] at hx
        rw [r4 x hx.2, ht2 x hx.1]
    by_cases hks : k ∈ set
    · have hps : (k :: set.filter (· != k)).Perm set := Verif.Lists.perm_filter_ne hAs.2.1 hks
      have hp' : K.Perm ((A ++ [k]) ++ set.filter (· != k)) := by
        refine hp.trans ?_
        rw [List.append_assoc]
        exact (hps.symm.append_left A)
      have hmem : ∀ p, p ∈ A ++ set → p ∈ (A ++ [k]) ++ set.filter (· != k) := by
        intro p hpm
        exact (hp.symm.trans hp').mem_iff.1 hpm
      have hkK : k ∈ K := hp.mem_iff.2 (List.mem_append_right _ hks)
      obtain ⟨i, hi⟩ := h.get hkK
      by_cases hh : it.head? = some k
      · refine finish { D with kids := setText D.kids i t } (set.filter (· != k)) it.tail K
          (fun j => if j = k then t else tx j) [] ?_ ?_ rfl (rel_setText h hi t) hp' ?_ (by simp)
          (fun j hj => by simp [hj]) rfl
        · simp [putOne, hks, hh, hi]
        · simp only [diffLoop, if_pos hks, if_pos hh, List.nil_append]
        · exact fun p hpi => hmem p (hit p (List.mem_of_mem_tail hpi))
      · have hb : ∀ p, it.head? = some p → p ∈ K ∧ p ≠ k := by
          intro p hp2
          refine ⟨hp.mem_iff.2 (hit p (Verif.Lists.head_mem hp2)), ?_⟩
          rintro rfl
          exact hh hp2
        obtain ⟨kids', r, e1, e2, h1⟩ := rel_place h hi hb
        have hper : (kPlace k it.head? (K.filter (· != k))).Perm K := by
          refine (Verif.Lists.kPlace_perm ?_).trans (Verif.Lists.perm_filter_ne h.nodup hkK)
          intro x hx
          obtain ⟨q1, q2⟩ := hb x hx
          exact List.mem_filter.2 ⟨q1, by simpa using q2⟩
        refine finish { D with kids := setText kids' i t } (set.filter (· != k)) it
          (kPlace k it.head? (K.filter (· != k)))
          (fun j => if j = k then t else tx j) [.moveBefore k it.head?] ?_ ?_ ?_ (rel_setText h1 hi t)
          (hper.trans hp') ?_ (by simp) (fun j hj => by simp [hj]) rfl
        ·
          simp [putOne, hks, hh, hi, e1, e2]
        · simp only [diffLoop, if_pos hks, if_neg hh, List.cons_append, List.nil_append]
        · simp only [List.foldl_cons, List.foldl_nil, keyStep, if_pos hkK]
        · exact fun p hpi => hmem p (hit p hpi)
    · have hkK : k ∉ K := fun hm => by
        rcases List.mem_append.1 (hp.mem_iff.1 hm) with hm | hm
        · exact hkA hm
        · exact hks hm
      have hsk : set.filter (· != k) = set := Verif.Lists.filter_ne_of_notMem hks
      have hb : ∀ p, it.head? = some p → p ∈ K := fun p hp2 =>
        hp.mem_iff.2 (hit p (Verif.Lists.head_mem hp2))
      obtain ⟨kids', r, e1, e2, h1⟩ := rel_place_new h hkK hb
      have hne : it.head? ≠ some k := fun he => hkK (hb k he)
      have hper : (kPlace k it.head? K).Perm (k :: K) := Verif.Lists.kPlace_perm hb
      have hsel : (fun j => if j = k then some D.next else D.map j) k = some D.next := by simp
      refine finish
        { D with kids := setText kids' D.next t, map := fun j => if j = k then some D.next else D.map j
                 next := D.next + 1 } set it (kPlace k it.head? K)
        (fun j => if j = k then t else if j = k then [] else tx j)
        [.insert k it.head? (mk k).1 (mk k).2] ?_ ?_ ?_ (rel_setText h1 hsel t)
        (hper.trans ?_) ?_ (by simp) (fun j hj => by simp [hj]) rfl
      · simp only [putOne, hks, decide_false, Bool.false_and, Bool.false_eq_true, if_false, hsk, if_true,
          bind, Option.bind]
        simp only [e1, e2]
      · simp only [diffLoop, if_neg hks, List.cons_append, List.nil_append]
      · simp only [List.foldl_cons, List.foldl_nil, keyStep, if_neg hne,
          Verif.Lists.filter_ne_of_notMem hkK]
      · rw [List.append_assoc]
        exact (hp.cons k).trans List.perm_middle.symm
      · intro p hpi
        have := hit p hpi
        simp only [List.mem_append, List.mem_singleton] at this ⊢
        grind

theorem removeAll_rel (ks : List Key) : ∀ (D : State) (K : List Key) (tx : Key → Text),
    Rel D.kids D.map D.next K tx → ks.Nodup → (∀ k ∈ ks, k ∈ K) →
    ∃ D', removeAll D ks = some D' ∧
      Rel D'.kids D'.map D'.next (K.filter fun x => decide (x ∉ ks)) tx ∧ D'.selected = D.selected := by
  induction ks with
  | nil =>
    intro D K tx h _ _
    refine ⟨D, rfl, ?_, rfl⟩
    have : K.filter (fun x => decide (x ∉ ([] : List Key))) = K := by rw [List.filter_eq_self]; simp
    rw [this]; exact h
  | cons k ks ih =>
    intro D K tx h hn hm
    rw [List.nodup_cons] at hn
    have hk := hm k (by simp)
    obtain ⟨i, hi⟩ := h.get hk
    have himem : i ∈ D.kids.map (·.id) := by
      rw [look_ids, h.look]
      simp only [List.map_map, List.mem_map, Function.comp]
      exact ⟨k, hk, getD_eq hi⟩
    have h1 : Rel (takeOut D.kids i) (fun j => if j = k then none else D.map j) D.next
        (K.filter (· != k)) tx := by
      refine ⟨?_, ?_, ?_, ?_, h.nodup.filter _⟩
      · rw [look_takeOut, h.look, filter_map_key h hi]
        apply List.map_congr_left
        intro x hx
        have : x ≠ k := by simpa using (List.mem_filter.1 hx).2
        simp [this]
      · intro x
        rw [List.mem_filter, h.dom]
        by_cases hx : x = k <;> simp [hx]
      · intro x y j hx hy
        split at hx
        · cases hx
        · split at hy
          · cases hy
          · exact h.inj x y j hx hy
      · intro x j hx
        split at hx
        · cases hx
        · exact h.lt x j hx
    obtain ⟨D', r1, r2, r3⟩ := ih
      { D with kids := takeOut D.kids i, map := fun j => if j = k then none else D.map j }
      (K.filter (· != k)) tx h1 hn.2 (by
        intro x hx
        refine List.mem_filter.2 ⟨hm x (by simp [hx]), ?_⟩
        simp only [bne_iff_ne, ne_eq]
        rintro rfl
        exact hn.1 hx)
    refine ⟨D', ?_, ?_, r3⟩
    · simp only [removeAll, hi, bind, Option.bind, removeChild, if_pos himem]
      exact r1
    · have : K.filter (fun x => decide (x ∉ k :: ks)) =
          (K.filter (· != k)).filter (fun x => decide (x ∉ ks)) := by
        rw [List.filter_filter]
        apply List.filter_congr
        intro x _
        simp only [List.mem_cons, not_or]
        by_cases h1 : x = k <;> by_cases h2 : x ∈ ks <;> simp [h1, h2]
      rw [this]; exact r2

end Verif.Dropdown
