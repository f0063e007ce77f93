import Verif.Apps.BigListLemmas
/-! # The pool of the big list: the calls of the list -/
namespace Verif.Apps.BigList
open Verif.Lists

theorem place_spec {index f : Nat → Key} {new : Nat} {k : Key} (hk : f new = k) (b : Option Key) (l : List Nat)
    (hf : ∀ x ∈ l, f x = index x) (hb : ∀ b', b = some b' → b' ∈ l.map index) :
    ∃ R, place index new b l = some R ∧ R.Perm (new :: l) ∧ R.map f = kPlace k b (l.map index) := by
  cases b with
  | none =>
    refine ⟨l ++ [new], by cases l <;> rfl, List.perm_append_singleton _ _, ?_⟩
    rw [List.map_append, kPlace, List.map_congr_left hf]
    simp [hk]
  | some b =>
    replace hb := hb b rfl
    induction l with
    | nil => simp at hb
    | cons x l ih =>
      simp only [place, List.map_cons, kPlace, kBefore]
      by_cases hx : index x = b
      · rw [if_pos hx, if_pos hx]
        refine ⟨_, rfl, .refl _, ?_⟩
        rw [List.map_cons, List.map_cons, hk, hf x (by simp), List.map_congr_left fun y hy => hf y (by simp [hy])]
      · rw [if_neg hx, if_neg hx]
        have hb' : b ∈ l.map index := by
          rw [List.map_cons, List.mem_cons] at hb
          exact hb.resolve_left fun e => hx e.symm
        obtain ⟨R, h1, h2, h3⟩ := ih (fun y hy => hf y (by simp [hy])) hb'
        refine ⟨x :: R, by rw [h1]; rfl, (h2.cons x).trans (.swap _ _ _), ?_⟩
        rw [List.map_cons, h3, hf x (by simp)]
        rfl

theorem core_insert {s : Big} (h : Core s) (k : Key) (b : Option Key) (hb : ∀ b', b = some b' → b' ∈ s.keys)
    (x y : Dom.NodeId) :
    ∃ s', s.insert k b = some s' ∧ Core s' ∧ s'.keys = keyStep s.keys (.insert k b x y) ∧ Sub s s' ∧
      s.rows.length ≤ s'.rows.length ∧
      ∀ M, Bound s M → (∀ t ∈ s.rows, s.index t = k → s.div t = none) → s'.rows.length ≤ M → Bound s' M := by
  have hnext : ∀ t ∈ s.rows, t ≠ s.next := fun t ht => Nat.ne_of_lt (h.old t (.inl ht))
  have hsp : ∀ t ∈ s.rows, (s.spawn k).index t = s.index t := fun t ht => if_neg (hnext t ht)
  unfold Big.insert
  cases hfd : s.find k with
  | none =>
    have hk := find_none hfd
    obtain ⟨l, h1, h2, h3⟩ := place_spec (f := (s.spawn k).index) (new := s.next) (k := k) (if_pos rfl) b s.rows hsp hb
    obtain ⟨c1, c2, c3⟩ := core_spawn h hk h2
    refine ⟨_, by simp only [h1, Option.map_some], c1, ?_, c2, ?_, fun M hB _ hM => c3 M hB hM⟩
    · change l.map (s.spawn k).index = _
      have : b ≠ some k := fun e => hk (hb k e)
      rw [h3, keyStep, if_neg this, List.filter_eq_self.2]
      · rfl
      · intro a ha
        simpa using fun e : a = k => hk (e ▸ ha)
    · have := h2.length_eq
      simp only [List.length_cons] at this
      change s.rows.length ≤ l.length
      omega
  | some t =>
    obtain ⟨ht, rfl⟩ := find_some hfd
    obtain ⟨w1, w2, w3, w4⟩ := core_without h ht
    have hk : s.index t ∉ (s.without t).keys := by rw [w2]; simp
    have hrn : (s.without t).next = s.next := rfl
    have hrows : (s.without t).rows = s.rows.filter (· != t) := rfl
    have hlen := (perm_filter_ne h.rows_nodup ht).length_eq
    simp only [List.length_cons] at hlen
    have htn := hnext t ht
    -- whatever the place
    have main : ∀ l : List Nat, l.Perm (s.next :: s.rows.filter (· != t)) → l.map (s.spawn (s.index t)).index =
        keyStep s.keys (.insert (s.index t) b x y) →
        ∃ s', some { (s.spawn (s.index t)).cancel t with rows := l } = some s' ∧ Core s' ∧
          s'.keys = keyStep s.keys (.insert (s.index t) b x y) ∧ Sub s s' ∧ s.rows.length ≤ s'.rows.length ∧
          ∀ M, Bound s M → (∀ u ∈ s.rows, s.index u = s.index t → s.div u = none) → s'.rows.length ≤ M → Bound s' M := by
      intro l hl hkeys
      obtain ⟨c1, c2, c3⟩ := core_spawn w1 hk hl
      have hq : ((s.spawn (s.index t)).cancel t).queue.Perm ((s.without t).spawn (s.index t)).queue := by
        by_cases e : t ∈ s.queue
        · have e1 : ((s.spawn (s.index t)).cancel t).queue = s.queue ++ [s.next] := if_pos (List.mem_append_left _ e)
          have e2 : (s.without t).queue = s.queue := if_pos e
          have e3 : ((s.without t).spawn (s.index t)).queue = (s.without t).queue ++ [s.next] := rfl
          rw [e1, e3, e2]
        · have e1 : ((s.spawn (s.index t)).cancel t).queue = s.queue ++ [s.next] ++ [t] :=
            if_neg (show t ∉ s.queue ++ [s.next] by simp [e, htn])
          have e2 : (s.without t).queue = s.queue ++ [t] := if_neg e
          have e3 : ((s.without t).spawn (s.index t)).queue = (s.without t).queue ++ [s.next] := rfl
          rw [e1, e3, e2, List.append_assoc, List.append_assoc]
          exact List.Perm.append_left _ (.swap _ _ _)
      have he : ({ (s.spawn (s.index t)).cancel t with rows := l } : Big) =
          { ({ (s.without t).spawn (s.index t) with rows := l } : Big) with queue := ((s.spawn (s.index t)).cancel t).queue } := by
        simp only [Big.cancel, Big.spawn, Big.without]
        congr 1
        funext z
        by_cases e : z = t
        · subst e; simp [htn]
        · simp [e]
      refine ⟨_, rfl, ?_, hkeys, ?_, ?_, ?_⟩
      · rw [he]; exact c1.queue hq
      · rw [he]; exact w3.trans c2
      · have := hl.length_eq
        simp only [List.length_cons] at this
        change s.rows.length ≤ l.length
        omega
      · intro M hB hdn hM
        have e : t ∈ s.queue := (h.queued t ht).2 (hdn t ht rfl)
        have hqe : ((s.spawn (s.index t)).cancel t).queue = ({ (s.without t).spawn (s.index t) with rows := l } : Big).queue := by
          have e1 : ((s.spawn (s.index t)).cancel t).queue = s.queue ++ [s.next] := if_pos (List.mem_append_left _ e)
          have e2 : (s.without t).queue = s.queue := if_pos e
          have e3 : ({ (s.without t).spawn (s.index t) with rows := l } : Big).queue = (s.without t).queue ++ [s.next] := rfl
          rw [e1, e3, e2]
        rw [he, hqe]
        exact c3 M (w4 M hB) hM
    simp only
    by_cases hbk : b = some (s.index t)
    · rw [if_pos hbk]
      apply main
      · have p := (perm_filter_ne h.rows_nodup ht).map fun x => if x = t then s.next else x
        rw [List.map_cons, if_pos rfl] at p
        refine p.trans ?_
        rw [show (s.rows.filter (· != t)).map (fun x => if x = t then s.next else x) = s.rows.filter (· != t) from ?_]
        conv_rhs => rw [← List.map_id (s.rows.filter (· != t))]
        apply List.map_congr_left
        intro z hz
        rw [List.mem_filter] at hz
        exact if_neg (by simpa using hz.2)
      · rw [keyStep, if_pos hbk, List.map_map, Big.keys]
        apply List.map_congr_left
        intro z hz
        simp only [Function.comp_apply]
        by_cases e : z = t
        · subst e; rw [if_pos rfl]; exact if_pos rfl
        · rw [if_neg e]; exact hsp z hz
    · rw [if_neg hbk]
      obtain ⟨l, h1, h2, h3⟩ := place_spec (index := s.index) (f := (s.spawn (s.index t)).index) (new := s.next) (k := s.index t)
        (if_pos rfl) b (s.rows.filter (· != t)) (fun z hz => hsp z (List.mem_filter.1 hz).1) (by
          intro b' e
          rw [keys_filter h ht, List.mem_filter]
          refine ⟨hb b' e, ?_⟩
          simpa using fun e' : b' = s.index t => hbk (e' ▸ e))
      rw [h1]
      apply main l h2
      rw [h3, keyStep, if_neg hbk, keys_filter h ht]

theorem core_remove {s : Big} (h : Core s) (k : Key) : Core (s.remove k) ∧ (s.remove k).keys = keyStep s.keys (.remove k) ∧
    Sub s (s.remove k) ∧ ∀ M, Bound s M → Bound (s.remove k) M := by
  unfold Big.remove
  cases hfd : s.find k with
  | none =>
    have hk := find_none hfd
    refine ⟨h, ?_, fun t h1 h2 => ⟨h1, rfl, h2⟩, fun _ hB => hB⟩
    rw [keyStep, List.filter_eq_self.2]
    intro a ha
    simpa using fun e : a = k => hk (e ▸ ha)
  | some t =>
    obtain ⟨ht, rfl⟩ := find_some hfd
    exact core_without h ht

theorem calls_append (s : Big) (ops ops' : List Op) : s.calls (ops ++ ops') = (s.calls ops).bind fun s => s.calls ops' := by
  induction ops generalizing s with
  | nil => rfl
  | cons op ops ih =>
    simp only [List.cons_append, Big.calls, bind, Option.bind]
    cases s.call op with
    | none => rfl
    | some s' => exact ih s'

theorem calls_remove {s : Big} (h : Core s) (ks : List Key) : ∃ s', s.calls (ks.map .remove) = some s' ∧ Core s' ∧
    s'.keys = (ks.map Op.remove).foldl keyStep s.keys ∧ Sub s s' ∧ ∀ M, Bound s M → Bound s' M := by
  induction ks generalizing s with
  | nil => exact ⟨s, rfl, h, rfl, fun t h1 h2 => ⟨h1, rfl, h2⟩, fun _ hB => hB⟩
  | cons k ks ih =>
    obtain ⟨c1, c2, c3, c4⟩ := core_remove h k
    obtain ⟨s', h1, h2, h3, h4, h5⟩ := ih c1
    refine ⟨s', ?_, h2, ?_, c3.trans h4, fun M hB => h5 M (c4 M hB)⟩
    · simp only [List.map_cons, Big.calls, Big.call, bind, Option.bind]; exact h1
    · rw [h3, c2]; rfl

theorem calls_insert {mk : Nat → Dom.NodeId × Dom.NodeId} {b : Option Key} (N : List Key) : ∀ {s : Big} (i : Nat), Core s →
    KeysOk s.keys (insCalls mk b i N) → ∃ s', s.calls (insCalls mk b i N) = some s' ∧ Core s' ∧
      s'.keys = (insCalls mk b i N).foldl keyStep s.keys ∧ Sub s s' ∧ s.rows.length ≤ s'.rows.length ∧
      ∀ M, Bound s M → (∀ t ∈ s.rows, s.index t ∈ N → s.div t = none) → s'.rows.length ≤ M → Bound s' M := by
  induction N with
  | nil => intro s i h _; exact ⟨s, rfl, h, rfl, fun t h1 h2 => ⟨h1, rfl, h2⟩, Nat.le_refl _, fun _ hB _ _ => hB⟩
  | cons k N ih =>
    intro s i h hok
    obtain ⟨ok1, ok2⟩ := hok
    obtain ⟨s1, e1, c1, c2, c3, c4, c5⟩ := core_insert h k b ok1 (mk i).1 (mk i).2
    rw [← c2] at ok2
    obtain ⟨s', e2, d1, d2, d3, d4, d5⟩ := ih (i + 1) c1 ok2
    refine ⟨s', ?_, d1, ?_, c3.trans d3, by omega, fun M hB hN hM => d5 M (c5 M hB ?_ (by omega)) ?_ hM⟩
    · simp only [insCalls, Big.calls, Big.call, e1, bind, Option.bind]; exact e2
    · rw [d2, c2]; rfl
    · intro t ht hk
      exact hN t ht (by rw [hk]; simp)
    · intro t ht hk
      by_contra hne
      obtain ⟨g1, g2, g3⟩ := c3 t ht hne
      exact g3 (hN t g1 (by rw [← g2]; simp [hk]))

/-- the calls of `update_visible` -/
theorem calls_virtual {s : Big} (h : Core s) {a b p e : Nat} (hk : s.keys = upTo a b) (hr : ¬ (b ≤ a ∧ p < a ∧ a < e)) :
    ∃ s', s.calls (virtualCalls (fun _ => (0, 0)) a b p e) = some s' ∧ Core s' ∧ s'.keys = upTo p e ∧
      ∀ M, Bound s M → (upTo p e).length ≤ M → Bound s' M := by
  obtain ⟨k1, k2⟩ := virtualCalls_keys (mk := fun _ => (0, 0)) hr
  unfold virtualCalls at k1 k2 ⊢
  simp only at k1 k2 ⊢
  rw [keysOk_append, keysOk_append] at k2
  obtain ⟨⟨-, o2⟩, o3⟩ := k2
  rw [List.foldl_append] at o3
  rw [List.foldl_append, List.foldl_append] at k1
  rw [← hk] at k1 o2 o3
  obtain ⟨s1, e1, c1, c2, c3, c4⟩ := calls_remove h (virtualRemoved a b p e)
  rw [← c2] at k1 o2 o3
  obtain ⟨s2, e2, d1, d2, d3, d4, d5⟩ := calls_insert _ 0 c1 o2
  rw [← d2] at k1 o3
  obtain ⟨s3, e3, f1, f2, f3, f4, f5⟩ := calls_insert _ _ d1 o3
  rw [← f2] at k1
  have hl : s3.rows.length = (upTo p e).length := by rw [← k1, Big.keys, List.length_map]
  refine ⟨s3, ?_, f1, k1, fun M hB hM => f5 M (d5 M (c4 M hB) ?_ (by omega)) ?_ (by omega)⟩
  · rw [calls_append, calls_append, e1]
    simp only [Option.bind]
    rw [e2]
    exact e3
  · intro t ht hm
    by_contra hne
    obtain ⟨g1, g2, -⟩ := c3 t ht hne
    have : s.index t ∈ upTo a b := by rw [← hk]; exact List.mem_map_of_mem g1
    rw [g2] at hm
    rw [mem_upTo] at hm this
    omega
  · intro t ht hm
    by_contra hne
    obtain ⟨g1, g2, g3⟩ := d3 t ht hne
    obtain ⟨g4, g5, -⟩ := c3 t g1 g3
    have : s.index t ∈ upTo a b := by rw [← hk]; exact List.mem_map_of_mem g4
    rw [g2, g5] at hm
    rw [mem_upTo] at hm this
    omega

end Verif.Apps.BigList
