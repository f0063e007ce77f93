import Verif.Apps.BigList
import Mathlib.Data.List.Perm.Basic
import Mathlib.Data.List.Nodup
import Mathlib.Algebra.BigOperators.Group.List.Basic
/-! # The pool of the big list: what stays true -/
namespace Verif.Apps.BigList
open Verif.Lists

/-- What the executor will do to the number of elements in use when it runs a task. -/
def Big.delta (s : Big) (t : Nat) : Int := if s.live t then 1 else if (s.div t).isSome then -1 else 0

def Big.keys (s : Big) : List Key := s.rows.map s.index

structure Core (s : Big) : Prop where
  keys : s.keys.Nodup
  live : ∀ t ∈ s.rows, s.live t = true
  queued : ∀ t ∈ s.rows, (t ∈ s.queue ↔ s.div t = none)
  dead : ∀ t ∈ s.queue, s.live t = true → t ∈ s.rows
  nodup : s.queue.Nodup
  old : ∀ t, t ∈ s.rows ∨ t ∈ s.queue → t < s.next
  divs : (s.free ++ s.held).Perm (List.range s.made)
  text : ∀ t ∈ s.rows, ∀ d, s.div t = some d → s.text d = toString (s.index t)
  count : (s.made : Int) - s.free.length + (s.queue.map s.delta).sum = s.rows.length

/-- The number of elements is at most `M`, now and while the executor works through its queue. -/
def Bound (s : Big) (M : Nat) : Prop :=
  s.made ≤ M ∧ ∀ n, (s.made : Int) - s.free.length + ((s.queue.take n).map s.delta).sum ≤ M

/-- Rows that have been polled were there before. -/
def Sub (s s' : Big) : Prop := ∀ t ∈ s'.rows, s'.div t ≠ none → t ∈ s.rows ∧ s'.index t = s.index t ∧ s.div t ≠ none

theorem Sub.trans {a b c : Big} (h : Sub a b) (g : Sub b c) : Sub a c := fun t h1 h2 => by
  obtain ⟨h3, h4, h5⟩ := g t h1 h2
  obtain ⟨h6, h7, h8⟩ := h t h3 h5
  exact ⟨h6, h4.trans h7, h8⟩

theorem Core.rows_nodup {s : Big} (h : Core s) : s.rows.Nodup := List.Nodup.of_map _ h.keys

theorem core_init : Core .init := by
  constructor <;> simp [Big.init, Big.keys, Big.held]

theorem bound_init (M : Nat) : Bound .init M := by
  constructor <;> simp [Big.init]

/-- the order of the queue does not matter -/
theorem Core.queue {s : Big} (h : Core s) {q : List Nat} (hq : q.Perm s.queue) : Core { s with queue := q } where
  keys := h.keys
  live := h.live
  queued t ht := (hq.mem_iff).trans (h.queued t ht)
  dead t ht := h.dead t (hq.mem_iff.1 ht)
  nodup := hq.nodup_iff.2 h.nodup
  old t ht := h.old t (ht.imp id hq.mem_iff.1)
  divs := (((hq.append_left s.rows).filterMap s.div).append_left s.free).trans h.divs
  text := h.text
  count := by
    have := (hq.map s.delta).sum_eq
    have e : ∀ t, Big.delta { s with queue := q } t = s.delta t := fun _ => rfl
    simp only [funext e, this]
    exact h.count

theorem perm_filter_ne {l : List Nat} (hn : l.Nodup) {t : Nat} (ht : t ∈ l) : l.Perm (t :: l.filter (· != t)) := by
  rw [← hn.erase_eq_filter]
  exact List.perm_cons_erase ht

theorem find_some {s : Big} {k : Key} {t : Nat} (h : s.find k = some t) : t ∈ s.rows ∧ s.index t = k := by
  unfold Big.find at h
  exact ⟨List.mem_of_find?_eq_some h, by simpa using List.find?_some h⟩

theorem find_none {s : Big} {k : Key} (h : s.find k = none) : k ∉ s.keys := by
  unfold Big.find at h
  simp only [List.find?_eq_none, beq_iff_eq] at h
  simp only [Big.keys, List.mem_map, not_exists, not_and]
  exact h

theorem index_inj {s : Big} (h : Core s) {x t : Nat} (hx : x ∈ s.rows) (ht : t ∈ s.rows) (e : s.index x = s.index t) : x = t :=
  List.inj_on_of_nodup_map h.keys hx ht e

theorem keys_filter {s : Big} (h : Core s) {t : Nat} (ht : t ∈ s.rows) :
    (s.rows.filter (· != t)).map s.index = s.keys.filter (· != s.index t) := by
  rw [Big.keys, List.filter_map]
  congr 1
  apply List.filter_congr
  intro x hx
  by_cases e : x = t
  · simp [e]
  · have : s.index x ≠ s.index t := fun e' => e (index_inj h hx ht e')
    have h1 : (x != t) = true := by simpa using e
    have h2 : (s.index x != s.index t) = true := by simpa using this
    exact h1.trans h2.symm

/-- the state after a removal -/
def Big.without (s : Big) (t : Nat) : Big := { s.cancel t with rows := s.rows.filter (· != t) }

theorem sum_take_le {l : List Nat} {f g : Nat → Int} (h : ∀ x ∈ l, f x ≤ g x) (n : Nat) :
    ((l.take n).map f).sum ≤ ((l.take n).map g).sum := by
  induction l generalizing n with
  | nil => simp
  | cons a l ih =>
    cases n with
    | zero => simp
    | succ n =>
      simp only [List.take_succ_cons, List.map_cons, List.sum_cons]
      have h1 := h a (by simp)
      have h2 := ih (fun x hx => h x (by simp [hx])) n
      omega

theorem core_without {s : Big} (h : Core s) {t : Nat} (ht : t ∈ s.rows) :
    Core (s.without t) ∧ (s.without t).keys = s.keys.filter (· != s.index t) ∧ Sub s (s.without t) ∧
      ∀ M, Bound s M → Bound (s.without t) M := by
  have hperm := perm_filter_ne h.rows_nodup ht
  have hlen := hperm.length_eq
  have hlt := h.live t ht
  simp only [List.length_cons] at hlen
  have hk : (s.without t).keys = s.keys.filter (· != s.index t) := keys_filter h ht
  have hmem : ∀ x, x ∈ s.rows.filter (· != t) ↔ x ∈ s.rows ∧ x ≠ t := by simp
  -- the sum over the queue
  have hd : ∀ x, x ≠ t → (s.without t).delta x = s.delta x := by
    intro x hx
    simp [Big.delta, Big.without, Big.cancel, hx]
  have hsum : ((s.without t).queue.map (s.without t).delta).sum = (s.queue.map s.delta).sum - 1 := by
    by_cases hq : t ∈ s.queue
    · have hdn := (h.queued t ht).1 hq
      have e : (s.without t).queue = s.queue := if_pos hq
      rw [e]
      have p := perm_filter_ne h.nodup hq
      rw [(p.map _).sum_eq, (p.map s.delta).sum_eq]
      simp only [List.map_cons, List.sum_cons]
      have e2 : (s.queue.filter (· != t)).map (s.without t).delta = (s.queue.filter (· != t)).map s.delta := by
        apply List.map_congr_left
        intro x hx
        exact hd x (by simpa using (List.mem_filter.1 hx).2)
      rw [e2]
      simp [Big.delta, Big.without, Big.cancel, hdn, hlt]
    · have hdn : s.div t ≠ none := fun e => hq ((h.queued t ht).2 e)
      have e : (s.without t).queue = s.queue ++ [t] := if_neg hq
      rw [e, List.map_append, List.sum_append]
      have e2 : s.queue.map (s.without t).delta = s.queue.map s.delta := by
        apply List.map_congr_left
        intro x hx
        exact hd x fun e => hq (e ▸ hx)
      rw [e2]
      have : ((s.div t).isSome) = true := Option.isSome_iff_ne_none.2 hdn
      simp [Big.delta, Big.without, Big.cancel, this]
      omega
  have hcount : ((s.without t).made : Int) - (s.without t).free.length + ((s.without t).queue.map (s.without t).delta).sum =
      (s.without t).rows.length := by
    rw [hsum]
    have := h.count
    change (s.made : Int) - s.free.length + ((s.queue.map s.delta).sum - 1) = (s.rows.filter (· != t)).length
    omega
  refine ⟨⟨?_, ?_, ?_, ?_, ?_, ?_, ?_, ?_, hcount⟩, hk, ?_, ?_⟩
  · rw [hk]; exact h.keys.filter _
  · intro x hx
    obtain ⟨h1, h2⟩ := (hmem x).1 hx
    simp [Big.without, Big.cancel, h2, h.live x h1]
  · intro x hx
    obtain ⟨h1, h2⟩ := (hmem x).1 hx
    have : x ∈ (s.without t).queue ↔ x ∈ s.queue := by
      simp only [Big.without, Big.cancel]
      split <;> simp [h2]
    exact this.trans (h.queued x h1)
  · intro x hx hl
    have hxt : x ≠ t := by
      rintro rfl
      simp [Big.without, Big.cancel] at hl
    have hq : x ∈ s.queue := by
      simp only [Big.without, Big.cancel] at hx
      split at hx
      · exact hx
      · simpa [hxt] using hx
    have hl' : s.live x = true := by simpa [Big.without, Big.cancel, hxt] using hl
    exact (hmem x).2 ⟨h.dead x hq hl', hxt⟩
  · simp only [Big.without, Big.cancel]
    split
    · exact h.nodup
    · rename_i hq
      exact List.nodup_append.2 ⟨h.nodup, by simp, by
        intro a ha b hb e
        rw [List.mem_singleton] at hb
        exact hq (hb ▸ e ▸ ha)⟩
  · intro x hx
    rcases hx with hx | hx
    · exact h.old x (.inl ((hmem x).1 hx).1)
    · simp only [Big.without, Big.cancel] at hx
      split at hx
      · exact h.old x (.inr hx)
      · rcases List.mem_append.1 hx with hx | hx
        · exact h.old x (.inr hx)
        · rw [List.mem_singleton.1 hx]; exact h.old t (.inl ht)
  · refine (List.Perm.append_left s.free ?_).trans h.divs
    change ((s.rows.filter (· != t) ++ (s.without t).queue).filterMap s.div).Perm ((s.rows ++ s.queue).filterMap s.div)
    refine List.Perm.trans ?_ ((hperm.append_right s.queue).filterMap s.div).symm
    by_cases hq : t ∈ s.queue
    · have e : (s.without t).queue = s.queue := if_pos hq
      rw [e, List.cons_append, List.filterMap_cons, (h.queued t ht).1 hq]
    · have e : (s.without t).queue = s.queue ++ [t] := if_neg hq
      rw [e, ← List.append_assoc]
      exact (List.perm_append_singleton _ _).filterMap _
  · intro x hx d hdx
    exact h.text x ((hmem x).1 hx).1 d hdx
  · intro x hx hdx
    exact ⟨((hmem x).1 hx).1, rfl, hdx⟩
  · intro M ⟨hb, hp⟩
    refine ⟨hb, fun n => ?_⟩
    change (s.made : Int) - s.free.length + _ ≤ M
    have hle : ∀ m, ((s.queue.take m).map (s.without t).delta).sum ≤ ((s.queue.take m).map s.delta).sum := by
      intro m
      apply sum_take_le
      intro x _
      by_cases hx : x = t
      · subst hx
        simp [Big.delta, Big.without, Big.cancel, hlt]
        split <;> omega
      · exact Int.le_of_eq (hd x hx)
    by_cases hq : t ∈ s.queue
    · have e : (s.without t).queue = s.queue := if_pos hq
      rw [e]
      have := hle n
      have := hp n
      omega
    · have e : (s.without t).queue = s.queue ++ [t] := if_neg hq
      rw [e, List.take_append, List.map_append, List.sum_append]
      have h1 := hle n
      have h2 := hp n
      have h3 : (([t].take (n - s.queue.length)).map (s.without t).delta).sum ≤ 0 := by
        rcases n - s.queue.length with _ | m
        · simp
        · simp [Big.delta, Big.without, Big.cancel]
          split <;> omega
      omega

/-- a new task -/
theorem core_spawn {s : Big} (h : Core s) {k : Key} (hk : k ∉ s.keys) {l : List Nat} (hl : l.Perm (s.next :: s.rows)) :
    Core { s.spawn k with rows := l } ∧ Sub s { s.spawn k with rows := l } ∧
      ∀ M, Bound s M → l.length ≤ M → Bound { s.spawn k with rows := l } M := by
  have hlen := hl.length_eq
  simp only [List.length_cons] at hlen
  have hmem : ∀ x, x ∈ l ↔ x = s.next ∨ x ∈ s.rows := fun x => by rw [hl.mem_iff]; simp
  have hne : ∀ x, x ∈ s.rows ∨ x ∈ s.queue → x ≠ s.next := fun x hx => Nat.ne_of_lt (h.old x hx)
  have hidx : ∀ x, x ∈ s.rows → (s.spawn k).index x = s.index x := fun x hx => if_neg (hne x (.inl hx))
  have hdq : s.queue.map (Big.delta { s.spawn k with rows := l }) = s.queue.map s.delta := by
    apply List.map_congr_left
    intro x hx
    simp [Big.delta, Big.spawn, hne x (.inr hx)]
  have hdn : Big.delta { s.spawn k with rows := l } s.next = 1 := by simp [Big.delta, Big.spawn]
  have hcount : (s.made : Int) - s.free.length + ((s.queue ++ [s.next]).map (Big.delta { s.spawn k with rows := l })).sum =
      l.length := by
    rw [List.map_append, List.sum_append, hdq]
    have := h.count
    simp only [List.map_cons, List.map_nil, List.sum_cons, List.sum_nil, hdn]
    omega
  refine ⟨⟨?_, ?_, ?_, ?_, ?_, ?_, ?_, ?_, hcount⟩, ?_, ?_⟩
  · change (l.map (s.spawn k).index).Nodup
    rw [(hl.map _).nodup_iff, List.map_cons, List.nodup_cons]
    have e : s.rows.map (s.spawn k).index = s.keys := List.map_congr_left hidx
    rw [e]
    exact ⟨by simpa [Big.spawn] using hk, h.keys⟩
  · intro x hx
    rcases (hmem x).1 hx with rfl | hx
    · simp [Big.spawn]
    · simp [Big.spawn, hne x (.inl hx), h.live x hx]
  · intro x hx
    rcases (hmem x).1 hx with rfl | hx
    · simp [Big.spawn]
    · simpa [Big.spawn, hne x (.inl hx)] using h.queued x hx
  · intro x hx hlx
    rcases List.mem_append.1 hx with hx | hx
    · refine (hmem x).2 (.inr (h.dead x hx ?_))
      simpa [Big.spawn, hne x (.inr hx)] using hlx
    · exact (hmem x).2 (.inl (List.mem_singleton.1 hx))
  · exact List.nodup_append.2 ⟨h.nodup, by simp, by simpa using fun a ha => hne a (.inr ha)⟩
  · intro x hx
    change x < s.next + 1
    rcases hx with hx | hx
    · rcases (hmem x).1 hx with rfl | hx
      · omega
      · have := h.old x (.inl hx); omega
    · rcases List.mem_append.1 hx with hx | hx
      · have := h.old x (.inr hx); omega
      · rw [List.mem_singleton.1 hx]; omega
  · refine (List.Perm.append_left s.free ?_).trans h.divs
    change ((l ++ (s.queue ++ [s.next])).filterMap (s.spawn k).div).Perm ((s.rows ++ s.queue).filterMap s.div)
    have e : ∀ q : List Nat, (∀ x ∈ q, x ∈ s.rows ∨ x ∈ s.queue) → q.filterMap (s.spawn k).div = q.filterMap s.div := by
      intro q hq
      apply List.filterMap_congr
      intro x hx
      exact if_neg (hne x (hq x hx))
    have hn : (s.spawn k).div s.next = none := if_pos rfl
    refine ((hl.append_right _).filterMap _).trans ?_
    rw [List.cons_append, List.filterMap_cons, hn, ← List.append_assoc, List.filterMap_append, List.filterMap_cons, hn,
      e (s.rows ++ s.queue) (by simp)]
    simp
  · intro x hx d hdx
    rcases (hmem x).1 hx with rfl | hx
    · simp [Big.spawn] at hdx
    · have hdx' : s.div x = some d := by simpa [Big.spawn, hne x (.inl hx)] using hdx
      change s.text d = toString ((s.spawn k).index x)
      rw [hidx x hx]
      exact h.text x hx d hdx'
  · intro x hx hdx
    rcases (hmem x).1 hx with rfl | hx
    · simp [Big.spawn] at hdx
    · exact ⟨hx, hidx x hx, by simpa [Big.spawn, hne x (.inl hx)] using hdx⟩
  · intro M ⟨hb, hp⟩ hM
    refine ⟨hb, fun n => ?_⟩
    change (s.made : Int) - s.free.length + (((s.queue ++ [s.next]).take n).map _).sum ≤ M
    by_cases hn : n ≤ s.queue.length
    · rw [List.take_append_of_le_length hn, List.map_take, hdq, ← List.map_take]
      exact hp n
    · rw [List.take_of_length_le (by simp; omega), hcount]
      omega

/-- the executor runs a task -/
theorem core_exec {s : Big} (h : Core s) (i : Nat) : Core (s.exec i) ∧ (s.exec i).keys = s.keys ∧
    (s.exec i).rows = s.rows ∧ (i = 0 → ∀ M, Bound s M → Bound (s.exec i) M) := by
  unfold Big.exec
  cases hi : s.queue[i]? with
  | none => exact ⟨h, rfl, rfl, fun _ _ hb => hb⟩
  | some t =>
    have htq : t ∈ s.queue := List.mem_of_getElem? hi
    have hil : i < s.queue.length := (List.getElem?_eq_some_iff.1 hi).1
    have hit : s.queue[i] = t := (List.getElem?_eq_some_iff.1 hi).2
    have hperm : s.queue.Perm (t :: s.queue.eraseIdx i) := by
      have := (List.getElem_cons_eraseIdx_perm hil).symm
      rwa [hit] at this
    have hnd := hperm.nodup_iff.1 h.nodup
    rw [List.nodup_cons] at hnd
    have hmem : ∀ x, x ∈ s.queue ↔ x = t ∨ x ∈ s.queue.eraseIdx i := fun x => by rw [hperm.mem_iff]; simp
    have hsum := (hperm.map s.delta).sum_eq
    rw [List.map_cons, List.sum_cons] at hsum
    have htake : i = 0 → ∀ n, ((s.queue.take (n + 1)).map s.delta).sum = s.delta t + (((s.queue.eraseIdx i).take n).map s.delta).sum := by
      rintro rfl n
      cases hq : s.queue with
      | nil => rw [hq] at htq; cases htq
      | cons a q =>
        simp only [hq, List.getElem_cons_zero] at hit
        subst hit
        simp
    have hcount := h.count
    simp only
    by_cases hl : s.live t = true
    · have htr := h.dead t htq hl
      have hdn := (h.queued t htr).1 htq
      have hdt : s.delta t = 1 := by simp [Big.delta, hl]
      rw [if_pos hl, hdn]
      simp only
      -- whichever element it gets
      have main : ∀ (d : Nat) (free : List Nat) (made : Nat), (∀ x ∈ s.held, x ≠ d) → (free ++ d :: s.held).Perm (List.range made) →
          (made : Int) - free.length = s.made - s.free.length + 1 →
          Core { s with
              queue := s.queue.eraseIdx i, free := free, made := made, div := fun x => if x = t then some d else s.div x
              text := fun x => if x = d then toString (s.index t) else s.text x } ∧
            (i = 0 → ∀ M, Bound s M → made ≤ M → Bound { s with
              queue := s.queue.eraseIdx i, free := free, made := made, div := fun x => if x = t then some d else s.div x
              text := fun x => if x = d then toString (s.index t) else s.text x } M) := by
        intro d free made hd hp hm
        have hdq : (s.queue.eraseIdx i).map (Big.delta { s with
              queue := s.queue.eraseIdx i, free := free, made := made, div := fun x => if x = t then some d else s.div x
              text := fun x => if x = d then toString (s.index t) else s.text x }) = (s.queue.eraseIdx i).map s.delta := by
          apply List.map_congr_left
          intro x hx
          have : x ≠ t := fun e => hnd.1 (e ▸ hx)
          simp [Big.delta, this]
        refine ⟨⟨h.keys, h.live, ?_, ?_, hnd.2, ?_, ?_, ?_, ?_⟩, ?_⟩
        · intro x hx
          by_cases e : x = t
          · subst e
            simpa using hnd.1
          · have := h.queued x hx
            rw [hmem x] at this
            simpa [e] using this
        · intro x hx
          exact h.dead x ((hmem x).2 (.inr hx))
        · intro x hx
          exact h.old x (hx.imp id fun hx => (hmem x).2 (.inr hx))
        · refine (List.Perm.append_left free ?_).trans hp
          have e : ∀ l : List Nat, t ∉ l → l.filterMap (fun x => if x = t then some d else s.div x) = l.filterMap s.div := by
            intro l hl
            apply List.filterMap_congr
            intro x hx
            refine if_neg fun e => ?_
            subst e
            exact hl hx
          have pr := perm_filter_ne h.rows_nodup htr
          have p1 : (s.rows ++ s.queue.eraseIdx i).Perm (t :: (s.rows.filter (· != t) ++ s.queue.eraseIdx i)) := pr.append_right _
          have p2 : (s.rows ++ s.queue).Perm (t :: t :: (s.rows.filter (· != t) ++ s.queue.eraseIdx i)) :=
            (pr.append hperm).trans (by
              rw [List.cons_append]
              exact List.Perm.cons t List.perm_middle)
          refine (p1.filterMap _).trans ?_
          refine List.Perm.trans ?_ (List.Perm.cons d (p2.filterMap s.div)).symm
          simp only [List.filterMap_cons, if_true, hdn]
          rw [e _ (by simp [hnd.1])]
        · intro x hx d' hdx
          by_cases e : x = t
          · subst e
            simp only [if_true, Option.some.injEq] at hdx
            simp [← hdx]
          · simp only [if_neg e] at hdx
            have : d' ∈ s.held := by
              simp only [Big.held, List.mem_filterMap]
              exact ⟨x, List.mem_append_left _ hx, hdx⟩
            simp only [if_neg (hd d' this)]
            exact h.text x hx d' hdx
        · change (made : Int) - free.length + ((s.queue.eraseIdx i).map _).sum = s.rows.length
          rw [hdq]
          omega
        · intro h0 M ⟨hb, hpre⟩ hM
          refine ⟨hM, fun n => ?_⟩
          change (made : Int) - free.length + (((s.queue.eraseIdx i).take n).map _).sum ≤ M
          rw [List.map_take, hdq, ← List.map_take]
          have h1 := hpre (n + 1)
          rw [htake h0 n] at h1
          omega
      cases hf : s.free with
      | cons d free =>
        have hdv := h.divs
        rw [hf] at hdv
        have hnd2 := hdv.nodup_iff.2 List.nodup_range
        rw [List.cons_append, List.nodup_cons] at hnd2
        obtain ⟨m1, m2⟩ := main d free s.made (fun x hx e => by subst e; exact hnd2.1 (List.mem_append_right _ hx))
          (List.perm_middle.trans hdv) (by rw [hf]; simp only [List.length_cons]; omega)
        exact ⟨m1, rfl, rfl, fun h0 M hb => m2 h0 M hb hb.1⟩
      | nil =>
        have hdv := h.divs
        rw [hf, List.nil_append] at hdv
        obtain ⟨m1, m2⟩ := main s.made [] (s.made + 1) (fun x hx e => by
            have := hdv.mem_iff.1 hx
            rw [List.mem_range] at this
            omega)
          (by
            rw [List.nil_append, List.range_succ]
            exact (List.Perm.cons _ hdv).trans (List.perm_append_singleton _ _).symm)
          (by rw [hf]; simp)
        refine ⟨m1, rfl, rfl, fun h0 M hb => m2 h0 M hb ?_⟩
        have h1 := hb.2 1
        rw [htake h0 0, hdt, hf] at h1
        simp at h1
        omega
    · have hl' : s.live t = false := by simpa using hl
      have htr : t ∉ s.rows := fun e => hl (h.live t e)
      rw [if_neg hl]
      have pq : (s.rows ++ s.queue).Perm (t :: (s.rows ++ s.queue.eraseIdx i)) :=
        (hperm.append_left s.rows).trans List.perm_middle
      cases hd : s.div t with
      | none =>
        have hdt : s.delta t = 0 := by simp [Big.delta, hl', hd]
        simp only
        refine ⟨⟨h.keys, h.live, ?_, ?_, hnd.2, ?_, ?_, h.text, ?_⟩, rfl, trivial, ?_⟩
        · intro x hx
          have e : x ≠ t := fun e => htr (e ▸ hx)
          have := h.queued x hx
          rw [hmem x] at this
          simpa [e] using this
        · intro x hx
          exact h.dead x ((hmem x).2 (.inr hx))
        · intro x hx
          exact h.old x (hx.imp id fun hx => (hmem x).2 (.inr hx))
        · refine (List.Perm.append_left s.free ?_).trans h.divs
          have := (pq.filterMap s.div).symm
          rwa [List.filterMap_cons, hd] at this
        · change (s.made : Int) - s.free.length + ((s.queue.eraseIdx i).map s.delta).sum = s.rows.length
          omega
        · intro h0 M ⟨hb, hpre⟩
          refine ⟨hb, fun n => ?_⟩
          change (s.made : Int) - s.free.length + (((s.queue.eraseIdx i).take n).map s.delta).sum ≤ M
          have h1 := hpre (n + 1)
          rw [htake h0 n, hdt] at h1
          omega
      | some d =>
        have hdt : s.delta t = -1 := by simp [Big.delta, hl', hd]
        simp only
        have hdq : (s.queue.eraseIdx i).map (Big.delta { s with
            queue := s.queue.eraseIdx i, free := d :: s.free, div := fun x => if x = t then none else s.div x }) =
            (s.queue.eraseIdx i).map s.delta := by
          apply List.map_congr_left
          intro x hx
          have : x ≠ t := fun e => hnd.1 (e ▸ hx)
          simp [Big.delta, this]
        refine ⟨⟨h.keys, h.live, ?_, ?_, hnd.2, ?_, ?_, ?_, ?_⟩, rfl, trivial, ?_⟩
        · intro x hx
          have e : x ≠ t := fun e => htr (e ▸ hx)
          have := h.queued x hx
          rw [hmem x] at this
          simpa [e] using this
        · intro x hx
          exact h.dead x ((hmem x).2 (.inr hx))
        · intro x hx
          exact h.old x (hx.imp id fun hx => (hmem x).2 (.inr hx))
        · refine List.Perm.trans ?_ h.divs
          have := (pq.filterMap s.div).symm
          rw [List.filterMap_cons, hd] at this
          refine List.Perm.trans ?_ (this.append_left s.free)
          have e : (s.rows ++ s.queue.eraseIdx i).filterMap (fun x => if x = t then none else s.div x) =
              (s.rows ++ s.queue.eraseIdx i).filterMap s.div := by
            apply List.filterMap_congr
            intro x hx
            refine if_neg fun e => ?_
            subst e
            rcases List.mem_append.1 hx with hx | hx
            · exact htr hx
            · exact hnd.1 hx
          simp only [Big.held, e]
          rw [List.cons_append]
          exact List.perm_middle.symm
        · intro x hx d' hdx
          have e : x ≠ t := fun e => htr (e ▸ hx)
          simp only [if_neg e] at hdx
          exact h.text x hx d' hdx
        · change (s.made : Int) - (d :: s.free).length + ((s.queue.eraseIdx i).map _).sum = s.rows.length
          rw [hdq]
          simp only [List.length_cons]
          omega
        · intro h0 M ⟨hb, hpre⟩
          refine ⟨hb, fun n => ?_⟩
          change (s.made : Int) - (d :: s.free).length + (((s.queue.eraseIdx i).take n).map _).sum ≤ M
          rw [List.map_take, hdq, ← List.map_take]
          have h1 := hpre (n + 1)
          rw [htake h0 n, hdt] at h1
          simp only [List.length_cons]
          omega

end Verif.Apps.BigList
