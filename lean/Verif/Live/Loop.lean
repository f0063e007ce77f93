import Mathlib.Data.List.Induction
import Verif.Live.LoopSpec
/-!
# C71: loops that read, act and wait are up to date whenever the app is idle
-/
namespace Verif.Live
open XBow.Data (Data Layer)

section
variable {D : Nat → Type} {V S O : Type} {hash : XBow.Path → BitVec 64} {enc : Layer → XBow.Seg}
  {L : Loop D hash enc} {v0 : Vals D}

theorem valuesAt_append (h h' : List (Entry D hash enc)) (x : Item) :
    valuesAt v0 (h ++ h') x = (lastWrite x (h'.map (·.1))).getD (valuesAt v0 h x) := by
  simp only [valuesAt, lastWrite, List.map_append, List.filterMap_append, List.getLast?_append]
  cases (List.filterMap (wrote x) (h'.map (·.1))).getLast? <;> simp

theorem lastWrite_none {x : Item} {ops : List (FOp D hash enc)} (h : ∀ o ∈ ops, wrote x o = none) :
    lastWrite x ops = none := by
  have : ops.filterMap (wrote x) = [] := by
    rw [List.filterMap_eq_nil_iff]; exact h
  simp [lastWrite, this]

theorem lastWrite_append (x : Item) (a b : List (FOp D hash enc)) :
    lastWrite x (a ++ b) = (lastWrite x b).or (lastWrite x a) := by
  simp [lastWrite, List.filterMap_append, List.getLast?_append]

theorem wrote_listen {x : Item} {y : Item × Nat} : wrote x (listenOp y : FOp D hash enc) = none := by
  obtain ⟨y, n⟩ := y
  cases y <;> cases x <;> rfl

theorem wrote_polls {x y : Item} {k : Nat} {o : FOp D hash enc} (h : Polls y k o) : wrote x o = none := by
  cases h <;> cases x <;> rfl

theorem wrote_drops {x y : Item} {k : Nat} {o : FOp D hash enc} (h : Drops y k o) : wrote x o = none := by
  cases h <;> cases x <;> rfl

/-- What only the loop changes is what it has made of the values that it read. -/
theorem runs_output {z : Item} {f : Vals D → z.Val D} (hz : z ∈ L.outs)
    (hf : ∀ v, lastWrite z (L.body v) = some (f v)) {h since : List (Entry D hash enc)} {keys : List Nat}
    (hr : L.Runs v0 h (some (since, keys))) : valuesAt v0 h z = f (valuesAt v0 since) := by
  have round : ∀ {h seg : List (Entry D hash enc)} {keys : List Nat}, L.Round v0 h keys seg →
      valuesAt v0 (h ++ seg) z = f (valuesAt v0 h) := by
    rintro h seg keys ⟨a, b, rfl, ha, hk, hb, hp, -⟩
    rw [valuesAt_append, List.map_append, ha]
    have h1 : lastWrite z (b.map (·.1)) = none := by
      refine lastWrite_none fun o ho => ?_
      obtain ⟨e, he, rfl⟩ := List.mem_map.1 ho
      obtain ⟨j, hj, rfl⟩ := List.getElem_of_mem he
      have : j < (L.watches.zip keys).length := by rw [List.length_zip]; omega
      exact wrote_polls (hp j _ _ (List.getElem?_eq_getElem this) (List.getElem?_eq_getElem hj)).1
    have h2 : lastWrite z (L.watches.map (listenOp (D := D) (hash := hash) (enc := enc))) = none := by
      refine lastWrite_none fun o ho => ?_
      obtain ⟨e, he, rfl⟩ := List.mem_map.1 ho
      exact wrote_listen
    rw [lastWrite_append, h1, Option.none_or, lastWrite_append, h2, Option.none_or, hf]
    rfl
  generalize hst : some (since, keys) = st at hr
  induction hr generalizing since keys with
  | start => cases hst
  | before _ _ => cases hst
  | first _ hro _ => cases hst; exact round hro
  | other _ ho ih =>
    cases hst
    rw [valuesAt_append, lastWrite_none (by simpa using ho.2.1 z hz)]
    exact ih rfl
  | waits _ _ hp _ ih =>
    cases hst
    rw [valuesAt_append, lastWrite_none (by simpa using wrote_polls hp)]
    exact ih rfl
  | again _ _ hro _ => cases hst; exact round hro


/-- The polls of a round, and what has happened since. -/
theorem runs_shape {h since : List (Entry D hash enc)} {keys : List Nat} (hr : L.Runs v0 h (some (since, keys))) :
    ∃ seg post, h = since ++ seg ++ post ∧ L.Round v0 since keys seg ∧
      ∀ e ∈ post, L.Other keys e ∨ ∃ x ∈ L.watches.zip keys, Polls x.1.1 x.2 e.1 ∧ Pends e.2 := by
  generalize hst : some (since, keys) = st at hr
  induction hr generalizing since keys with
  | start => cases hst
  | before _ _ => cases hst
  | first _ hro _ => cases hst; exact ⟨_, [], by simp, hro, by simp⟩
  | @other _ _ _ e' _ ho ih =>
    cases hst
    obtain ⟨seg, post, rfl, h1, h2⟩ := ih rfl
    refine ⟨seg, post ++ [e'], by simp only [List.append_assoc], h1, ?_⟩
    intro e he
    rcases List.mem_append.1 he with he | he
    · exact h2 e he
    · simp only [List.mem_singleton] at he
      subst he; exact .inl ho
  | @waits _ _ _ e' _ _ hx hp hpe ih =>
    cases hst
    obtain ⟨seg, post, rfl, h1, h2⟩ := ih rfl
    refine ⟨seg, post ++ [e'], by simp only [List.append_assoc], h1, ?_⟩
    intro e he
    rcases List.mem_append.1 he with he | he
    · exact h2 e he
    · simp only [List.mem_singleton] at he
      subst he; exact .inr ⟨_, hx, hp, hpe⟩
  | again _ _ hro _ => cases hst; exact ⟨_, [], by simp, hro, by simp⟩

/-- What has happened since the loop read `x`: `since`, the value was read, `mid` in which `x` did not change, the future
was polled for the first time. -/
theorem runs_watch (hg : L.Keeps) {h since : List (Entry D hash enc)} {keys : List Nat}
    (hr : L.Runs v0 h (some (since, keys))) {x : Item × Nat} (hx : x ∈ L.watches) :
    ∃ k mid e post, (x, k) ∈ L.watches.zip keys ∧ h = since ++ mid ++ e :: post ∧ Polls x.1 k e.1 ∧ Pends e.2 ∧
      (∀ o ∈ mid, wrote x.1 o.1 = none) ∧ (∃ a b, mid = a ++ b ∧ (∀ o ∈ readOps x.1, o ∈ a.map (·.1)) ∧
        MadeFor (since ++ a) x k) ∧
      ∀ e ∈ post, L.Other keys e ∨ ∃ x ∈ L.watches.zip keys, Polls x.1.1 x.2 e.1 ∧ Pends e.2 := by
  obtain ⟨seg, post, rfl, ⟨a, b, rfl, ha, hk, hb, hp, hmade⟩, h2⟩ := runs_shape hr
  obtain ⟨j, hj, rfl⟩ := List.getElem_of_mem hx
  have hjz : j < (L.watches.zip keys).length := by rw [List.length_zip]; omega
  have hjb : j < b.length := by omega
  have hjk : j < keys.length := by omega
  have hz : (L.watches.zip keys)[j] = (L.watches[j], keys[j]) := by simp
  obtain ⟨p1, p2⟩ := hp j _ _ (List.getElem?_eq_getElem hjz) (List.getElem?_eq_getElem hjb)
  rw [hz] at p1
  have hmem : (L.watches[j], keys[j]) ∈ L.watches.zip keys := hz ▸ List.getElem_mem hjz
  have hbw : ∀ e ∈ b, ∃ x ∈ L.watches.zip keys, Polls x.1.1 x.2 e.1 ∧ Pends e.2 := by
    intro e he
    obtain ⟨i, hi, rfl⟩ := List.getElem_of_mem he
    have : i < (L.watches.zip keys).length := by rw [List.length_zip]; omega
    exact ⟨_, List.getElem_mem this, hp i _ _ (List.getElem?_eq_getElem this) (List.getElem?_eq_getElem hi)⟩
  refine ⟨keys[j], a ++ b.take j, b[j], b.drop (j + 1) ++ post, hmem, ?_, p1, p2, ?_, ⟨a, b.take j, rfl, ?_, hmade _ hmem⟩, ?_⟩
  · have hbs : b.take j ++ b[j] :: b.drop (j + 1) = b := by simp
    calc since ++ (a ++ b) ++ post = since ++ (a ++ (b.take j ++ b[j] :: b.drop (j + 1))) ++ post := by rw [hbs]
      _ = _ := by simp only [List.append_assoc, List.cons_append]
  · intro o ho
    rcases List.mem_append.1 ho with ho | ho
    · have ho := List.mem_map_of_mem (f := (·.1)) ho
      rw [ha] at ho
      rcases List.mem_append.1 ho with ho | ho
      · exact (hg _ _ hx).1 _ ho
      · obtain ⟨y, -, hy⟩ := List.mem_map.1 ho
        rw [← hy]; exact wrote_listen
    · obtain ⟨y, -, hy, -⟩ := hbw _ (List.mem_of_mem_take ho)
      exact wrote_polls hy
  · intro o ho
    rw [ha]
    exact List.mem_append_left _ ((hg _ _ hx).2 _ ho)
  · intro e he
    rcases List.mem_append.1 he with he | he
    · exact .inr (hbw e (List.mem_of_mem_drop he))
    · exact h2 e he

theorem part_append (i : Thing) (a b : List (Entry D hash enc)) :
    part (things D hash enc) i (a ++ b) = part (things D hash enc) i a ++ part (things D hash enc) i b := by
  simp [part]

theorem part_cons_self (i : Thing) (o : FOp D hash enc) (op : (things D hash enc i).Op) (out : (things D hash enc i).Out)
    (h : List (Entry D hash enc)) :
    part (things D hash enc) i ((o, ⟨i, op, out⟩) :: h) = (op, out) :: part (things D hash enc) i h := by
  rw [part, List.filterMap_cons_some (only_self i o op out)]
  rfl

/-- An entry of the history of one source comes from one of the whole history. -/
theorem mem_part {i : Thing} {h : List (Entry D hash enc)}
    (hs : ∀ e ∈ h, ∃ j op out, e = (⟨j, op⟩, ⟨j, op, out⟩)) {x : (things D hash enc i).Op × (things D hash enc i).Out}
    (hx : x ∈ part (things D hash enc) i h) : ((⟨i, x.1⟩, ⟨i, x.1, x.2⟩) : Entry D hash enc) ∈ h := by
  obtain ⟨e, he, ho⟩ := List.mem_filterMap.1 hx
  obtain ⟨j, op, out, rfl⟩ := hs e he
  have := only_some ho
  cases this
  exact he

theorem cell_value {v : ∀ n, D n} {n : Nat} {h : List (Entry D hash enc)}
    (hs : ∀ e ∈ h, ∃ j op out, e = (⟨j, op⟩, ⟨j, op, out⟩)) :
    Cell.current (v n) (part (things D hash enc) (.cell n) h) = valuesAt (initially v) h (.cell n) := by
  induction h using List.reverseRecOn with
  | nil => rfl
  | append_singleton h e ih =>
    have ih := ih fun e he => hs e (List.mem_append_left _ he)
    rw [valuesAt_append, part_append, Cell.current_append, ih]
    obtain ⟨j, op, out, rfl⟩ := hs e (List.mem_append_right _ (.head _))
    by_cases hj : j = .cell n
    · subst hj
      rw [part_cons_self]
      cases op <;> first | rfl | (simp [lastWrite, wrote, part, Cell.current]; rfl)
    · simp only [part, List.filterMap_cons, only_ne hj, List.filterMap_nil, Cell.current]
      rw [lastWrite_none]
      · rfl
      · simp only [List.map_cons, List.map_nil, List.mem_singleton, forall_eq]
        cases j with
        | cell m =>
          have hm : m ≠ n := fun h => hj (by rw [h])
          cases op <;> simp [wrote, hm]
        | _ => rfl

theorem page_value {v : ∀ n, D n} {pg t : Nat} {s0 s : (fullSource D hash enc).σ} {h : List (Entry D hash enc)}
    (hh : Hist (fullSource D hash enc) s0 h s) (h0 : s0 (.page pg) = Page.init) :
    (s (.page pg) : Page).value t = valuesAt (initially v) h (.input pg t) := by
  induction hh with
  | nil => rw [h0]; rfl
  | @snoc h s1 o out s2 _ hs ih =>
    rw [valuesAt_append]
    obtain ⟨j, op⟩ := o
    simp only [] at hs
    cases hz : (things D hash enc j).step (s1 j) op with
    | none => rw [hz] at hs; cases hs
    | some x =>
      obtain ⟨u, o'⟩ := x
      rw [hz] at hs
      simp only [Option.some.injEq, Prod.mk.injEq] at hs
      obtain ⟨rfl, rfl⟩ := hs
      by_cases hj : j = .page pg
      · subst hj
        rw [Function.update_self]
        have hz : Page.step (s1 (.page pg)) op = some (u, o') := hz
        cases op with
        | edit t' y w e =>
          cases hz
          by_cases ht : t = t'
          · subst ht
            simp only [List.map_cons, List.map_nil, lastWrite, List.filterMap_cons, List.filterMap_nil, wrote]
            simp
            rfl
          · have ht' : ¬ t' = t := fun h => ht h.symm
            simp only [List.map_cons, List.map_nil, lastWrite, List.filterMap_cons, List.filterMap_nil, wrote]
            simp [ht, ht']
            exact ih
        | set t' w =>
          cases hz
          by_cases ht : t = t'
          · subst ht
            simp only [List.map_cons, List.map_nil, lastWrite, List.filterMap_cons, List.filterMap_nil, wrote]
            simp
            rfl
          · have ht' : ¬ t' = t := fun h => ht h.symm
            simp only [List.map_cons, List.map_nil, lastWrite, List.filterMap_cons, List.filterMap_nil, wrote]
            simp [ht, ht']
            exact ih
        | read t' => cases hz; exact ih
        | ev o => obtain ⟨W, o, -, rfl, -⟩ := onEvents_page hz; exact ih
        | call =>
          simp only [Page.step] at hz
          split at hz
          · cases hz
          · split at hz
            · obtain ⟨W, o, -, rfl, -⟩ := onEvents_page hz; exact ih
            · cases hz; exact ih
      · rw [Function.update_of_ne (Ne.symm hj), ih, lastWrite_none]
        · rfl
        · simp only [List.map_cons, List.map_nil, List.mem_singleton, forall_eq]
          cases j with
          | page m =>
            have hm : m ≠ pg := fun h => hj (by rw [h])
            cases op <;> simp [wrote, hm]
          | _ => rfl

theorem page_entry {s0 s : pageSource.σ} {h : List (pageSource.Op × pageSource.Out)} (hh : Hist pageSource s0 h s)
    (e : PageOp × PageOut) (he : e ∈ h) {o : Events.Op} {ob : Events.Obs} (ho : e.2.ev = some (o, ob)) :
    e.1 = .ev o ∨ ∃ l n, o = .deliver l n := by
  obtain ⟨a, b, rfl⟩ := List.append_of_mem he
  obtain ⟨m, -, h1⟩ := hist_append hh
  obtain ⟨m', h2, -⟩ := hist_cons h1
  rcases page_events h2 with ⟨h3, -⟩ | ⟨o', ob', h3, -, h4⟩
  · rw [h3] at ho; cases ho
  · rw [h3] at ho; cases ho
    rcases h4 with h4 | ⟨-, h4⟩
    · exact .inl h4
    · exact .inr h4

theorem polls_page {x : Item} {k pg : Nat} {o : FOp D hash enc} {op : PageOp} (h : Polls x k o) (ho : o = ⟨.page pg, op⟩) :
    ∃ wk, op = .ev (.poll k wk) := by
  cases h with
  | cell _ _ _ => cases ho
  | input _ _ _ wk => cases ho; exact ⟨wk, rfl⟩

theorem pends_page {out : (fullSource D hash enc).Out} {pg : Nat} {op : PageOp} {r : PageOut} (h : Pends out)
    (ho : out = ⟨.page pg, op, r⟩) : ∃ o ob, r.ev = some (o, ob) ∧ ob.polled = some none := by
  cases h with
  | cell => cases ho
  | @input _ _ o ob h => cases ho; exact ⟨o, ob, rfl, h⟩

theorem made_streams {a : List (PageOp × PageOut)} (b : List (PageOp × PageOut)) {k : Nat} {x : Nat × Nat}
    (h : (streams a).made[k]? = some x) : (streams (a ++ b)).made[k]? = some x := by
  rw [streams, Events.history, evHist, List.filterMap_append, List.map_append, List.foldl_append]
  obtain ⟨r, hr⟩ := made_append (streams a) ((evHist b).map (·.1))
  have : (streams a).made[k]? = some x := h
  refine Eq.trans (b := ((streams a).made ++ r)[k]?) (congrArg (·[k]?) hr) ?_
  rw [List.getElem?_append_left (List.getElem?_eq_some_iff.1 h).1, h]

theorem runs_key (hg : L.Keeps) {h since : List (Entry D hash enc)} {keys : List Nat}
    (hr : L.Runs v0 h (some (since, keys))) {x : Item × Nat} (hx : x ∈ L.watches) : ∃ k, (x, k) ∈ L.watches.zip keys := by
  obtain ⟨k, -, -, -, h1, -⟩ := runs_watch hg hr hx
  exact ⟨k, h1⟩

variable {cells : ∀ n, Cell.Sys (D n)} {data : Nat → Data}
  {es : List (Event (fullSource D hash enc) V S O)} {w : World (fullSource D hash enc) V S O}

/-- A loop has read what a cell it waits for holds now. -/
theorem runs_cell {v : ∀ n, D n} (hg : L.Keeps) {since : List (Entry D hash enc)} {keys : List Nat}
    (hr : L.Runs (initially v) w.hist (some (since, keys))) {n y : Nat} (hx : (.cell n, y) ∈ L.watches)
    (hs : ∀ e ∈ w.hist, ∃ j op out, e = (⟨j, op⟩, ⟨j, op, out⟩)) :
    ∃ k, ((.cell n, y), k) ∈ L.watches.zip keys ∧
      Cell.ReadThenWaits (v n) k (ofCell w n) (valuesAt (initially v) since (.cell n)) := by
  obtain ⟨k, mid, e, post, h1, h2, h3, h4, h5, -, h7⟩ := runs_watch hg hr hx
  refine ⟨k, h1, ?_⟩
  have hs' : ∀ {a : List (Entry D hash enc)}, (∀ e ∈ a, e ∈ w.hist) → ∀ e ∈ a, ∃ j op out, e = (⟨j, op⟩, ⟨j, op, out⟩) :=
    fun ha e he => hs e (ha e he)
  obtain ⟨j, op, out, rfl⟩ := hs e (by rw [h2]; simp)
  cases h3 with
  | cell _ _ wk =>
    refine ⟨part (things D hash enc) (.cell n) since, part (things D hash enc) (.cell n) mid, wk, out,
      part (things D hash enc) (.cell n) post, ?_, ?_, ?_, ?_⟩
    · rw [ofCell, h2, part_append, part_append, part_cons_self]
    · rw [cell_value (hs' fun e he => by rw [h2]; simp [he])]
    · intro e he z hz
      have := mem_part (hs' fun e he => by rw [h2]; simp [he]) he
      have := h5 _ this
      rw [hz] at this
      simp [wrote] at this
    · rintro e he wk' b rfl
      have hm := mem_part (hs' fun e he => by rw [h2]; simp [he]) he
      rcases h7 _ hm with ho | ⟨z, -, -, hp⟩
      · exact absurd (Polls.cell n k wk') (ho.1 _ h1)
      · cases hp; rfl

/-- A loop has read what an input it waits for holds now. -/
theorem runs_input {v : ∀ n, D n} (hg : L.Keeps) {since : List (Entry D hash enc)} {keys : List Nat}
    (hr : L.Runs (initially v) w.hist (some (since, keys))) {pg t y : Nat} (hx : (.input pg t, y) ∈ L.watches)
    (hh : Hist (fullSource D hash enc) (start cells data) w.hist w.src) :
    ∃ k, ((.input pg t, y), k) ∈ L.watches.zip keys ∧
      ReadThenListens t y k (ofPage w pg) (valuesAt (initially v) since (.input pg t)) := by
  obtain ⟨k, mid, e, post, h1, h2, h3, h4, h5, ⟨a, b, rfl, h6, h6'⟩, h7⟩ := runs_watch hg hr hx
  have hs := (part_hist hh (.page pg)).2
  refine ⟨k, h1, ?_⟩
  have hs' : ∀ {a : List (Entry D hash enc)}, (∀ e ∈ a, e ∈ w.hist) → ∀ e ∈ a, ∃ j op out, e = (⟨j, op⟩, ⟨j, op, out⟩) :=
    fun ha e he => hs e (ha e he)
  obtain ⟨j, op, out, rfl⟩ := hs e (by rw [h2]; simp)
  obtain ⟨er, hmem, her⟩ := List.mem_map.1 (h6 ⟨.page pg, .read t⟩ (by simp [readOps]))
  obtain ⟨a1, a2, rfl⟩ := List.append_of_mem hmem
  obtain ⟨j', op', outr, rfl⟩ := hs er (by rw [h2]; simp)
  cases her
  cases h3 with
  | input _ _ _ wk =>
    have hw : w.hist = (since ++ a1) ++ (((⟨.page pg, .read t⟩, ⟨.page pg, .read t, outr⟩) : Entry D hash enc) ::
        ((a2 ++ b) ++ (⟨.page pg, .ev (.poll k wk)⟩, ⟨.page pg, .ev (.poll k wk), out⟩) :: post)) := by
      rw [h2]; simp
    have hw' : ofPage w pg = part (things D hash enc) (.page pg) (since ++ a1) ++ (.read t, outr) ::
        (part (things D hash enc) (.page pg) (a2 ++ b) ++ (.ev (.poll k wk), out) ::
          part (things D hash enc) (.page pg) post) := by
      rw [ofPage, hw, part_append, part_cons_self, part_append (.page pg) (a2 ++ b), part_cons_self]
    refine ⟨part (things D hash enc) (.page pg) (since ++ a1), outr, part (things D hash enc) (.page pg) (a2 ++ b), wk, out,
      part (things D hash enc) (.page pg) post, ?_, ?_, ?_, ?_, ?_⟩
    · exact hw'
    · rw [hw] at hh
      obtain ⟨m, g1, g2⟩ := hist_append hh
      obtain ⟨m', g3, -⟩ := hist_cons g2
      have hv := page_value (v := v) (t := t) g1 (pg := pg) rfl
      simp only [Page.step, Option.some.injEq, Prod.mk.injEq] at g3
      obtain ⟨-, g3⟩ := g3
      cases g3
      simp only []
      rw [hv, valuesAt_append, lastWrite_none]
      · rfl
      · intro o ho
        obtain ⟨e, he, rfl⟩ := List.mem_map.1 ho
        exact h5 _ (by simp [he])
    · simp only [MadeFor] at h6'
      rw [ofPage, h2, List.append_assoc, List.append_assoc, ← List.append_assoc, part_append]
      exact made_streams _ h6'
    · intro e he
      have := mem_part (hs' fun e he => by rw [h2]; simp only [List.mem_append] at he; simp; tauto) he
      have := h5 (⟨.page pg, e.1⟩, ⟨.page pg, e.1, e.2⟩) (by simp only [List.mem_append] at this; simp; tauto)
      refine ⟨fun y z n hz => ?_, fun z hz => ?_⟩
      · rw [hz] at this; simp [wrote] at this
      · rw [hz] at this; simp [wrote] at this
    · intro e he
      rcases List.mem_cons.1 he with rfl | he
      · refine ⟨by simp, by simp, ?_⟩
        intro wk' ob hob
        obtain ⟨_, _, g1, g2⟩ := pends_page h4 rfl
        rw [hob] at g1; cases g1; exact g2
      · have hm := mem_part (hs' fun e he => by rw [h2]; simp [he]) he
        rcases h7 _ hm with ho | ⟨z, -, hpo, hp⟩
        · obtain ⟨o1, o2⟩ := ho.2.2 pg t y hx
          refine ⟨fun y' z n hz => o2 y' z n (by rw [hz]), fun z hz => o1 z (by rw [hz]), ?_⟩
          intro wk' ob hob
          rcases page_entry (part_hist hh (.page pg)).1 e
            (show e ∈ ofPage w pg by rw [hw']; simp [he]) hob with h | ⟨_, _, h⟩
          · exact absurd (Polls.input pg t k wk') (h ▸ ho.1 _ h1)
          · cases h
        · refine ⟨fun y' z n hz => ?_, fun z hz => ?_, ?_⟩
          · obtain ⟨_, h⟩ := polls_page hpo rfl
            rw [hz] at h; cases h
          · obtain ⟨_, h⟩ := polls_page hpo rfl
            rw [hz] at h; cases h
          · intro wk' ob hob
            obtain ⟨_, _, g1, g2⟩ := pends_page hp rfl
            rw [hob] at g1; cases g1; exact g2

/-- **C71.** Whenever the app is idle, a loop that is waiting has acted on the values that the things it waits for have
now; and what only the loop changes is what it makes of these values. -/
theorem idle_loop {v : ∀ n, D n} (h : run (init (start cells data)) es = some w) (hm : ∃ t, .app (.mount t) ∈ es)
    (hidle : Idle w) (hcells : ∀ n, Cell.init (v n) = some (cells n)) (hg : L.Keeps)
    {since : List (Entry D hash enc)} {keys : List Nat} (hr : L.Runs (initially v) w.hist (some (since, keys)))
    (hwrite : ∀ n y, (.cell n, y) ∈ L.watches → (cellNow w n).cell.writing = false)
    (hcalls : ∀ pg t y, (.input pg t, y) ∈ L.watches → (pageNow w pg).calls = [])
    (hk : ∀ x ∈ L.watches.zip keys, Awaited w (keyOf x.1.1 x.2)) :
    (∀ x ∈ L.watches, valuesAt (initially v) since x.1 = valuesAt (initially v) w.hist x.1) ∧
    ∀ (z : Item) (f : Vals D → z.Val D), z ∈ L.outs → (∀ u, lastWrite z (L.body u) = some (f u)) →
      (∀ u u', (∀ x ∈ L.watches, u x.1 = u' x.1) → f u = f u') →
      valuesAt (initially v) w.hist z = f (valuesAt (initially v) w.hist) := by
  have hnow : ∀ x ∈ L.watches, valuesAt (initially v) since x.1 = valuesAt (initially v) w.hist x.1 := by
    rintro ⟨x, y⟩ hx
    have hkk : ∀ k, ((x, y), k) ∈ L.watches.zip keys → Awaited w (keyOf x k) := fun k hz => hk _ hz
    cases x with
    | cell n =>
      obtain ⟨-, -, -, -, -, -, -, hist, -⟩ := idle_not_woken h hm hidle (hkk _ (runs_key hg hr hx).choose_spec)
      have hs := (part_hist hist (.cell n)).2
      obtain ⟨k, hz, hrw⟩ := runs_cell hg hr hx hs
      have := ((idle_app h hm hidle).1 n (v n) (hcells n) (hwrite n y hx)).2 k (hkk k hz)
      rw [this.2 _ hrw, cell_value hs]
    | input pg t =>
      obtain ⟨-, -, -, -, -, -, -, hist, -⟩ := idle_not_woken h hm hidle (hkk _ (runs_key hg hr hx).choose_spec)
      obtain ⟨k, hz, hrl⟩ := runs_input hg hr hx hist
      have := idle_form h hm hidle (hcalls pg t y hx) (hkk k hz) hrl
      rw [← this]
      exact page_value hist rfl
  refine ⟨hnow, fun z f hz hf hc => ?_⟩
  rw [runs_output hz hf hr]
  exact hc _ _ hnow

end
end Verif.Live
