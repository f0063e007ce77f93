import Verif.Apps.Link
/-!
# C84, continued: clicks by the user and by the app

The links of `Apps/Link` (`examples/guide-project/src/events/mod.rs:22-56`), with clicks of the user and clicks that a task of the app makes
(`link.click()`) in any order.
-/
namespace Verif.Apps.Link
open Verif.Events

/-- What happens: as in `Apps/Link`, or a task of the app clicks on the link. -/
inductive Act
  | event (e : Event)
  /-- and before the block is polled, other tasks do these -/
  | self (ops : List Op)

/-- As `App.step`; a click by the app is `nested`. Before the executor has run there is no task that could click. -/
def App.act (p : Program) (A : App) : Act → App
  | .event e => A.step p e
  | .self ops => if A.block = .unstarted then A else nested p ops A

def App.runActs (p : Program) (as : List Act) : App := as.foldl (App.act p) mount

/-! ## Specification -/

/-- Has the executor run, and, for each click since then, was it made by the app? -/
def tally (as : List Act) : Bool × List Bool :=
  as.foldl (fun s a =>
    match a with
    | .event .run => (true, s.2)
    | .event (.other _) => s
    | .event (.click _) => if s.1 then (s.1, s.2 ++ [false]) else s
    | .self _ => if s.1 then (s.1, s.2 ++ [true]) else s) (false, [])

/-- Which clicks open the link: those of the app, and with a single `until_click().await` all but the first. -/
def opening (p : Program) (by' : List Bool) : List Ev :=
  (List.range by'.length).filter fun k => by'[k]? == some true || (decide (p = .once) && k != 0)

/-! ## Proof -/

/-- What does not depend on who has clicked. -/
structure Core (p : Program) (A : App) : Prop where
  fine : ∃ H, Fine p A H
  unstarted : A.block = .unstarted → A.clicks = 0
  prevented : A.prevented = stopped p A.clicks
  once : p = .once → (A.block = .done ↔ A.clicks ≠ 0)

theorem Core.fresh {p : Program} {A : App} (h : Core p A) : A.clicks ∉ A.prevented := by
  rw [h.prevented]
  have : A.clicks ∉ List.range A.clicks := by simp
  cases p with
  | once => exact fun hx => this (List.mem_of_mem_take hx)
  | loop => exact this
  | stream => exact this

/-- The state after an event on which the block has called `prevent_default`. -/
theorem core_handled {p : Program} {A : App} (h : Core p A) {i : Nat} (hk : A.block = .waits i) {H' : History} {W : World} {b : Block}
    {o : List Ev} (f1 : Fine p ⟨W, b, A.prevented ++ [A.clicks], A.clicks + 1, o⟩ H') (k1 : Handled p b) :
    Core p ⟨W, b, A.prevented ++ [A.clicks], A.clicks + 1, o⟩ := by
  cases p with
  | once =>
    have h0 : A.clicks = 0 := by
      by_contra hx
      rw [(h.once rfl).2 hx] at hk
      cases hk
    have hb' : b = .done := k1
    refine ⟨⟨H', f1⟩, fun hx => ?_, ?_, fun _ => ⟨fun _ => Nat.succ_ne_zero _, fun _ => hb'⟩⟩
    · simp only [hb'] at hx; cases hx
    · simp only [h.prevented, h0]; rfl
  | loop =>
    obtain ⟨j, hj⟩ := k1
    refine ⟨⟨H', f1⟩, fun hx => ?_, ?_, nofun⟩
    · simp only [hj] at hx; cases hx
    · simp only [h.prevented, stopped, List.range_succ]
  | stream =>
    obtain ⟨j, hj⟩ := k1
    refine ⟨⟨H', f1⟩, fun hx => ?_, ?_, nofun⟩
    · simp only [hj] at hx; cases hx
    · simp only [h.prevented, stopped, List.range_succ]

/-- The state after a click when the block is done. -/
theorem core_done {p : Program} {A : App} (h : Core p A) (hk : A.block = .done) {H' : History} {W : World} {o : List Ev}
    (f1 : Fine p ⟨W, A.block, A.prevented, A.clicks + 1, o⟩ H') : Core p ⟨W, A.block, A.prevented, A.clicks + 1, o⟩ := by
  have hp : p = .once := by have := f1.2; simp only [hk] at this; exact this
  subst hp
  obtain ⟨n, hn'⟩ := Nat.exists_eq_succ_of_ne_zero ((h.once rfl).1 hk)
  refine ⟨⟨H', f1⟩, fun hx => ?_, ?_, fun _ => ⟨fun _ => Nat.succ_ne_zero _, fun _ => hk⟩⟩
  · simp only [hk] at hx; cases hx
  · simp only [h.prevented, stopped, hn', List.range_succ_eq_map, List.take_succ_cons, List.take_zero]

theorem block_cases {A : App} (hb : A.block ≠ .unstarted) : A.block = .done ∨ ∃ i, A.block = .waits i := by
  cases hk : A.block with
  | unstarted => exact absurd hk hb
  | done => exact .inl rfl
  | waits i => exact .inr ⟨i, rfl⟩

/-- The listener of the block is among those that the browser calls. -/
theorem mine_listens {W : World} {H : History} {i c : Nat} (hi : Inv W H) {u : Option Ev} (hm : H.made[i]? = some (0, 0))
    (hv : H.view i = ⟨false, false, some 1, false, u⟩) (hc : H.order[c]? = some i) : (⟨0, 0, c, false, false⟩ : Listener) ∈ W.listeners := by
  rw [hi.listeners]
  have := left_callback hc (by rw [hv]; rfl)
  simpa only [History.wanted, hm, hv, Option.getD_some] using this

theorem core_click {p : Program} {A : App} (h : Core p A) (hb : A.block ≠ .unstarted) (envs : List (List Op)) :
    Core p (A.step p (.click envs)) ∧ (A.step p (.click envs)).clicks = A.clicks + 1 ∧
      (A.step p (.click envs)).opened = if p = .once ∧ A.clicks ≠ 0 then A.opened ++ [A.clicks] else A.opened := by
  obtain ⟨H, hf⟩ := h.fine
  set L := A.dom.listeners.filter fun l => l.target == 0 && l.type == 0 with hL
  have hlt : ∀ l ∈ L, l.callback < H.order.length := fun l hl => by
    obtain ⟨j, hj, -⟩ := callback_left (hf.1.listeners ▸ (List.mem_filter.1 hl).1)
    exact (List.getElem?_eq_some_iff.1 hj).1
  have hs : A.step p (.click envs) =
      let B := dispatch p A.clicks L envs { A with clicks := A.clicks + 1 }
      { B with opened := if A.clicks ∈ B.prevented then B.opened else B.opened ++ [A.clicks] } := by
    simp only [App.step, if_neg hb, hL]
  rw [hs]
  rcases block_cases hb with hk | ⟨i, hk⟩
  · obtain ⟨H', W, e1, f1⟩ := dispatch_apart (p := p) (e := A.clicks) (L := L) (envs := envs)
      (A := { A with clicks := A.clicks + 1 }) (H := H) hf hb hlt (fun l _ i hi => by rw [hk] at hi; cases hi)
    have hp : p = .once := by have := hf.2; rw [hk] at this; exact this
    simp only [e1]
    exact ⟨core_done h hk f1, trivial, by rw [if_neg h.fresh, if_pos ⟨hp, (h.once hp).1 hk⟩]⟩
  · have hm : Mine H i := by have := hf.2; rw [hk] at this; exact this
    obtain ⟨c, hc⟩ := Mine.place hf.1 hm
    have hin : (⟨0, 0, c, false, false⟩ : Listener) ∈ L :=
      List.mem_filter.2 ⟨mine_listens hf.1 hm.made hm.view hc.place, rfl⟩
    have hnd : (L.map (·.callback)).Nodup := by
      refine List.Nodup.sublist ((List.filter_sublist (l := A.dom.listeners)).map _) ?_
      rw [hf.1.listeners]
      exact left_nodup H
    obtain ⟨H', W, b, e1, f1, k1⟩ := dispatch_event (p := p) (e := A.clicks) (L := L) (envs := envs)
      (A := { A with clicks := A.clicks + 1 }) (H := H) hf hk hc.place hlt hnd hin
    simp only [e1]
    have hno : ¬ (p = .once ∧ A.clicks ≠ 0) := by
      rintro ⟨hp, hx⟩
      rw [(h.once hp).2 hx] at hk
      cases hk
    exact ⟨core_handled h hk f1 k1, trivial, by rw [if_pos (by simp), if_neg hno]⟩

/-- The callbacks of a click by the app, when the block does not wait. -/
theorem fold_done (L : List Listener) (A : App) {H : History} (h : Inv A.dom H) :
    ∃ H' W, L.foldl (fun (A : App) l => { A with dom := ((Events.step A.dom (.deliver l A.clicks)).map (·.1)).getD A.dom }) A =
      { A with dom := W } ∧ Inv W H' := by
  induction L generalizing A H with
  | nil => exact ⟨H, A.dom, rfl, h⟩
  | cons l ls ih =>
    rw [List.foldl_cons]
    cases ho : Events.step A.dom (.deliver l A.clicks) with
    | none => exact ih A h
    | some r => exact ih { A with dom := r.1 } (inv_step h ho).1

/-- The same when it waits: its listener stores the event. -/
theorem fold_waits (L : List Listener) (A : App) {H : History} {i c : Nat} {u : Option Ev} (h : Inv A.dom H) (hm : H.made[i]? = some (0, 0))
    (hv : H.view i = ⟨false, false, some 1, false, u⟩) (hc : H.order[c]? = some i) :
    ∃ H' W u', L.foldl (fun (A : App) l => { A with dom := ((Events.step A.dom (.deliver l A.clicks)).map (·.1)).getD A.dom }) A =
      { A with dom := W } ∧ Inv W H' ∧ H'.made[i]? = some (0, 0) ∧ H'.view i = ⟨false, false, some 1, false, u'⟩ ∧ H'.order[c]? = some i ∧
      (u = some A.clicks ∨ (⟨0, 0, c, false, false⟩ : Listener) ∈ L → u' = some A.clicks) := by
  induction L generalizing A H u with
  | nil => exact ⟨H, A.dom, u, rfl, h, hm, hv, hc, by simp⟩
  | cons l ls ih =>
    rw [List.foldl_cons]
    cases ho : Events.step A.dom (.deliver l A.clicks) with
    | none =>
      obtain ⟨H', W, u', h1, h2, h3, h4, h5, h6⟩ := ih A h hm hv hc
      refine ⟨H', W, u', h1, h2, h3, h4, h5, fun hx => h6 ?_⟩
      rcases hx with hx | hx
      · exact .inl hx
      rcases List.mem_cons.1 hx with rfl | hx
      · exfalso
        obtain ⟨s, hs⟩ := live_stream h (List.getElem?_eq_some_iff.1 hm).1 (by rw [hv])
        simp [Events.step, mine_listens h hm hv hc, h.closures, hc, hs] at ho
      · exact .inr hx
    | some r =>
      have h1 := (inv_step h ho).1
      have hord : (H.next (.deliver l A.clicks)).order = H.order := by simp only [History.next]; split <;> rfl
      have hmade : (H.next (.deliver l A.clicks)).made = H.made := by simp only [History.next]; split <;> rfl
      have hview : ∃ v, (H.next (.deliver l A.clicks)).view i = ⟨false, false, some 1, false, v⟩ ∧
          (u = some A.clicks ∨ l = ⟨0, 0, c, false, false⟩ → v = some A.clicks) := by
        by_cases hx : H.order[l.callback]? = some i
        · refine ⟨some A.clicks, ?_, fun _ => rfl⟩
          simp only [History.next, hx, History.upd, if_true, hv]
        · refine ⟨u, ?_, ?_⟩
          · simp only [History.next]
            split
            · next j hj =>
              have : i ≠ j := by rintro rfl; exact hx hj
              simp only [History.upd, if_neg this, hv]
            · exact hv
          · rintro (hu | rfl)
            · exact hu
            · exact absurd hc hx
      obtain ⟨v, hv1, hv2⟩ := hview
      obtain ⟨H', W, u', h1, h2, h3, h4, h5, h6⟩ := ih { A with dom := r.1 } h1 (hmade ▸ hm) hv1 (hord ▸ hc)
      refine ⟨H', W, u', h1, h2, h3, h4, h5, fun hx => h6 ?_⟩
      rcases hx with hx | hx
      · exact .inl (hv2 (.inl hx))
      rcases List.mem_cons.1 hx with hx | hx
      · exact .inl (hv2 (.inr hx.symm))
      · exact .inr hx

/-- Other tasks do not touch the event that the block has not read yet. -/
theorem other_keeps {W : World} {H : History} (h : Inv W H) (op : Op) :
    ∃ H', Inv (call W op).1 H' ∧ H.order <+: H'.order ∧ ∀ i, touches (.waits i) op = false → H.made[i]? = some (0, 0) →
      H'.made[i]? = some (0, 0) ∧ H'.view i = H.view i := by
  unfold call
  cases ho : Events.step W op with
  | none => exact ⟨H, h, List.prefix_rfl, fun i _ m => ⟨m, rfl⟩⟩
  | some r =>
    obtain ⟨W', o⟩ := r
    obtain ⟨h1, -⟩ := inv_step h ho
    refine ⟨_, h1, ?_, fun i ht m => ?_⟩
    · cases op with
      | poll j w => simp only [History.next, History.upd]; split
                    · exact List.prefix_append ..
                    · exact List.prefix_rfl
      | deliver l e => simp only [History.next]; split <;> exact List.prefix_rfl
      | _ => exact List.prefix_rfl
    · cases op with
      | new t y =>
        refine ⟨?_, rfl⟩
        simp only [History.next]
        rw [List.getElem?_append_left (List.getElem?_eq_some_iff.1 m).1]; exact m
      | setCapture j b =>
        have : i ≠ j := by rintro rfl; simp [touches] at ht
        exact ⟨m, by simp only [History.next, History.upd, if_neg this]⟩
      | setPassive j b =>
        have : i ≠ j := by rintro rfl; simp [touches] at ht
        exact ⟨m, by simp only [History.next, History.upd, if_neg this]⟩
      | poll j w =>
        have : i ≠ j := by rintro rfl; simp [touches] at ht
        exact ⟨m, by simp only [History.next, History.upd, if_neg this]⟩
      | drop j =>
        have : i ≠ j := by rintro rfl; simp [touches] at ht
        exact ⟨m, by simp only [History.next, History.upd, if_neg this]⟩
      | deliver l e =>
        have hl : l ∈ W.listeners := by
          by_contra hn
          simp [Events.step, hn] at ho
        rw [h.listeners] at hl
        obtain ⟨j, hj, -, hw⟩ := callback_left hl
        have : i ≠ j := by
          rintro rfl
          rw [hw] at ht
          simp [touches, History.wanted, m] at ht
        simp only [History.next, hj]
        exact ⟨m, by simp only [History.upd, if_neg this]⟩

theorem others_keep (ops : List Op) {A : App} {H : History} {i c : Nat} (h : Inv A.dom H) (hk : A.block = .waits i)
    (hm : H.made[i]? = some (0, 0)) (hc : H.order[c]? = some i) :
    ∃ H' W, others A ops = { A with dom := W } ∧ Inv W H' ∧ H'.made[i]? = some (0, 0) ∧ H'.view i = H.view i ∧ H'.order[c]? = some i := by
  unfold others
  induction ops generalizing A H with
  | nil => exact ⟨H, A.dom, rfl, h, hm, rfl, hc⟩
  | cons op ops ih =>
    simp only [List.foldl_cons]
    split
    · exact ih h hk hm hc
    · next ht =>
      rw [hk] at ht
      obtain ⟨H1, h1, ⟨t, h2⟩, h3⟩ := other_keeps h op
      obtain ⟨m1, v1⟩ := h3 i (by simpa using ht) hm
      have c1 : H1.order[c]? = some i := by
        rw [← h2, List.getElem?_append_left (List.getElem?_eq_some_iff.1 hc).1]; exact hc
      obtain ⟨H2, W, e2, i2, m2, v2, c2⟩ := ih (A := { A with dom := (call A.dom op).1 }) h1 hk m1 c1
      exact ⟨H2, W, e2, i2, m2, v2.trans v1, c2⟩

theorem core_nested {p : Program} {A : App} (h : Core p A) (hb : A.block ≠ .unstarted) (ops : List Op) :
    Core p (nested p ops A) ∧ (nested p ops A).clicks = A.clicks + 1 ∧ (nested p ops A).opened = A.opened ++ [A.clicks] := by
  obtain ⟨H, hf⟩ := h.fine
  rcases block_cases hb with hk | ⟨i, hk⟩
  · obtain ⟨H', W, e1, f1⟩ := fold_done (A.dom.listeners.filter fun l => l.target == 0 && l.type == 0) A hf.1
    have hf1 : Fine p ⟨W, A.block, A.prevented, A.clicks + 1, A.opened ++ [A.clicks]⟩ H' := by
      refine ⟨f1, ?_⟩
      have := hf.2
      simp only [hk] at this ⊢
      exact this
    obtain ⟨H2, W2, e2, f2, -⟩ := others_fine hf1 ops
    have hn : nested p ops A = ⟨W2, A.block, A.prevented, A.clicks + 1, A.opened ++ [A.clicks]⟩ := by
      simp only [nested, e1, if_neg h.fresh, e2]
      simp only [pollBlock, hk]
    rw [hn]
    exact ⟨core_done h hk f2, rfl, rfl⟩
  · have hm : Mine H i := by have := hf.2; rw [hk] at this; exact this
    obtain ⟨c, hc⟩ := Mine.place hf.1 hm
    obtain ⟨H1, W1, u, e1, i1, m1, v1, c1, u1⟩ :=
      fold_waits (A.dom.listeners.filter fun l => l.target == 0 && l.type == 0) A hf.1 hm.made hm.view hc.place
    rw [u1 (.inr (List.mem_filter.2 ⟨mine_listens hf.1 hm.made hm.view hc.place, rfl⟩))] at v1
    obtain ⟨H2, W2, e2, i2, m2, v2, c2⟩ := others_keep ops
      (A := ⟨W1, A.block, A.prevented, A.clicks + 1, A.opened ++ [A.clicks]⟩) i1 hk m1 c1
    rw [v1] at v2
    obtain ⟨H3, W3, b, e3, f3, k3, -, -⟩ := pollBlock_event (p := p)
      (A := ⟨W2, A.block, A.prevented, A.clicks + 1, A.opened ++ [A.clicks]⟩) i2 hk m2 v2 c2
    have hn : nested p ops A = ⟨W3, b, A.prevented ++ [A.clicks], A.clicks + 1, A.opened ++ [A.clicks]⟩ := by
      simp only [nested, e1, if_neg h.fresh, e2, e3]
    rw [hn]
    exact ⟨core_handled h hk f3 k3, rfl, rfl⟩

theorem opening_snoc (p : Program) (ks : List Bool) (b : Bool) :
    opening p (ks ++ [b]) = opening p ks ++ if b = true ∨ (p = .once ∧ ks.length ≠ 0) then [ks.length] else [] := by
  unfold opening
  rw [List.length_append, List.length_singleton, List.range_succ, List.filter_append]
  congr 1
  · refine List.filter_congr fun k hk => ?_
    rw [List.getElem?_append_left (List.mem_range.1 hk)]
  · rw [List.filter_singleton]
    simp only [List.getElem?_concat_length]
    by_cases hb : b = true <;> by_cases hp : p = .once <;> cases hl : ks.length <;> simp [hb, hp]

/-- The induction. -/
structure Mixed (p : Program) (A : App) (t : Bool × List Bool) : Prop where
  core : Core p A
  started : t.1 = true ↔ A.block ≠ .unstarted
  clicks : A.clicks = t.2.length
  opened : A.opened = opening p t.2

theorem mixed_run (p : Program) (as : List Act) : Mixed p (App.runActs p as) (tally as) := by
  unfold App.runActs tally
  induction as using List.reverseRecOn with
  | nil =>
    refine ⟨⟨⟨{}, inv_init, trivial⟩, fun _ => rfl, by cases p <;> rfl, fun _ => by simp [mount]⟩, by simp [mount], rfl, rfl⟩
  | append_singleton as a ih =>
    rw [List.foldl_append, List.foldl_append]
    generalize List.foldl (App.act p) mount as = A at ih
    generalize List.foldl _ (false, []) as = t at ih
    obtain ⟨s, ks⟩ := t
    simp only [List.foldl_cons, List.foldl_nil]
    obtain ⟨H, hf⟩ := ih.core.fine
    have hc := ih.core
    have hcl : A.clicks = ks.length := ih.clicks
    have hop : A.opened = opening p ks := ih.opened
    cases a with
    | self ops =>
      simp only [App.act]
      by_cases hb : A.block = .unstarted
      · have hs : s = false := by
          by_contra hx
          exact ih.started.1 (by simpa using hx) hb
        simp only [if_pos hb, hs, Bool.false_eq_true, if_false]
        exact hs ▸ ih
      · have hs : s = true := ih.started.2 hb
        obtain ⟨h1, h2, h3⟩ := core_nested hc hb ops
        simp only [if_neg hb, hs, if_true]
        have hbb : (nested p ops A).block ≠ .unstarted := (pollBlock_same _ _).1
        exact ⟨h1, by simp [hbb], by simp [h2, hcl], by rw [h3, opening_snoc, if_pos (.inl rfl), hop, hcl]⟩
    | event e =>
      simp only [App.act]
      cases e with
      | other op =>
        obtain ⟨H', W, e1, f1, -⟩ := others_fine hf [op]
        simp only [App.step, e1]
        exact ⟨⟨⟨H', f1⟩, hc.unstarted, hc.prevented, hc.once⟩, ih.started, ih.clicks, ih.opened⟩
      | run =>
        by_cases hb : A.block = .unstarted
        · obtain ⟨H', i, c, b1, w1, -, -⟩ := start_waits hf.1
          have hs : A.step p .run = start A := by simp only [App.step, pollBlock, hb]
          rw [hs]
          refine ⟨⟨⟨H', w1.inv, by rw [b1]; exact w1.mine⟩, fun hx => (by rw [b1] at hx; cases hx), hc.prevented, fun _ => ?_⟩,
            by simp [b1], ih.clicks, ih.opened⟩
          have : (start A).clicks = 0 := hc.unstarted hb
          rw [b1, this]; simp
        · obtain ⟨H', W, e1, f1, -⟩ := pollBlock_fine hf hb
          simp only [App.step, e1]
          exact ⟨⟨⟨H', f1⟩, hc.unstarted, hc.prevented, hc.once⟩, by simp [hb], ih.clicks, ih.opened⟩
      | click envs =>
        by_cases hb : A.block = .unstarted
        · have hs : s = false := by
            by_contra hx
            exact ih.started.1 (by simpa using hx) hb
          have : A.step p (.click envs) = A := by simp only [App.step, if_pos hb]
          simp only [this, hs, Bool.false_eq_true, if_false]
          exact hs ▸ ih
        · have hs : s = true := ih.started.2 hb
          obtain ⟨h1, h2, h3⟩ := core_click hc hb envs
          simp only [hs, if_true]
          have hbb : (A.step p (.click envs)).block ≠ .unstarted := fun hx => by
            have := h1.unstarted hx
            omega
          refine ⟨h1, by simp [hbb], by simp [h2, hcl], ?_⟩
          rw [h3, opening_snoc, hop, hcl]
          by_cases hx : p = .once ∧ ks.length ≠ 0
          · rw [if_pos hx, if_pos (.inr hx)]
          · rw [if_neg hx, if_neg (by simpa using hx), List.append_nil]

/-- **C84**, with clicks of the user and of the app in any order: `prevent_default` is called exactly on the clicks that the program means to stop, in
order, and the clicks that open the link are those of the app, and with a single `until_click().await` all but the first. -/
theorem mixed_clicks (p : Program) (as : List Act) :
    (App.runActs p as).prevented = stopped p (tally as).2.length ∧ (App.runActs p as).opened = opening p (tally as).2 := by
  have h := mixed_run p as
  exact ⟨by rw [h.core.prevented, h.clicks], h.opened⟩

/-- **C84.** In a loop and with the stream: a click opens the link if and only if the app has made it. A click of the app never makes a later click
of the user open it. -/
theorem opens_iff_by_app (p : Program) (hp : p ≠ .once) (as : List Act) (k : Nat) :
    k ∈ (App.runActs p as).opened ↔ (tally as).2[k]? = some true := by
  rw [(mixed_clicks p as).2, opening, List.mem_filter, List.mem_range]
  simp only [hp, decide_false, Bool.false_and, Bool.or_false, beq_iff_eq]
  exact ⟨fun h => h.2, fun h => ⟨(List.getElem?_eq_some_iff.1 h).1, h⟩⟩

/-- The user, the app, the user, with another stream on the link; before the first run the user clicks in vain. -/
example : let as := [.event (.click []), .event .run, .event (.other (.new 0 0)), .event (.other (.poll 1 7)), .event (.click []), .self [.poll 1 7], .event (.click [])]
    tally as = (true, [false, true, false]) ∧ (App.runActs .loop as).opened = [1] ∧ (App.runActs .loop as).prevented = [0, 1, 2] ∧
    (App.runActs .once as).opened = [1, 2] ∧ (App.runActs .once [.event .run, .self [], .event (.click [])]).opened = [0, 1] := by
  refine ⟨rfl, (mixed_clicks _ _).2, (mixed_clicks _ _).1, (mixed_clicks _ _).2, (mixed_clicks _ _).2⟩

/-- **C84, not for clicks by the app**: whatever has happened before, and with each of the programs, a click by the app itself opens the link. -/
theorem nested_always_opens (p : Program) (as : List Act) (ops : List Op) (h : (tally as).1 = true) :
    (App.runActs p (as ++ [.self ops])).opened = (App.runActs p as).opened ++ [(tally as).2.length] := by
  have hm := mixed_run p as
  have hb := hm.started.1 h
  have hs : App.runActs p (as ++ [.self ops]) = nested p ops (App.runActs p as) := by
    simp only [App.runActs, List.foldl_append, List.foldl_cons, List.foldl_nil, App.act]
    exact if_neg hb
  rw [hs, (core_nested hm.core hb ops).2.2, hm.clicks]

/-- Two clicks of the user that do not open the link, then one by the app that does. -/
example : let as := [.event .run, .event (.click []), .event .run, .event (.click [])]
    (tally as).1 = true ∧ (App.runActs .stream (as ++ [.self [.new 0 0]])).opened = [2] :=
  ⟨rfl, nested_always_opens .stream _ _ rfl⟩

end Verif.Apps.Link
