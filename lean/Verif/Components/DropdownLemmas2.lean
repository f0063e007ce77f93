import Verif.Components.DropdownLemmas

/-! # `Dropdown::update_options` as a whole, and the selection -/

namespace Verif.Dropdown
open Verif.Lists (diffLoop diffLoop_perm diffLoop_order keyStep kPlace kBefore KeysOk Smooth smooth_iff)

theorem dedup_eq {l : List Key} (h : l.Nodup) : dedup l = l := by
  induction l with
  | nil => rfl
  | cons x xs ih =>
    rw [List.nodup_cons] at h
    rw [dedup, ih h.2, Verif.Lists.filter_ne_of_notMem h.1]

/-- The keys after an update. -/
theorem diff_keys {drain : List Key → List Key} (hdr : ∀ l, (drain l).Perm l) {prev keys K : List Key}
    (hprev : prev.Nodup) (hkn : keys.Nodup) (mk : Key → Nat × Nat) (hK : K.Perm prev) :
    (drain (diffLoop mk prev prev keys).2).Nodup ∧
    (∀ k ∈ drain (diffLoop mk prev prev keys).2, k ∈ (diffLoop mk prev prev keys).1.foldl keyStep K) ∧
    (((diffLoop mk prev prev keys).1.foldl keyStep K).filter
      fun x => decide (x ∉ drain (diffLoop mk prev prev keys).2)).Perm keys ∧
    (K = prev → ((((diffLoop mk prev prev keys).1.foldl keyStep K).filter
      fun x => decide (x ∉ drain (diffLoop mk prev prev keys).2)) = keys ↔ Smooth prev keys)) := by
  have hKn : K.Nodup := hK.nodup_iff.2 hprev
  obtain ⟨-, hperm1, hrest⟩ := diffLoop_perm (mk := mk) keys prev prev K [] hKn
    (by simpa using hK) hkn (by simp) (by simp)
  have hsub : (diffLoop mk prev prev keys).2.Nodup := by
    have gen : ∀ (ks set it : List Key), set.Nodup → (diffLoop mk set it ks).2.Nodup := by
      intro ks
      induction ks with
      | nil => intro set it h; exact h
      | cons k ks ih =>
        intro set it h
        simp only [diffLoop]
        split
        · split
          · exact ih _ _ (h.filter _)
          · exact ih _ _ (h.filter _)
        · exact ih _ _ h
    exact gen _ _ _ hprev
  generalize (diffLoop mk prev prev keys).2 = rest at *
  have hdm : ∀ k, k ∈ drain rest ↔ k ∈ prev ∧ k ∉ keys := fun k => (hdr rest).mem_iff.trans (hrest k)
  refine ⟨(hdr rest).nodup_iff.2 hsub, ?_, ?_, ?_⟩
  · intro k hk
    rw [hperm1.mem_iff]
    exact List.mem_append_right _ ((hdr rest).mem_iff.1 hk)
  · refine (hperm1.filter _).trans ?_
    rw [List.nil_append, List.filter_append]
    have e1 : keys.filter (fun x => decide (x ∉ drain rest)) = keys := by
      rw [List.filter_eq_self]
      intro x hx
      simp only [decide_eq_true_eq]
      exact fun hm => ((hdm x).1 hm).2 hx
    have e2 : rest.filter (fun x => decide (x ∉ drain rest)) = [] := by
      rw [List.filter_eq_nil_iff]
      intro x hx
      simp only [decide_eq_true_eq, Decidable.not_not]
      exact (hdr rest).mem_iff.2 hx
    rw [e1, e2, List.append_nil]
  · rintro rfl
    have hfil : K.filter (fun x => decide (x ∉ ([] : List Key))) = K := by
      rw [List.filter_eq_self]; simp
    obtain ⟨R, r1, r2, r3⟩ := diffLoop_order (mk := mk) keys K K []
      (by rw [List.nil_append, hfil]; exact hprev) hprev hkn (by simp) (by simp)
    simp only [List.nil_append, hfil] at r2 r3
    have hR : R.filter (fun x => decide (x ∉ drain rest)) = [] := by
      rw [List.filter_eq_nil_iff]
      intro x hx
      simp only [decide_eq_true_eq, Decidable.not_not]
      exact (hdm x).2 (r1 x hx)
    have hKf : ∀ (S : List Key), (∀ x ∈ S, x ∈ keys) → S.filter (fun x => decide (x ∉ drain rest)) = S := by
      intro S hS
      rw [List.filter_eq_self]
      intro x hx
      simp only [decide_eq_true_eq]
      exact fun hm => ((hdm x).1 hm).2 (hS x hx)
    rw [smooth_iff]
    constructor
    · intro hk
      apply Classical.byContradiction
      intro hns
      obtain ⟨A1, p, A2, B, g1, g2, g3, g4⟩ := r3 hns
      rw [g4, List.filter_append, List.filter_append, List.filter_cons, List.filter_append, hR,
        hKf A1 (by rw [g3]; intro x hx; simp [hx]), hKf B (by rw [g3]; intro x hx; simp [hx]),
        hKf A2 (by rw [g3]; intro x hx; simp [hx])] at hk
      have hpk : p ∉ drain rest := fun hm => ((hdm p).1 hm).2 (by rw [g3]; simp)
      rw [if_pos (by simpa using hpk)] at hk
      rw [g3, List.append_assoc, List.append_cancel_left_eq] at hk
      cases B with
      | nil => exact g1 rfl
      | cons b B =>
        simp only [List.cons_append, List.cons.injEq] at hk
        exact g2 (by rw [hk.1]; simp)
    · intro hs
      rw [r2 hs, List.filter_append, hR, hKf keys (fun x hx => hx), List.append_nil]

/-- What holds after any history of updates with distinct keys: `K` are the keys of the options
shown. -/
structure Base (D : State) (opts : List (Key × Text)) (K : List Key) : Prop where
  rel : ∃ tx, Rel D.kids D.map D.next K tx ∧ ∀ o ∈ opts, tx o.1 = o.2
  prev : D.prev = opts.map Prod.fst
  perm : K.Perm (opts.map Prod.fst)
  nodup : (opts.map Prod.fst).Nodup

/-- Which option is selected. -/
def Sel (D : State) (s : Option Key) : Prop :=
  ∀ e ∈ D.kids, ∀ k, D.map k = some e.id → (e.sel = true ↔ s = some k)

theorem base_new : Base new [] [] :=
  ⟨⟨fun _ => [], ⟨rfl, by simp [new], by simp [new], by simp [new], by simp⟩, by simp⟩, rfl, by simp,
    by simp⟩

theorem base_look {D D' : State} {opts K} (h : Base D opts K) (hl : look D'.kids = look D.kids)
    (hm : D'.map = D.map) (hn : D'.next = D.next) (hp : D'.prev = D.prev) : Base D' opts K := by
  obtain ⟨⟨tx, h1, h2⟩, h3, h4, h5⟩ := h
  refine ⟨⟨tx, ⟨by rw [hl, hm]; exact h1.look, ?_, ?_, ?_, h1.nodup⟩, h2⟩, by rw [hp, h3], h4, h5⟩
  · rw [hm]; exact h1.dom
  · rw [hm]; exact h1.inj
  · rw [hm, hn]; exact h1.lt

theorem Base.map_dom {D : State} {opts K} (h : Base D opts K) (k : Key) :
    k ∈ opts.map Prod.fst ↔ (D.map k).isSome = true := by
  obtain ⟨tx, h1, h2⟩ := h.rel
  rw [← h.perm.mem_iff]; exact h1.dom k

theorem Base.mem_id {D : State} {opts K} (h : Base D opts K) {k : Key} {i : Nat} (hk : D.map k = some i) :
    ∃ e ∈ D.kids, e.id = i := by
  obtain ⟨tx, h1, h2⟩ := h.rel
  have hkK : k ∈ K := (h1.dom k).2 (by simp [hk])
  have : i ∈ D.kids.map (·.id) := by
    rw [look_ids, h1.look]
    simp only [List.map_map, List.mem_map, Function.comp]
    exact ⟨k, hkK, getD_eq hk⟩
  obtain ⟨e, he, hei⟩ := List.mem_map.1 this
  exact ⟨e, he, hei⟩

theorem sel_select {D D' : State} {opts K} (h : Base D opts K) {k : Key} {i : Nat}
    (hk : D.map k = some i) (hD : D'.kids = select D.kids i) (hm : D'.map = D.map) : Sel D' (some k) := by
  obtain ⟨tx, h1, h2⟩ := h.rel
  intro e he k' hk'
  rw [hD] at he
  simp only [select, List.mem_map] at he
  obtain ⟨e0, he0, rfl⟩ := he
  rw [hm] at hk'
  simp only [beq_iff_eq, Option.some.injEq]
  simp only at hk'
  constructor
  · intro hi; rw [hi] at hk'; exact h1.inj _ _ _ hk hk'
  · rintro rfl; rw [hk] at hk'; exact (Option.some.inj hk').symm

theorem sel_clear {D D' : State} {opts K} (h : Base D opts K) (hb : ∀ o ∈ opts, blank o.2 = false)
    (hD : D'.kids = clear D.kids) : Sel D' none := by
  obtain ⟨tx, h1, h2⟩ := h.rel
  have hnb : D.kids.find? (fun e => blank e.text) = none := by
    rw [List.find?_eq_none]
    intro e he
    have : (e.id, e.text) ∈ look D.kids := List.mem_map.2 ⟨e, he, rfl⟩
    rw [h1.look, List.mem_map] at this
    obtain ⟨k, hk, hkk⟩ := this
    rw [h.perm.mem_iff] at hk
    obtain ⟨o, ho, rfl⟩ := List.mem_map.1 hk
    simp only [Prod.mk.injEq] at hkk
    rw [← hkk.2, h2 o ho, hb o ho]
    simp
  intro e he k _
  rw [hD, clear, hnb] at he
  simp only [List.mem_map] at he
  obtain ⟨e0, -, rfl⟩ := he
  simp

theorem update_base {drain : List Key → List Key} (hdr : ∀ l, (drain l).Perm l) {D : State}
    {opts0 : List (Key × Text)} {K : List Key} (h : Base D opts0 K) {opts : List (Key × Text)}
    (hn : (opts.map Prod.fst).Nodup) :
    ∃ D' K', update drain D opts = some D' ∧ Base D' opts K' ∧ D'.selected = value D ∧
      (K = opts0.map Prod.fst → (K' = opts.map Prod.fst ↔ Smooth (opts0.map Prod.fst) (opts.map Prod.fst))) ∧
      ((∀ o ∈ opts, blank o.2 = false) → Sel D' ((value D).filter (· ∈ opts.map Prod.fst))) := by
  obtain ⟨⟨tx, h1, h2⟩, h3, h4, h5⟩ := h
  have hprevn : D.prev.Nodup := h3 ▸ h5
  obtain ⟨D1, tx1, p1, p2, p3, -, p5⟩ := putAll_rel (fun _ => (0, 0)) opts { D with selected := value D }
    D.prev D.prev K [] tx h1 (by simpa [h3] using h4) hn (by simp) (by simp)
  obtain ⟨q1, q2, q3, q4⟩ := diff_keys hdr hprevn hn (fun _ => (0, 0)) (h3 ▸ h4)
  generalize hrest : (diffLoop (fun _ => (0, 0)) D.prev D.prev (opts.map Prod.fst)).2 = rest at *
  generalize hops : (diffLoop (fun _ => (0, 0)) D.prev D.prev (opts.map Prod.fst)).1 = ops at *
  obtain ⟨D2, r1, r2, r3⟩ := removeAll_rel (drain rest) D1 _ tx1 p2 q1 q2
  have hb : Base { D2 with prev := opts.map Prod.fst } opts
      ((ops.foldl keyStep K).filter fun x => decide (x ∉ drain rest)) :=
    ⟨⟨tx1, r2, p3⟩, rfl, q3, hn⟩
  have hsel : D2.selected = value D := r3.trans p5
  have hupd : update drain D opts = (match D2.selected.bind D2.map with
      | some id => some { D2 with prev := opts.map Prod.fst, kids := select D2.kids id }
      | none => some { D2 with prev := opts.map Prod.fst, kids := clear D2.kids }) := by
    simp only [update, dedup_eq hprevn, p1, r1, bind, Option.bind]
    cases D2.selected with
    | none => rfl
    | some a => cases h : D2.map a <;> simp [h]
  have hiff : K = opts0.map Prod.fst →
      (((ops.foldl keyStep K).filter fun x => decide (x ∉ drain rest)) = opts.map Prod.fst ↔
        Smooth (opts0.map Prod.fst) (opts.map Prod.fst)) := by
    intro hK; rw [← h3]; exact q4 (by rw [hK, h3])
  cases hv : D2.selected.bind D2.map with
  | some i =>
    obtain ⟨k, hk1, hk2⟩ := Option.bind_eq_some_iff.1 hv
    refine ⟨{ D2 with prev := opts.map Prod.fst, kids := select D2.kids i }, _, by rw [hupd, hv],
      base_look hb (look_select _ _) rfl rfl rfl, hsel, hiff, ?_⟩
    intro _
    have hkm : k ∈ opts.map Prod.fst := (hb.map_dom k).2 (by simp [hk2])
    rw [hsel] at hk1
    rw [hk1]
    have := sel_select (D := { D2 with prev := opts.map Prod.fst })
      (D' := { D2 with prev := opts.map Prod.fst, kids := select D2.kids i }) hb hk2 rfl rfl
    rw [Option.filter_some, if_pos (by simpa using hkm)]
    exact this
  | none =>
    refine ⟨{ D2 with prev := opts.map Prod.fst, kids := clear D2.kids }, _, by rw [hupd, hv],
      base_look hb (look_clear _) rfl rfl rfl, hsel, hiff, ?_⟩
    intro hbl
    have := sel_clear (D := { D2 with prev := opts.map Prod.fst })
      (D' := { D2 with prev := opts.map Prod.fst, kids := clear D2.kids }) hb hbl rfl
    have hnone : (value D).filter (· ∈ opts.map Prod.fst) = none := by
      cases hvd : value D with
      | none => rfl
      | some k =>
        rw [hsel, hvd] at hv
        simp only [Option.bind_some] at hv
        have : k ∉ opts.map Prod.fst := by
          rw [hb.map_dom k]; simp [hv]
        rw [Option.filter_some, if_neg (by simpa using this)]
    rw [hnone]; exact this

/-- When the options are shown in order, `value` is what is selected or else what is remembered. -/
theorem value_eq {D : State} {opts : List (Key × Text)} (h : Base D opts (opts.map Prod.fst))
    {s : Option Key} (hs : Sel D s) (hmem : ∀ k, s = some k → k ∈ opts.map Prod.fst) :
    value D = s.or D.selected := by
  obtain ⟨⟨tx, h1, h2⟩, h3, h4, h5⟩ := h
  have hidx : selectedIndex D.kids = (opts.map Prod.fst).findIdx? (fun x => decide (s = some x)) := by
    unfold selectedIndex
    have hl : D.kids.length = (opts.map Prod.fst).length := by
      have := congrArg List.length h1.look
      simpa [look] using this
    have hpt : ∀ (j : Nat) (hj : j < D.kids.length),
        (D.kids[j]).sel = decide (s = some ((opts.map Prod.fst)[j]'(hl ▸ hj))) := by
      intro j hj
      have hk : (opts.map Prod.fst)[j]'(hl ▸ hj) ∈ opts.map Prod.fst := List.getElem_mem _
      obtain ⟨i, hi⟩ := h1.get hk
      have hl2 : (look D.kids)[j]'(by simpa [look] using hj) =
          ((D.map ((opts.map Prod.fst)[j]'(hl ▸ hj))).getD 0, tx ((opts.map Prod.fst)[j]'(hl ▸ hj))) := by
        simp only [h1.look, List.getElem_map]
      have hid : (D.kids[j]).id = i := by
        have := congrArg Prod.fst hl2
        simp only [look, List.getElem_map] at this
        rw [this]
        rw [List.getElem_map] at hi
        simp [hi]
      have := hs (D.kids[j]) (List.getElem_mem _) _ (by rw [hid]; exact hi)
      cases hsel : (D.kids[j]).sel with
      | true => symm; exact decide_eq_true (this.1 hsel)
      | false =>
        symm; apply decide_eq_false
        intro e
        rw [this.2 e] at hsel; cases hsel
    have : D.kids.map (·.sel) = (opts.map Prod.fst).map (fun x => decide (s = some x)) := by
      apply List.ext_getElem
      · simpa using hl
      · intro j hj1 hj2
        simp only [List.getElem_map]
        have := hpt j (by simpa using hj1)
        simpa using this
    have e1 : D.kids.findIdx? (·.sel) = (D.kids.map (·.sel)).findIdx? id := by
      rw [List.findIdx?_map]; rfl
    have e2 : (opts.map Prod.fst).findIdx? (fun x => decide (s = some x)) =
        ((opts.map Prod.fst).map (fun x => decide (s = some x))).findIdx? id := by
      rw [List.findIdx?_map (l := opts.map Prod.fst)]; rfl
    rw [e1, e2, this]
  unfold value
  rw [hidx, h3]
  cases s with
  | none =>
    have : (opts.map Prod.fst).findIdx? (fun x => decide (none = some x)) = none := by
      rw [List.findIdx?_eq_none_iff]; simp
    rw [this]; simp
  | some k =>
    have hk := hmem k rfl
    cases hf : (opts.map Prod.fst).findIdx? (fun x => decide (some k = some x)) with
    | none =>
      rw [List.findIdx?_eq_none_iff] at hf
      have := hf k hk
      simp at this
    | some i =>
      rw [List.findIdx?_eq_some_iff_getElem] at hf
      obtain ⟨hi, he, -⟩ := hf
      have he : k = (opts.map Prod.fst)[i] := by simpa using he
      simp only [Option.bind_some]
      rw [List.getElem?_eq_getElem hi, ← he]

end Verif.Dropdown
