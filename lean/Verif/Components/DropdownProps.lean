import Verif.Components.DropdownSpec
import Verif.Components.DropdownLemmas2
import Verif.Lists.DiffedProps

/-!
# C39: what a Dropdown shows and selects

The full statement is: after every history, `shown D = (want ops).opts.map Prod.snd` and
`value D = (want ops).sel`.  It is false; see the counterexamples below.
-/

namespace Verif.Dropdown
open Verif.Lists (Smooth)

/-! ## Invariant -/

theorem view_opts_step (v : View) (w : Want) (op : Op) (h : v.opts = w.opts) :
    (v.next op).opts = (w.next op).opts := by
  cases op with
  | setValue k =>
    cases k with
    | none => exact h
    | some k => simp only [View.next, Want.next]; split <;> exact h
  | update opts => rfl
  | choose i =>
    simp only [View.next, Want.next]
    split <;> split <;> exact h

theorem fine_distinct {ops : List Op} (h : Fine ops) : Distinct ops := by
  induction ops with
  | nil => trivial
  | cons op ops ih =>
    cases op with
    | setValue k => exact ih h
    | update opts => exact ⟨h.1, ih h.2.2⟩
    | choose i => exact ih h

theorem base_setValue {D : State} {opts K} (h : Base D opts K) (k : Option Key) :
    Base (setValue D k) opts K := by
  unfold setValue
  split
  · exact base_look h (look_select _ _) rfl rfl rfl
  · exact base_look h (look_clear _) rfl rfl rfl

theorem base_choose {D : State} {opts K} (h : Base D opts K) (id : Nat) :
    Base { D with kids := select D.kids id } opts K :=
  base_look h (look_select _ _) rfl rfl rfl

theorem shown_base {D : State} {opts K} (h : Base D opts K) :
    ∃ tx, shown D = K.map tx ∧ opts.map Prod.snd = (opts.map Prod.fst).map tx := by
  obtain ⟨tx, h1, h2⟩ := h.rel
  refine ⟨tx, ?_, ?_⟩
  · have := congrArg (List.map Prod.snd) h1.look
    simpa [look, shown, Function.comp_def] using this
  · rw [List.map_map]
    apply List.map_congr_left
    intro o ho
    exact (h2 o ho).symm

/-- The options are there after any history. -/
theorem run_base {drain : List Key → List Key} (hdr : ∀ l, (drain l).Perm l) (ops : List Op) :
    ∀ (D : State) (w : Want) (K : List Key), Base D w.opts K → Distinct ops →
      ∃ D' K', run drain D ops = some D' ∧ Base D' (ops.foldl Want.next w).opts K' ∧
        (K = w.keys → SmoothRun w.keys ops → K' = (ops.foldl Want.next w).keys) := by
  induction ops with
  | nil => intro D w K h _; exact ⟨D, K, rfl, h, fun hK _ => hK⟩
  | cons op ops ih =>
    intro D w K h hd
    cases op with
    | setValue k =>
      obtain ⟨D', K', e, b, o⟩ := ih (setValue D k) (w.next (.setValue k)) K (base_setValue h k) hd
      exact ⟨D', K', by simp only [run, step, bind, Option.bind]; exact e, b, o⟩
    | update opts =>
      obtain ⟨D1, K1, e1, b1, -, o1, -⟩ := update_base hdr h hd.1
      obtain ⟨D', K', e, b, o⟩ := ih D1 (w.next (.update opts)) K1 b1 hd.2
      refine ⟨D', K', by simp only [run, step, e1, bind, Option.bind]; exact e, b, ?_⟩
      intro hK hs
      exact o ((o1 hK).2 hs.1) hs.2
    | choose i =>
      have hw : (w.next (.choose i)).opts = w.opts := by
        simp only [Want.next]; split <;> rfl
      have hwk : (w.next (.choose i)).keys = w.keys := by simp only [Want.keys, hw]
      cases hi : D.kids[i]? with
      | none =>
        obtain ⟨D', K', e, b, o⟩ := ih D (w.next (.choose i)) K (hw ▸ h) hd
        refine ⟨D', K', by simp only [run, step, hi, bind, Option.bind]; exact e, b, ?_⟩
        intro hK hs
        exact o (hK.trans hwk.symm) (hwk ▸ hs)
      | some x =>
        obtain ⟨D', K', e, b, o⟩ := ih _ (w.next (.choose i)) K (hw ▸ base_choose h x.id) hd
        refine ⟨D', K', by simp only [run, step, hi, bind, Option.bind]; exact e, b, ?_⟩
        intro hK hs
        exact o (hK.trans hwk.symm) (hwk ▸ hs)

/-- The selection, as long as the options are in order. -/
theorem run_view {drain : List Key → List Key} (hdr : ∀ l, (drain l).Perm l) (ops : List Op) :
    ∀ (D D' : State) (v : View), Base D v.opts v.keys → (∀ o ∈ v.opts, blank o.2 = false) →
      Sel D v.sel → (∀ k, v.sel = some k → k ∈ v.keys) → D.selected = v.memory →
      Fine ops → SmoothRun v.keys ops → run drain D ops = some D' →
      value D' = (ops.foldl View.next v).sel.or (ops.foldl View.next v).memory := by
  induction ops with
  | nil =>
    intro D D' v h _ hs hm hmem _ _ hr
    simp only [run, Option.some.injEq] at hr
    subst hr
    rw [value_eq h hs hm, hmem]; rfl
  | cons op ops ih =>
    intro D D' v h hb hs hm hmem hf hsm hr
    simp only [run, Option.bind_eq_bind, Option.bind_eq_some_iff] at hr
    obtain ⟨D1, e1, hr⟩ := hr
    simp only [List.foldl_cons]
    cases op with
    | setValue k =>
      simp only [step, Option.some.injEq] at e1
      subst e1
      have clr : Sel { D with kids := clear D.kids } none := sel_clear h hb rfl
      cases k with
      | none =>
        exact ih (setValue D none) D' (v.next (.setValue none)) (base_setValue h none) hb clr
          (fun k hk => by simp [View.next] at hk) hmem hf hsm hr
      | some k =>
        have hbs := base_setValue h (some k)
        cases hk : D.map k with
        | none =>
          have hkn : k ∉ v.keys := by
            intro hkm
            have := (h.map_dom k).1 hkm
            simp [hk] at this
          have e2 : v.next (.setValue (some k)) = { v with sel := none } := by
            simp [View.next, hkn]
          have e3 : setValue D (some k) = { D with kids := clear D.kids } := by
            simp [setValue, hk]
          rw [e2]
          rw [e3] at hr hbs
          exact ih _ D' { v with sel := none } hbs hb clr (fun k hk => by simp at hk) hmem hf hsm hr
        | some i =>
          have hkm : k ∈ v.keys := (h.map_dom k).2 (by simp [hk])
          have e2 : v.next (.setValue (some k)) = { v with sel := some k, memory := some k } := by
            simp [View.next, hkm]
          have e3 : setValue D (some k) = { D with kids := select D.kids i, selected := some k } := by
            simp [setValue, hk]
          rw [e2]
          rw [e3] at hr hbs
          exact ih _ D' { v with sel := some k, memory := some k } hbs hb (sel_select h hk rfl rfl)
            (fun k' hk' => by simp at hk'; subst hk'; exact hkm) rfl hf hsm hr
    | update opts =>
      obtain ⟨D2, K2, e2, b2, m2, o2, s2⟩ := update_base hdr h hf.1
      simp only [step] at e1
      rw [e2] at e1
      cases e1
      have hv := value_eq h hs hm
      rw [hmem] at hv
      have hK2 := (o2 rfl).2 hsm.1
      subst hK2
      refine ih D1 D' (v.next (.update opts)) b2 hf.2.1 ?_ ?_ ?_ hf.2.2 hsm.2 hr
      · have := s2 hf.2.1
        rw [hv] at this
        exact this
      · intro k hk
        have := Option.mem_filter_iff.1 (Option.mem_def.2 hk)
        exact of_decide_eq_true this.2
      · rw [m2, hv]; rfl
    | choose i =>
      obtain ⟨tx, h1, -⟩ := h.rel
      have hl : D.kids.length = v.keys.length := by
        have := congrArg List.length h1.look
        simpa [look] using this
      cases hi : D.kids[i]? with
      | none =>
        simp only [step, hi, Option.some.injEq] at e1
        subst e1
        have hv : v.keys[i]? = none := by
          rw [List.getElem?_eq_none_iff] at hi ⊢; omega
        have e2 : v.next (.choose i) = v := by simp [View.next, hv]
        rw [e2]
        exact ih D D' v h hb hs hm hmem hf hsm hr
      | some x =>
        simp only [step, hi, Option.some.injEq] at e1
        subst e1
        have hlt : i < v.keys.length := by
          rw [← hl]; exact (List.getElem?_eq_some_iff.1 hi).1
        have hk : v.keys[i]? = some v.keys[i] := List.getElem?_eq_getElem hlt
        obtain ⟨j, hj⟩ := h1.get (List.getElem_mem hlt)
        have hx : x.id = j := by
          have h3 : (look D.kids)[i]? = some (x.id, x.text) := by
            simp [look, hi]
          rw [h1.look, List.getElem?_map, hk] at h3
          simp only [Option.map_some, Option.some.injEq, Prod.mk.injEq, getD_eq hj] at h3
          exact h3.1.symm
        have e2 : v.next (.choose i) = { v with sel := some v.keys[i] } := by
          simp only [View.next, hk]
        rw [e2]
        exact ih _ D' { v with sel := some v.keys[i] } (base_choose h x.id) hb
          (sel_select h hj (by rw [hx]) rfl)
          (fun k' hk' => by
            simp only [Option.some.injEq] at hk'; subst hk'; exact List.getElem_mem hlt)
          hmem hf hsm hr

/-! ## What is shown -/

/-- With distinct options in each update nothing panics, and exactly the given options are shown, in
some order. -/
theorem dropdown_shows {drain : List Key → List Key} (hdr : ∀ l, (drain l).Perm l) {ops : List Op}
    (hd : Distinct ops) :
    ∃ D, run drain new ops = some D ∧ (shown D).Perm ((want ops).opts.map Prod.snd) := by
  obtain ⟨D', K', e, b, -⟩ := run_base hdr ops new {} [] base_new hd
  refine ⟨D', e, ?_⟩
  obtain ⟨tx, s1, s2⟩ := shown_base b
  change (shown D').Perm ((ops.foldl Want.next {}).opts.map Prod.snd)
  rw [s1, s2]
  exact b.perm.map tx

/-- If, in addition, every update is smooth after the one before, the options are in the order
given.  Missing: updates that are not smooth. -/
theorem dropdown_order_partial {drain : List Key → List Key} (hdr : ∀ l, (drain l).Perm l)
    {ops : List Op} (hd : Distinct ops) (hs : SmoothRun [] ops) {D : State}
    (hr : run drain new ops = some D) : shown D = (want ops).opts.map Prod.snd := by
  obtain ⟨D', K', e, b, o⟩ := run_base hdr ops new {} [] base_new hd
  rw [hr] at e; cases e
  obtain ⟨tx, s1, s2⟩ := shown_base b
  change shown D = (ops.foldl Want.next {}).opts.map Prod.snd
  rw [s1, s2, o rfl hs]; rfl

theorem run_append (drain : List Key → List Key) (ops ops' : List Op) :
    ∀ D, run drain D (ops ++ ops') = (run drain D ops).bind fun D => run drain D ops' := by
  induction ops with
  | nil => intro D; rfl
  | cons op ops ih =>
    intro D
    simp only [List.cons_append, run, Option.bind_eq_bind]
    cases step drain D op with
    | none => rfl
    | some D1 => exact ih D1

theorem map_injOn {α β : Type _} {f : α → β} {a b c : List α} (hn : (c.map f).Nodup)
    (ha : ∀ x ∈ a, x ∈ c) (hb : ∀ x ∈ b, x ∈ c) (h : a.map f = b.map f) : a = b := by
  have inj : ∀ x ∈ c, ∀ y ∈ c, f x = f y → x = y := by
    clear ha hb h
    induction c with
    | nil => simp
    | cons z zs ih =>
      simp only [List.map_cons, List.nodup_cons, List.mem_map, not_exists, not_and] at hn
      intro x hx y hy e
      rcases List.mem_cons.1 hx with hx | hx <;> rcases List.mem_cons.1 hy with hy | hy
      · rw [hx, hy]
      · exact absurd (by rw [← e, hx]) (hn.1 y hy)
      · exact absurd (by rw [e, hy]) (hn.1 x hx)
      · exact ih hn.2 x hx y hy e
  induction a generalizing b with
  | nil => cases b with
    | nil => rfl
    | cons => simp at h
  | cons x xs ih =>
    cases b with
    | nil => simp at h
    | cons y ys =>
      simp only [List.map_cons, List.cons.injEq] at h
      rw [inj x (ha x (by simp)) y (hb y (by simp)) h.1,
        ih (fun z hz => ha z (by simp [hz])) (fun z hz => hb z (by simp [hz])) h.2]

/-- After a history whose order is right, one more update shows its options in order exactly if it is
smooth (provided the texts tell the options apart). -/
theorem dropdown_order_iff {drain : List Key → List Key} (hdr : ∀ l, (drain l).Perm l)
    {ops : List Op} (hd : Distinct ops) (hs : SmoothRun [] ops) {opts : List (Key × Text)}
    (hn : (opts.map Prod.fst).Nodup) (ht : (opts.map Prod.snd).Nodup) :
    ∃ D, run drain new (ops ++ [.update opts]) = some D ∧
      (shown D = opts.map Prod.snd ↔ Smooth (want ops).keys (opts.map Prod.fst)) := by
  obtain ⟨D', K', e, b, o⟩ := run_base hdr ops new {} [] base_new hd
  obtain ⟨D2, K2, e2, b2, -, o2, -⟩ := update_base hdr b hn
  refine ⟨D2, by rw [run_append, e]; simp [run, step, e2], ?_⟩
  rw [show Smooth (want ops).keys (opts.map Prod.fst) ↔ K2 = opts.map Prod.fst from
    (o2 (o rfl hs)).symm]
  obtain ⟨tx, s1, s2⟩ := shown_base b2
  rw [s1, s2]
  constructor
  · intro h
    refine map_injOn (c := opts.map Prod.fst) (by rw [← s2]; exact ht) ?_ (fun x hx => hx) h
    intro x hx; exact b2.perm.mem_iff.1 hx
  · rintro rfl; rfl

/-! ## What is selected -/

/-- The value, exactly, for smooth updates of distinct options with non-blank texts. -/
theorem dropdown_value {drain : List Key → List Key} (hdr : ∀ l, (drain l).Perm l)
    {ops : List Op} (hf : Fine ops) (hs : SmoothRun [] ops) {D : State}
    (hr : run drain new ops = some D) : value D = (view ops).sel.or (view ops).memory :=
  run_view hdr ops new D {} base_new (by simp) (by simp [Sel, new]) (by simp) rfl hf hs hr

theorem view_want (ops : List Op) : ∀ (v : View) (w : Want), v.toWant = w →
    (w.sel = none → v.memory = none) → Kept w ops →
    (ops.foldl View.next v).toWant = ops.foldl Want.next w ∧
    ((ops.foldl Want.next w).sel = none → (ops.foldl View.next v).memory = none) := by
  induction ops with
  | nil => intro v w h hm _; exact ⟨h, hm⟩
  | cons op ops ih =>
    intro v w h hm hk
    subst h
    simp only [List.foldl_cons]
    have key : (v.next op).toWant = v.toWant.next op ∧
        ((v.toWant.next op).sel = none → (v.next op).memory = none) := by
      have hk1 := hk.1
      cases op with
      | setValue k =>
        cases k with
        | none =>
          cases hv : v.sel with
          | none => exact ⟨rfl, fun _ => hm hv⟩
          | some k0 => exact absurd rfl (hk1 (by simp [hv]))
        | some k =>
          by_cases hkm : k ∈ v.keys
          · simp [View.next, Want.next, hkm, Option.filter_some]
          · have e : (v.toWant.next (.setValue (some k))).sel = none := by
              simp [Want.next, hkm, Option.filter_some]
            cases hv : v.sel with
            | none => simp [View.next, Want.next, hkm, hm hv, Option.filter_some]
            | some k0 => exact absurd e (hk1 (by simp [hv]))
      | update opts =>
        cases hv : v.sel with
        | none =>
          have := hm hv
          simp [View.next, Want.next, hv, this]
        | some k0 =>
          have := hk1 (by simp [hv])
          refine ⟨by simp [View.next, Want.next, hv], fun e => absurd e this⟩
      | choose i =>
        cases hi : v.keys[i]? with
        | none =>
          simp only [View.next, Want.next, hi]
          exact ⟨trivial, hm⟩
        | some k => simp [View.next, Want.next, hi]
    exact ih _ _ key.1 key.2 hk.2

/-- If nothing is ever deselected, the value is the selected option.  Missing: histories in which
something is deselected, updates that are not smooth, and blank texts. -/
theorem dropdown_value_partial {drain : List Key → List Key} (hdr : ∀ l, (drain l).Perm l)
    {ops : List Op} (hf : Fine ops) (hs : SmoothRun [] ops) (hk : Kept {} ops) {D : State}
    (hr : run drain new ops = some D) : value D = (want ops).sel := by
  rw [dropdown_value hdr hf hs hr]
  obtain ⟨h1, h2⟩ := view_want ops {} {} rfl (fun _ => rfl) hk
  have h3 : (view ops).sel = (want ops).sel := congrArg Want.sel h1
  rw [h3]
  cases hw : (want ops).sel with
  | some k => rfl
  | none => rw [show (view ops).memory = none from h2 hw]; rfl

/-- `Some` is always right if an option is selected, also after something was deselected. -/
theorem dropdown_value_set {drain : List Key → List Key} (hdr : ∀ l, (drain l).Perm l)
    {ops : List Op} (hf : Fine ops) (hs : SmoothRun [] ops) {k : Key} (hk : k ∈ (want ops).keys)
    {D : State} (hr : run drain new (ops ++ [.setValue (some k)]) = some D) : value D = some k := by
  have app : ∀ ops, Fine ops → Fine (ops ++ [.setValue (some k)]) := by
    intro ops
    induction ops with
    | nil => intro _; trivial
    | cons op ops ih =>
      intro h
      cases op with
      | setValue k => exact ih h
      | update opts => exact ⟨h.1, h.2.1, ih h.2.2⟩
      | choose i => exact ih h
  have app2 : ∀ ops p, SmoothRun p ops → SmoothRun p (ops ++ [.setValue (some k)]) := by
    intro ops
    induction ops with
    | nil => intro _ _; trivial
    | cons op ops ih =>
      intro p h
      cases op with
      | setValue k => exact ih p h
      | update opts => exact ⟨h.1, ih _ h.2⟩
      | choose i => exact ih p h
  rw [dropdown_value hdr (app _ hf) (app2 _ _ hs) hr]
  have hopts : ∀ (ops : List Op) (v : View) (w : Want), v.opts = w.opts →
      (ops.foldl View.next v).opts = (ops.foldl Want.next w).opts := by
    intro ops
    induction ops with
    | nil => intro v w h; exact h
    | cons op ops ih => intro v w h; exact ih _ _ (view_opts_step v w op h)
  have hk' : k ∈ (view ops).keys := by
    have := hopts ops {} {} rfl
    rw [show (view ops).keys = (want ops).keys from congrArg (List.map Prod.fst) this]
    exact hk
  have hv : (view (ops ++ [.setValue (some k)])).sel = some k := by
    unfold view
    rw [List.foldl_append]
    change (View.next (view ops) (.setValue (some k))).sel = some k
    simp [View.next, hk']
  rw [hv]; rfl

/-! ## Concrete cases -/

local macro "smooth" : tactic =>
  `(tactic| repeat' first
    | apply And.intro
    | (exact Verif.Lists.smooth_of_same_order (by decide) (by decide)))

private def a : Text := ['a']
private def b : Text := ['b']
private def c : Text := ['c']

/-- A history that meets the hypotheses of all theorems above. -/
private def good : List Op :=
  [.update [(1, a), (2, b)], .setValue (some 2), .update [(1, b), (3, a), (2, c)], .choose 1]

example : Distinct good ∧ Fine good ∧ Kept {} good := by
  simp [good, Distinct, Fine, Kept, Want.next, Want.keys, a, b, c, blank, isSpace]

example : SmoothRun [] good := by
  simp only [good, SmoothRun, and_true]
  smooth

example : (run id new good).map (fun D => (shown D, value D)) = some ([b, a, c], some 3) := by
  decide +kernel

/-! ## Counterexamples -/

/-- `set_value(None)` deselects in the browser, but `value` still returns the option that was
selected. -/
theorem dropdown_deselect_fails : ∃ ops, Fine ops ∧ SmoothRun [] ops ∧ (want ops).sel = none ∧
    (run id new ops).map value = some (some 1) :=
  ⟨[.update [(1, a), (2, b)], .setValue (some 1), .setValue none],
    by simp [Fine, a, b, blank, isSpace], by simp only [SmoothRun, and_true]; smooth, by decide,
    by decide +kernel⟩

/-- The next update even selects it again. -/
theorem dropdown_reselects : ∃ ops, Fine ops ∧ SmoothRun [] ops ∧ (want ops).sel = none ∧
    (run id new ops).map (fun D => selectedIndex D.kids) = some (some 0) :=
  ⟨[.update [(1, a), (2, b)], .setValue (some 1), .setValue none, .update [(1, a), (2, b)]],
    by simp [Fine, a, b, blank, isSpace], by simp only [SmoothRun, and_true]; smooth, by decide,
    by decide +kernel⟩

/-- `value` returns an option that has been taken away. -/
theorem dropdown_removed_value : ∃ ops, Fine ops ∧ SmoothRun [] ops ∧ 1 ∉ (want ops).keys ∧
    (run id new ops).map value = some (some 1) :=
  ⟨[.update [(1, a), (2, b)], .setValue (some 1), .update [(2, b)]],
    by simp [Fine, a, b, blank, isSpace], by simp only [SmoothRun, and_true]; smooth, by decide,
    by decide +kernel⟩

/-- An update that is not smooth shows the options in the wrong order, and the user who chooses the
option with the text `c` gets the option whose text is `b`. -/
theorem dropdown_wrong_choice : ∃ ops, Fine ops ∧
    (want ops).opts = [(2, b), (1, a), (3, c)] ∧
    (run id new ops).map shown = some [c, b, a] ∧
    (run id new (ops ++ [.choose 0])).map value = some (some 2) :=
  ⟨[.update [(1, a), (2, b), (3, c)], .update [(2, b), (1, a), (3, c)]],
    by simp [Fine, a, b, c, blank, isSpace], by decide, by decide +kernel, by decide +kernel⟩

/-- An option with blank text is selected by `set_value(None)`. -/
theorem dropdown_blank : ∃ ops, Distinct ops ∧ SmoothRun [] ops ∧ (want ops).sel = none ∧
    (run id new ops).map value = some (some 2) :=
  ⟨[.update [(1, a), (2, [])], .setValue none],
    by simp [Distinct], by simp only [SmoothRun, and_true]; smooth, by decide, by decide +kernel⟩

/-- With a repeated option an option that was taken away stays on the screen, and the next update
can panic. -/
theorem dropdown_repeated :
    ((run id new [.update [(1, a), (1, b)], .update [(2, c)]]).map shown = some [a, c]) ∧
    (run id new [.update [(1, a), (1, b)], .update [(1, a), (1, b)]]).isNone = true := by
  constructor <;> decide +kernel

end Verif.Dropdown
