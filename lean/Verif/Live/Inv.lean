import Verif.Live.Facts
/-!
# What an idle app has seen: the general theorem
-/
namespace Verif.Live
open Verif Nested

section
variable {Z : Source} {V S O : Type}

/-- A poll of the block has begun since. -/
def Stale (log : List Note) (g : Given) : Prop := .polled g.place ∈ log.take (log.length - g.log)

theorem current_iff (w : World Z V S O) (g : Given) : current w g = true ↔ ¬ Stale w.app.sys.log g := by
  simp [current, Stale]

theorem stale_append {new log : List Note} {g : Given} (hg : g.log ≤ log.length) :
    Stale (new ++ log) g ↔ .polled g.place ∈ new ∨ Stale log g := by
  have : (new ++ log).length - g.log = new.length + (log.length - g.log) := by
    rw [List.length_append]; omega
  rw [Stale, this, List.take_length_add_append, List.mem_append]
  rfl

structure LInv (s0 : Z.σ) (w : World Z V S O) : Prop where
  hist : Hist Z s0 w.hist w.src
  given : ∀ n g, w.given[n]? = some g → g.log ≤ w.app.sys.log.length ∧
    ∃ o out k, w.hist[g.hist]? = some (o, out) ∧ Z.polls o out = some (k, n)
  woken : ∀ n g, w.given[n]? = some g → (∃ e ∈ w.hist.drop (g.hist + 1), n ∈ Z.wakes e.2) →
    n ∈ w.todo ∨ Stale w.app.sys.log g ∨ NeedsPoll g.place w.app.sys.log ∨ w.app.sys.waking = some g.place
  awaits : ∀ k n, (k, n) ∈ w.awaits → ∃ g o out, w.given[n]? = some g ∧ w.hist[g.hist]? = some (o, out) ∧
    Z.polls o out = some (k, n) ∧ (∀ e ∈ w.hist.drop (g.hist + 1), (∀ m, Z.polls e.1 e.2 ≠ some (k, m)) ∧ (Z.polls e.1 e.2 = none → Z.drops e.1 ≠ some k)) ∧
    (¬ Stale w.app.sys.log g ∨ g.place ∈ places w.app.sys ∨ .returned g.place ∈ w.app.sys.log)

theorem init_linv (s0 : Z.σ) : LInv s0 (init s0 : World Z V S O) :=
  ⟨.nil _, by simp [init], by simp [init], by simp [init]⟩

/-- A step of the app. -/
theorem app_linv {s0 : Z.σ} {w : World Z V S O} {e : App.Event V S O} {a : App.App V S O} {todo : List Nat}
    (h : LInv s0 w) (hs : App.step w.app e = some a) (hm : mayHappen w e = true)
    (ht : ∀ n g, w.given[n]? = some g → n ∈ w.todo → n ∈ todo ∨ a.sys.waking = some g.place) :
    LInv s0 { w with app := a, todo := todo } := by
  obtain ⟨⟨new, hlog, hnew⟩, hstk, hwak⟩ := app_change hs
  refine ⟨h.hist, ?_, ?_, ?_⟩
  · intro n g hg
    obtain ⟨h1, h2⟩ := h.given n g hg
    refine ⟨?_, h2⟩
    simp only [hlog, List.length_append]; omega
  · intro n g hg hw
    have h1 := (h.given n g hg).1
    simp only [hlog, stale_append h1]
    by_cases hp : .polled g.place ∈ new
    · exact .inr (.inl (.inl hp))
    · rcases h.woken n g hg hw with h2 | h2 | h2 | h2
      · rcases ht n g hg h2 with h3 | h3
        · exact .inl h3
        · exact .inr (.inr (.inr h3))
      · exact .inr (.inl (.inr h2))
      · exact .inr (.inr (.inl (needsPoll_append h2 hp)))
      · rcases hwak _ h2 with h3 | h3
        · exact .inr (.inr (.inr h3))
        · exact .inr (.inr (.inl (hlog ▸ h3)))
  · intro k n hk
    obtain ⟨g, o, out, h1, h2, h3, h4, h5⟩ := h.awaits k n hk
    refine ⟨g, o, out, h1, h2, h3, h4, ?_⟩
    have hl := (h.given n g h1).1
    simp only [hlog, stale_append hl]
    by_cases hp : .polled g.place ∈ new
    · exact .inr (.inl (hnew _ hp))
    · rcases h5 with h5 | h5 | h5
      · exact .inl fun hx => hx.elim hp h5
      · rcases hstk _ h5 with h6 | ⟨e', rfl, he', f, fs, h7, h8⟩ | h6
        · exact .inr (.inl h6)
        · subst he'
          left
          simp only [mayHappen, h7, hasPolled, List.all_eq_true] at hm
          have := hm _ hk
          simp only [h1, h8, bne_self_eq_false, Bool.false_or] at this
          rw [current_iff] at this
          exact fun hx => hx.elim hp this
        · exact .inr (.inr (hlog ▸ h6))
      · exact .inr (.inr (List.mem_append_right _ h5))

theorem drop_append_one {α} {l : List α} {x : α} {n : Nat} (h : n ≤ l.length) : (l ++ [x]).drop n = l.drop n ++ [x] := by
  rw [List.drop_append]
  have : n - l.length = 0 := by omega
  rw [this]; rfl

theorem getElem?_lt {α} {l : List α} {n : Nat} {x : α} (h : l[n]? = some x) : n < l.length :=
  (List.getElem?_eq_some_iff.1 h).1

theorem mem_drop {k k' : Z.Key} {n : Nat} {l : List (Z.Key × Nat)} :
    (k', n) ∈ drop k l ↔ (k', n) ∈ l ∧ k' ≠ k := by
  simp [drop, List.mem_filter]

theorem step_linv {s0 : Z.σ} {w w' : World Z V S O} {e : Event Z V S O} (h : LInv s0 w) (hs : step w e = some w') :
    LInv s0 w' := by
  cases e with
  | app e =>
    simp only [step] at hs
    split at hs
    · next hm =>
      split at hs
      · next a ha =>
        cases hs
        exact app_linv h ha hm fun n g _ hn => .inl hn
      · cases hs
    · cases hs
  | op o =>
    simp only [step] at hs
    split at hs
    · cases hs
    · next s out hso =>
      have hgiven : ∀ (n : Nat) (g : Given), w.given[n]? = some g → g.hist < w.hist.length := by
        intro n g hg
        obtain ⟨_, _, _, _, h1, _⟩ := h.given n g hg
        exact getElem?_lt h1
      have hhist : ∀ (i : Nat) x, w.hist[i]? = some x → (w.hist ++ [(o, out)])[i]? = some x := by
        intro i x hx
        rw [List.getElem?_append_left (getElem?_lt hx)]; exact hx
      -- wakers handed out before
      have hwk : ∀ (n : Nat) (g : Given), w.given[n]? = some g →
          (∃ e ∈ (w.hist ++ [(o, out)]).drop (g.hist + 1), n ∈ Z.wakes e.2) →
          n ∈ w.todo ++ Z.wakes out ∨ Stale w.app.sys.log g ∨ NeedsPoll g.place w.app.sys.log ∨
            w.app.sys.waking = some g.place := by
        intro n g hg hw
        rw [drop_append_one (hgiven n g hg)] at hw
        obtain ⟨e, he, hw⟩ := hw
        rcases List.mem_append.1 he with he | he
        · rcases h.woken n g hg ⟨e, he, hw⟩ with h1 | h1
          · exact .inl (List.mem_append_left _ h1)
          · exact .inr h1
        · simp only [List.mem_singleton] at he
          subst he
          exact .inl (List.mem_append_right _ hw)
      split at hs
      · next hpo =>
        cases hs
        refine ⟨h.hist.snoc hso, ?_, hwk, ?_⟩
        · intro n g hg
          obtain ⟨h1, o', out', k, h2, h3⟩ := h.given n g hg
          exact ⟨h1, o', out', k, hhist _ _ h2, h3⟩
        · intro k n hk
          have hk' : (k, n) ∈ w.awaits ∧ Z.drops o ≠ some k := by
            simp only at hk
            split at hk
            · next k' hd =>
              obtain ⟨h1, h2⟩ := mem_drop.1 hk
              refine ⟨h1, ?_⟩
              rw [hd]
              intro he; cases he; exact h2 rfl
            · next hd => exact ⟨hk, by simp [hd]⟩
          obtain ⟨g, o', out', h1, h2, h3, h4, h5⟩ := h.awaits k n hk'.1
          refine ⟨g, o', out', h1, hhist _ _ h2, h3, ?_, h5⟩
          simp only [drop_append_one (hgiven n g h1)]
          intro e he
          rcases List.mem_append.1 he with he | he
          · exact h4 e he
          · simp only [List.mem_singleton] at he
            subst he
            exact ⟨by simp [hpo], fun _ => hk'.2⟩
      · next k0 n0 hpo =>
        split at hs
        · next f fs hst =>
          split at hs
          · next hn0 =>
            cases hs
            have hnew : ∀ n g, (w.given ++ [(⟨f.place, w.app.sys.log.length, w.hist.length⟩ : Given)])[n]? = some g →
                w.given[n]? = some g ∨ n = n0 ∧ g = ⟨f.place, w.app.sys.log.length, w.hist.length⟩ := by
              intro n g hg
              rw [List.getElem?_append] at hg
              split at hg
              · exact .inl hg
              · next hlt =>
                right
                have := getElem?_lt hg
                simp only [List.length_singleton] at this
                have hz : n - w.given.length = 0 := by omega
                rw [hz] at hg
                cases hg
                exact ⟨by omega, rfl⟩
            have hlast : (w.hist ++ [(o, out)])[w.hist.length]? = some (o, out) := by simp
            refine ⟨h.hist.snoc hso, ?_, ?_, ?_⟩
            · intro n g hg
              rcases hnew n g hg with hg | ⟨rfl, rfl⟩
              · obtain ⟨h1, o', out', k, h2, h3⟩ := h.given n g hg
                exact ⟨h1, o', out', k, hhist _ _ h2, h3⟩
              · exact ⟨Nat.le_refl _, o, out, k0, hlast, hpo⟩
            · intro n g hg hw
              rcases hnew n g hg with hg | ⟨rfl, rfl⟩
              · exact hwk n g hg hw
              · obtain ⟨e, he, _⟩ := hw
                simp at he
            · intro k n hk
              simp only [List.mem_cons, Prod.mk.injEq] at hk
              rcases hk with ⟨rfl, rfl⟩ | hk
              · refine ⟨⟨f.place, w.app.sys.log.length, w.hist.length⟩, o, out, by simp [hn0], hlast, hpo, ?_, ?_⟩
                · intro e he; simp at he
                · right; left; simp [places, hst]
              · obtain ⟨hk, hne⟩ := mem_drop.1 hk
                obtain ⟨g, o', out', h1, h2, h3, h4, h5⟩ := h.awaits k n hk
                refine ⟨g, o', out', by simp only; rw [List.getElem?_append_left (getElem?_lt h1)]; exact h1,
                  hhist _ _ h2, h3, ?_, h5⟩
                simp only [drop_append_one (hgiven n g h1)]
                intro e he
                rcases List.mem_append.1 he with he | he
                · exact h4 e he
                · simp only [List.mem_singleton] at he
                  subst he
                  simp only [hpo, ne_eq, Option.some.injEq, Prod.mk.injEq, not_and]
                  exact ⟨fun m hx => (hne hx.symm).elim, fun hx => by cases hx⟩
          · cases hs
        · cases hs
  | release k =>
    cases hs
    exact ⟨h.hist, h.given, h.woken, fun k' n hk => h.awaits k' n (mem_drop.1 hk).1⟩
  | wake =>
    simp only [step] at hs
    split at hs
    · next n todo htd =>
      split at hs
      · next g hg =>
        split at hs
        · next a ha =>
          cases hs
          refine app_linv h ha (by simp [mayHappen]) ?_
          intro n' g' hg' hn'
          rw [htd] at hn'
          rcases List.mem_cons.1 hn' with rfl | hn'
          · rw [hg] at hg'; cases hg'
            exact .inr (app_wake ha)
          · exact .inl hn'
        · cases hs
      · next hg =>
        cases hs
        refine ⟨h.hist, h.given, ?_, h.awaits⟩
        intro n' g' hg' hw
        rcases h.woken n' g' hg' hw with h1 | h1
        · rw [htd] at h1
          rcases List.mem_cons.1 h1 with rfl | h1
          · rw [hg] at hg'; cases hg'
          · exact .inl h1
        · exact .inr h1
    · cases hs

theorem run_linv {s0 : Z.σ} {es : List (Event Z V S O)} {w w' : World Z V S O} (h : LInv s0 w)
    (hs : run w es = some w') : LInv s0 w' := by
  induction es generalizing w with
  | nil => cases hs; exact h
  | cons e es ih =>
    simp only [run] at hs
    split at hs
    · next w1 h1 => exact ih (step_linv h h1) hs
    · cases hs

/-- What happens in the app is what can happen in an app. -/
theorem run_app {es : List (Event Z V S O)} {w w' : World Z V S O} (hs : run w es = some w') :
    ∃ es', App.run w.app es' = some w'.app ∧ ∀ t, .app (.mount t) ∈ es → .mount t ∈ es' := by
  induction es generalizing w with
  | nil => cases hs; exact ⟨[], rfl, by simp⟩
  | cons e es ih =>
    simp only [run] at hs
    split at hs
    · next w1 h1 =>
      obtain ⟨es', h2, h3⟩ := ih hs
      have key : (w1.app = w.app ∧ ∀ t, e ≠ .app (.mount t)) ∨
          ∃ e', App.step w.app e' = some w1.app ∧ ∀ t, e = .app (.mount t) → e' = .mount t := by
        cases e with
        | app e =>
          simp only [step] at h1
          split at h1
          · split at h1
            · next a ha => cases h1; exact .inr ⟨e, ha, fun t ht => by cases ht; rfl⟩
            · cases h1
          · cases h1
        | op o =>
          left
          refine ⟨?_, by simp⟩
          simp only [step] at h1
          split at h1
          · cases h1
          · split at h1
            · cases h1; rfl
            · split at h1
              · split at h1
                · cases h1; rfl
                · cases h1
              · cases h1
        | release k => cases h1; exact .inl ⟨rfl, by simp⟩
        | wake =>
          simp only [step] at h1
          split at h1
          · split at h1
            · split at h1
              · next a ha => cases h1; exact .inr ⟨_, ha, by simp⟩
              · cases h1
            · cases h1; exact .inl ⟨rfl, by simp⟩
          · cases h1
      rcases key with ⟨k1, k2⟩ | ⟨e', k1, k2⟩
      · refine ⟨es', k1 ▸ h2, ?_⟩
        intro t ht
        rcases List.mem_cons.1 ht with ht | ht
        · exact (k2 t ht.symm).elim
        · exact h3 t ht
      · refine ⟨e' :: es', by simp only [App.run, k1]; exact h2, ?_⟩
        intro t ht
        rcases List.mem_cons.1 ht with ht | ht
        · rw [k2 t ht.symm]; exact .head _
        · exact .tail _ (h3 t ht)
    · cases hs

/-- What happened to a source since its future `k` was polled last: it was not dropped, and the waker it was
polled with was not woken. -/
def Told (Z : Source) (s0 : Z.σ) (h : List (Z.Op × Z.Out)) (s : Z.σ) (k : Z.Key) : Prop :=
  ∃ n pre mid o out, h = pre ++ (o, out) :: mid ∧ Z.polls o out = some (k, n) ∧ Hist Z s0 h s ∧
    (∀ e ∈ mid, (∀ m, Z.polls e.1 e.2 ≠ some (k, m)) ∧ (Z.polls e.1 e.2 = none → Z.drops e.1 ≠ some k)) ∧
    ∀ e ∈ mid, n ∉ Z.wakes e.2

/-- When the app is idle, no future of the source that is awaited has been woken since its latest poll. -/
theorem idle_not_woken {s0 : Z.σ} {es : List (Event Z V S O)} {w : World Z V S O} (h : run (init s0) es = some w)
    (hm : ∃ t, .app (.mount t) ∈ es) (hidle : Idle w) {k : Z.Key} (hk : Awaited w k) :
    Told Z s0 w.hist w.src k := by
  obtain ⟨n, g, t, hk, hg, ht, hp⟩ := hk
  have hI := run_linv (init_linv s0) h
  obtain ⟨g', o, out, h1, h2, h3, h4, h5⟩ := hI.awaits k n hk
  rw [hg] at h1; cases h1
  obtain ⟨es', hes', hm'⟩ := run_app h
  obtain ⟨t0, hm⟩ := hm
  have hneed := App.app_idle_nothing_waits es' w.app hes' ⟨t0, hm' _ hm⟩ hidle.1 t ht g.place hp
  have hret : .returned g.place ∉ w.app.sys.log := by
    generalize g.place = p at hp
    cases hp with
    | task => exact ht.2.2
    | sub _ _ _ _ h6 => exact h6
  have hstk : places w.app.sys = [] := by
    have hI' := App.run_ainv App.init_ainv hes'
    have : w.app.sys.stack = [] := Classical.byContradiction fun hx => by
      have := hI'.stk hx
      rw [hidle.1.1] at this; cases this
    simp [places, this]
  have hst : ¬ Stale w.app.sys.log g := by
    rcases h5 with h5 | h5 | h5
    · exact h5
    · rw [hstk] at h5; cases h5
    · exact (hret h5).elim
  have hlt := getElem?_lt h2
  refine ⟨n, w.hist.take g.hist, w.hist.drop (g.hist + 1), o, out, ?_, h3, hI.hist, h4, ?_⟩
  · have := (List.getElem?_eq_some_iff.1 h2).2
    rw [← this, List.getElem_cons_drop, List.take_append_drop]
  · intro e he hw
    rcases hI.woken n g hg ⟨e, he, hw⟩ with h6 | h6 | h6 | h6
    · rw [hidle.2] at h6; cases h6
    · exact hst h6
    · exact hneed h6
    · rw [hidle.1.2.2] at h6; cases h6

end
end Verif.Live
