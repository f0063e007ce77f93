import Verif.Apps.CrudLemmas
import Verif.Apps.CirclesProps
/-!
# C66: the list of persons

`crud_shows_partial`: whatever the user does, the `<select>` shows the persons that a plain list of persons contains,
until the program panics, which is exactly when that list has nothing to do what is asked with. `crud_panics_iff` says
in terms of the events when that is: a person has been deleted, nothing has been chosen since, and a button that needs
a chosen person is pressed, which is still enabled. `crud_filter_partial` says how long the filter is right.
-/
namespace Verif.Crud
open Verif.Dom (NodeId Dom)
open Verif.Lists (Item Good)

theorem sight_step {A : App} {l : List Item} {B : Book} (h : Sight A l B) {e : Event} (ha : Allowed A e) :
    (step A e = none ∧ B.next e = none) ∨
    ∃ A' l' B', step A e = some A' ∧ B.next e = some B' ∧ Sight A' l' B' := by
  cases e with
  | create a b ns => exact Or.inr (sight_create h ha a b)
  | update a b => exact sight_update h a b
  | delete => exact sight_delete h
  | choose sel => exact Or.inr (sight_choose h sel)
  | filter pre sh => exact Or.inr (sight_filter h pre ha)

theorem sight_run (es : List Event) : ∀ {A : App} {l : List Item} {B : Book}, Sight A l B → AllowedRun A es →
    (run A es = none ∧ B.after es = none) ∨
    ∃ A' l' B', run A es = some A' ∧ B.after es = some B' ∧ Sight A' l' B' := by
  induction es with
  | nil => intro A l B h _; exact Or.inr ⟨A, l, B, rfl, rfl, h⟩
  | cons e es ih =>
    intro A l B h ha
    rcases sight_step h ha.1 with ⟨h1, h2⟩ | ⟨A1, l1, B1, h1, h2, h3⟩
    · refine Or.inl ⟨?_, ?_⟩
      · simp only [run, h1, bind, Option.bind]
      · simp only [Book.after, h2, Option.bind]
    · have := ih h3 (ha.2 A1 h1)
      simpa only [run, Book.after, h1, h2, bind, Option.bind] using this

theorem sight_start {d : Dom} {frag ls le select : NodeId} (hd : Lists.Proper d) (hf : d.kids frag = []) (hne : ls ≠ le)
    (hs : select ≠ frag) : ∃ A0, start d frag ls le select = some A0 ∧ Sight A0 [] Book.start := by
  obtain ⟨d0, L0, h, hg⟩ := Lists.good_new hd hf hne
  have hL : L0.container = L0.frag ∧ L0.frag = frag := by
    simp only [Lists.new, Option.bind_eq_bind, Option.bind_eq_some_iff, pure, Option.some.injEq, Prod.mk.injEq] at h
    obtain ⟨d1, _, d2, _, _, e⟩ := h
    rw [← e]
    exact ⟨rfl, rfl⟩
  obtain ⟨s', e, g, c⟩ := Lists.good_render hg (p := select) (a := none)
    ⟨hL.1, by simp only [hL.2]; exact hs, fun r hr => by cases hr⟩
  refine ⟨⟨s', select, fun _ => none, fun _ => 0, [], true, true, 0⟩, ?_, ?_⟩
  · simp only [start, h, e, bind, Option.bind, pure]
  · exact ⟨g, c, rfl, by simp, by simp, by simp [Book.start], by simp [Book.start], rfl, by simp [Book.start], rfl, rfl,
      by simp [Book.start]⟩

/-- **C66.** Whatever the user does, the screen shows what the list of persons says; where that has no answer, the
program panics. Missing for the whole claim: that there always is an answer (`crud_panics_iff`), and that the filter
applies to new and updated persons (`crud_filter_partial`). -/
theorem crud_shows_partial {d : Dom} {frag ls le select : NodeId} (hd : Lists.Proper d) (hf : d.kids frag = [])
    (hne : ls ≠ le) (hs : select ≠ frag) (es : List Event) :
    ∃ A0, start d frag ls le select = some A0 ∧ (AllowedRun A0 es →
      (run A0 es = none ∧ Book.start.after es = none) ∨
      ∃ A B, run A0 es = some A ∧ Book.start.after es = some B ∧ Draws A B) := by
  obtain ⟨A0, h0, hs0⟩ := sight_start hd hf hne hs
  refine ⟨A0, h0, fun ha => ?_⟩
  rcases sight_run es hs0 ha with h | ⟨A, l, B, h1, h2, h3⟩
  · exact Or.inl h
  · exact Or.inr ⟨A, B, h1, h2, h3.draws⟩

/-! ## when it panics -/

/-- The button that was pressed needs a chosen person. -/
def Event.needs : Event → Bool
  | .update _ _ | .delete => true
  | _ => false

def Event.chooses : Event → Bool
  | .choose _ => true
  | _ => false

/-- The buttons are enabled and nothing is chosen. -/
def Book.Stuck (B : Book) : Prop := B.armed = true ∧ B.chosen = none

theorem stuck_panics {e : Event} (he : e.needs = true) (post : List Event) : ∀ (mid : List Event) (B : Book), B.Stuck →
    (∀ e' ∈ mid, e'.chooses = false) → B.after (mid ++ e :: post) = none := by
  intro mid
  induction mid with
  | nil =>
    intro B h _
    cases e with
    | update a b => simp [Book.after, Book.next, h.1, h.2]
    | delete => simp [Book.after, Book.next, h.1, h.2]
    | _ => cases he
  | cons e' mid ih =>
    intro B h hm
    have ih := fun (B : Book) (h : B.Stuck) => ih B h fun x hx => hm x (List.mem_cons_of_mem _ hx)
    have he' := hm e' (by simp)
    simp only [List.cons_append, Book.after]
    cases e' with
    | create a b ns => exact ih _ h
    | update a b => simp [Book.next, h.1, h.2]
    | delete => simp [Book.next, h.1, h.2]
    | choose sel => cases he'
    | filter pre sh => exact ih _ h

/-- Only when something is chosen are the buttons enabled, unless a person was deleted. -/
def Book.Fair (B : Book) : Prop := B.chosen ≠ none → B.armed = true

theorem fair_next {B B' : Book} (h : B.Fair) {e : Event} (he : B.next e = some B') : B'.Fair := by
  cases e with
  | create a b ns => cases he; exact h
  | update a b =>
    simp only [Book.next] at he
    split at he
    · obtain ⟨c, _, rfl⟩ := Option.map_eq_some_iff.1 he
      exact h
    · cases he; exact h
  | delete =>
    simp only [Book.next] at he
    split at he
    · obtain ⟨c, _, rfl⟩ := Option.map_eq_some_iff.1 he
      intro hc; exact absurd rfl hc
    · cases he; exact h
  | choose sel =>
    cases he
    intro hc
    simp only at hc ⊢
    cases hx : (B.persons.find? fun p => sel p.id).map Person.id with
    | none => exact absurd hx hc
    | some c => rfl
  | filter pre sh => cases he; exact h

theorem fair_after (es : List Event) : ∀ {B B' : Book}, B.Fair → B.after es = some B' → B'.Fair := by
  induction es with
  | nil => intro B B' h e; cases e; exact h
  | cons e es ih =>
    intro B B' h he
    obtain ⟨B1, h1, h2⟩ := Option.bind_eq_some_iff.1 he
    exact ih (fair_next h h1) h2

theorem after_append (es es' : List Event) : ∀ B : Book, B.after (es ++ es') = (B.after es).bind fun B' => B'.after es' := by
  induction es with
  | nil => intro B; rfl
  | cons e es ih =>
    intro B
    simp only [List.cons_append, Book.after]
    cases B.next e with
    | none => rfl
    | some B1 => exact ih B1

theorem run_append (es es' : List Event) : ∀ A : App, run A (es ++ es') = (run A es).bind fun A' => run A' es' := by
  induction es with
  | nil => intro A; rfl
  | cons e es ih =>
    intro A
    simp only [List.cons_append, run, bind]
    cases step A e with
    | none => rfl
    | some A1 => exact ih A1

theorem after_none (es : List Event) : ∀ (B : Book), B.after es = none →
    (B.Stuck ∧ ∃ mid e post, es = mid ++ e :: post ∧ (∀ e' ∈ mid, e'.chooses = false) ∧ e.needs = true) ∨
    ∃ pre mid e post B', es = pre ++ .delete :: (mid ++ e :: post) ∧ B.after pre = some B' ∧ B'.chosen ≠ none ∧
      (∀ e' ∈ mid, e'.chooses = false) ∧ e.needs = true := by
  induction es with
  | nil => intro B h; cases h
  | cons e es ih =>
    intro B h
    cases hn : B.next e with
    | none =>
      refine Or.inl ?_
      have key : B.Stuck ∧ e.needs = true := by
        cases e with
        | create a b ns => cases hn
        | update a b =>
          simp only [Book.next] at hn
          split at hn
          · rename_i ha; exact ⟨⟨ha, by simpa using hn⟩, rfl⟩
          · cases hn
        | delete =>
          simp only [Book.next] at hn
          split at hn
          · rename_i ha; exact ⟨⟨ha, by simpa using hn⟩, rfl⟩
          · cases hn
        | choose sel => cases hn
        | filter pre sh => cases hn
      exact ⟨key.1, [], e, es, rfl, by simp, key.2⟩
    | some B1 =>
      simp only [Book.after, hn, Option.bind_some] at h
      rcases ih B1 h with ⟨hst, mid, e1, post, rfl, hm, hp⟩ | ⟨pre, mid, e1, post, B', rfl, h1, h2, hm, hp⟩
      · have key : (B.Stuck ∧ e.chooses = false) ∨ (e = .delete ∧ B.chosen ≠ none) := by
          cases e with
          | create a b ns => cases hn; exact Or.inl ⟨hst, rfl⟩
          | update a b =>
            simp only [Book.next] at hn
            split at hn
            · obtain ⟨c, _, rfl⟩ := Option.map_eq_some_iff.1 hn
              exact Or.inl ⟨hst, rfl⟩
            · cases hn; exact Or.inl ⟨hst, rfl⟩
          | delete =>
            simp only [Book.next] at hn
            split at hn
            · obtain ⟨c, hc, rfl⟩ := Option.map_eq_some_iff.1 hn
              exact Or.inr ⟨rfl, by simp [hc]⟩
            · cases hn; exact Or.inl ⟨hst, rfl⟩
          | choose sel =>
            cases hn
            obtain ⟨h1, h2⟩ := hst
            simp only at h1 h2
            rw [h2] at h1
            cases h1
          | filter pre sh => cases hn; exact Or.inl ⟨hst, rfl⟩
        rcases key with ⟨k1, k2⟩ | ⟨rfl, k2⟩
        · refine Or.inl ⟨k1, e :: mid, e1, post, rfl, ?_, hp⟩
          intro e' he'
          rcases List.mem_cons.1 he' with rfl | he'
          · exact k2
          · exact hm e' he'
        · exact Or.inr ⟨[], mid, e1, post, B, rfl, rfl, k2, hm, hp⟩
      · exact Or.inr ⟨e :: pre, mid, e1, post, B', rfl, by simp only [Book.after, hn, Option.bind_some]; exact h1, h2, hm, hp⟩

theorem allowed_prefix (es es' : List Event) : ∀ {A : App}, AllowedRun A (es ++ es') → AllowedRun A es := by
  induction es with
  | nil => intro A _; trivial
  | cons e es ih => intro A h; exact ⟨h.1, fun A' h' => ih (h.2 A' h')⟩

/-- **C66.** The program panics exactly if a person is deleted while one is chosen, and after that, before anything is
chosen again, the button for updating or deleting is pressed. -/
theorem crud_panics_iff {d : Dom} {frag ls le select : NodeId} (hd : Lists.Proper d) (hf : d.kids frag = [])
    (hne : ls ≠ le) (hs : select ≠ frag) (es : List Event) :
    ∃ A0, start d frag ls le select = some A0 ∧ (AllowedRun A0 es →
      (run A0 es = none ↔ ∃ pre mid e post A, es = pre ++ .delete :: (mid ++ e :: post) ∧
        run A0 pre = some A ∧ value A ≠ none ∧ (∀ e' ∈ mid, e'.chooses = false) ∧ e.needs = true)) := by
  obtain ⟨A0, h0, hs0⟩ := sight_start hd hf hne hs
  refine ⟨A0, h0, fun ha => ?_⟩
  constructor
  · intro hn
    have hb : Book.start.after es = none := by
      rcases sight_run es hs0 ha with h | ⟨A, l, B, h1, _⟩
      · exact h.2
      · rw [hn] at h1; cases h1
    rcases after_none es _ hb with ⟨hst, _⟩ | ⟨pre, mid, e, post, B, rfl, h1, h2, hm, hp⟩
    · cases hst.1
    · rcases sight_run pre hs0 (allowed_prefix _ _ ha) with h | ⟨A, l, B1, g1, g2, g3⟩
      · rw [h1] at h; cases h.2
      · rw [h1] at g2
        cases g2
        exact ⟨pre, mid, e, post, A, rfl, g1, by rw [g3.value]; exact h2, hm, hp⟩
  · rintro ⟨pre, mid, e, post, A, rfl, g1, g2, hm, hp⟩
    rcases sight_run pre hs0 (allowed_prefix _ _ ha) with h | ⟨A1, l, B1, h1, h2, h3⟩
    · rw [h.1] at g1; cases g1
    · rw [g1] at h1
      cases h1
      have hch : B1.chosen ≠ none := by rw [← h3.value]; exact g2
      have harm : B1.armed = true := fair_after pre (B := Book.start) (fun h => absurd rfl h) h2 hch
      have hb : Book.start.after (pre ++ .delete :: (mid ++ e :: post)) = none := by
        rw [after_append, h2]
        simp only [Option.bind_some, Book.after]
        cases hc : B1.chosen with
        | none => exact absurd hc hch
        | some c =>
          simp only [Book.next, harm, hc, if_true, Option.map_some, Option.bind_some]
          exact stuck_panics hp post mid _ ⟨rfl, rfl⟩ hm
      rcases sight_run _ hs0 ha with h | ⟨A2, l2, B2, _, k2, _⟩
      · exact h.1
      · rw [hb] at k2; cases k2

/-! ## the filter -/

/-- Events that leave the filter right: nothing is renamed, and new names have the prefix. -/
def Event.keeps (t : Text) : Event → Prop
  | .create a b _ => t.isPrefixOf (fullName a b) = true
  | .update _ _ => False
  | .filter _ _ => False
  | _ => True

theorem filtered_next {B B' : Book} (h : B.Filtered) {e : Event} (he : e.keeps B.typed) (hn : B.next e = some B') :
    B'.Filtered ∧ B'.typed = B.typed := by
  cases e with
  | create a b ns =>
    cases hn
    refine ⟨?_, rfl⟩
    intro p hp
    rcases List.mem_append.1 hp with hp | hp
    · exact h p hp
    · rw [List.mem_singleton] at hp
      subst hp
      have : B.typed.isPrefixOf (fullName a b) = true := he
      simp [this]
  | update a b => cases he
  | delete =>
    simp only [Book.next] at hn
    split at hn
    · obtain ⟨c, _, rfl⟩ := Option.map_eq_some_iff.1 hn
      exact ⟨fun p hp => h p (List.mem_filter.1 hp).1, rfl⟩
    · cases hn; exact ⟨h, rfl⟩
  | choose sel => cases hn; exact ⟨h, rfl⟩
  | filter pre sh => cases he

theorem filtered_after (es : List Event) : ∀ {B B' : Book}, B.Filtered → (∀ e ∈ es, e.keeps B.typed) →
    B.after es = some B' → B'.Filtered ∧ B'.typed = B.typed := by
  induction es with
  | nil => intro B B' h _ e; cases e; exact ⟨h, rfl⟩
  | cons e es ih =>
    intro B B' h hk he
    obtain ⟨B1, h1, h2⟩ := Option.bind_eq_some_iff.1 he
    obtain ⟨k1, k2⟩ := filtered_next h (hk e (by simp)) h1
    have := ih k1 (fun e he => by rw [k2]; exact hk e (List.mem_cons_of_mem _ he)) h2
    exact ⟨this.1, this.2.trans k2⟩

/-- **C66.** After something was typed into the filter, exactly the persons whose names do not begin with it are hidden,
until somebody is renamed or a person is created whose name does not begin with it. Missing for the whole claim: what
comes after that (`crud_filter_stale`). -/
theorem crud_filter_partial {d : Dom} {frag ls le select : NodeId} (hd : Lists.Proper d) (hf : d.kids frag = [])
    (hne : ls ≠ le) (hs : select ≠ frag) (es : List Event) (t : Text) (sh : List Entry → List Entry) (rest : List Event)
    (hk : ∀ e ∈ rest, e.keeps t) :
    ∃ A0, start d frag ls le select = some A0 ∧ ∀ A, AllowedRun A0 (es ++ .filter t sh :: rest) →
      run A0 (es ++ .filter t sh :: rest) = some A →
      ∀ o ∈ options A, o.2.hidden = !(t.isPrefixOf o.2.text) ∧ o.2.disabled = o.2.hidden := by
  obtain ⟨A0, h0, hs0⟩ := sight_start hd hf hne hs
  refine ⟨A0, h0, fun A ha hr => ?_⟩
  rcases sight_run _ hs0 ha with h | ⟨A1, l, B, h1, h2, h3⟩
  · rw [hr] at h; cases h.1
  · rw [hr] at h1
    cases h1
    rw [after_append] at h2
    obtain ⟨B1, k1, k2⟩ := Option.bind_eq_some_iff.1 h2
    simp only [Book.after, Book.next, Option.bind_some] at k2
    have hfil : B.Filtered ∧ B.typed = t := by
      refine filtered_after rest ?_ (by intro e he; exact hk e he) k2
      intro p hp
      obtain ⟨q, _, rfl⟩ := List.mem_map.1 hp
      rfl
    intro o ho
    rw [h3.options] at ho
    obtain ⟨p, hp, rfl⟩ := List.mem_map.1 ho
    refine ⟨?_, rfl⟩
    have := hfil.1 p hp
    rw [hfil.2] at this
    exact this

/-! ## examples -/

section Examples

theorem within_step {sup : List NodeId} {A A' : App} (hw : Lists.Within sup A.sys) {e : Event} (h : step A e = some A') :
    Lists.Within sup A'.sys := by
  cases e with
  | create a b ns =>
    simp only [step, Option.bind_eq_bind, Option.bind_eq_some_iff, pure, Option.some.injEq] at h
    obtain ⟨⟨s, as⟩, e, h⟩ := h
    subst h
    exact Circles.within_run _ hw (by intro op ho; simp only [List.mem_cons, List.not_mem_nil, or_false] at ho; rcases ho with rfl | rfl <;> rfl) e
  | update a b =>
    simp only [step] at h
    split at h
    · cases h; exact hw
    · simp only [Option.bind_eq_bind, Option.bind_eq_some_iff, pure, Option.some.injEq] at h
      obtain ⟨_, _, _, _, h⟩ := h
      subst h
      exact hw
  | delete =>
    simp only [step] at h
    split at h
    · cases h; exact hw
    · simp only [Option.bind_eq_bind, Option.bind_eq_some_iff, pure, Option.some.injEq] at h
      obtain ⟨seek, _, ⟨s1, a⟩, e1, s2, e2, h⟩ := h
      subst h
      have hw1 := Lists.within_step hw rfl e1
      simp only [itemEnds] at e2
      split at e2
      · obtain ⟨⟨s3, a3⟩, e3, e2⟩ := Option.map_eq_some_iff.1 e2
        cases e2
        exact Lists.within_step hw1 rfl e3
      · cases e2; exact hw1
  | choose sel => cases h; exact hw
  | filter pre sh => cases h; exact hw

def newB (sup : List NodeId) (A : App) (ns : Nodes) : Bool :=
  ([ns.elem, ns.start, ns.stop].all fun n => Lists.freshB sup A.sys.dom n && (A.look n).isNone) &&
    (ns.elem != ns.start && ns.elem != ns.stop && ns.start != ns.stop)

theorem new_of {sup : List NodeId} {A : App} {ns : Nodes} (hw : Lists.Within sup A.sys) (h : newB sup A ns = true) : ns.new A := by
  simp only [newB, Bool.and_eq_true, bne_iff_ne, ne_eq, List.all_eq_true, Option.isNone_iff_eq_none] at h
  exact ⟨fun n hn => ⟨Lists.fresh_of hw (h.1 n hn).1, (h.1 n hn).2⟩, h.2.1.1, h.2.1.2, h.2.2⟩

def allowedRunB (sup : List NodeId) (A : App) : List Event → Bool
  | [] => true
  | e :: es => (match e with | .create _ _ ns => newB sup A ns | _ => true) &&
      match step A e with
      | none => true
      | some A' => allowedRunB sup A' es

theorem allowedRun_of {sup : List NodeId} (es : List Event) : ∀ {A : App}, Lists.Within sup A.sys →
    allowedRunB sup A es = true → (∀ t sh, Event.filter t sh ∈ es → ∀ l, (sh l).Perm l) → AllowedRun A es := by
  induction es with
  | nil => intro A _ _ _; trivial
  | cons e es ih =>
    intro A hw h hsh
    simp only [allowedRunB, Bool.and_eq_true] at h
    refine ⟨?_, ?_⟩
    · cases e with
      | create a b ns => exact new_of hw h.1
      | filter t sh => exact hsh t sh (by simp)
      | _ => trivial
    · intro A' hs
      rw [hs] at h
      exact ih (within_step hw hs) h.2 fun t sh hm => hsh t sh (List.mem_cons_of_mem _ hm)

/-- nodes for the person number `n` -/
def demoNodes (n : Nat) : Nodes := ⟨1000 + 3 * n, 1001 + 3 * n, 1002 + 3 * n⟩

/-- An empty document in which node 200 is the `<select>`. -/
def begin_ : App := (start Lists.blank 100 1 2 200).get (by decide +kernel)

theorem start_blank : start Lists.blank 100 1 2 200 = some begin_ := by simp [begin_]

theorem within_begin : Lists.Within [100, 200] begin_.sys := by
  have h := start_blank
  simp only [start, Lists.new_blank, Option.bind_eq_bind, Option.bind_some, Option.bind_eq_some_iff, pure, Option.some.injEq] at h
  obtain ⟨⟨s, a⟩, e, h⟩ := h
  rw [← h]
  exact Lists.within_step Lists.within_fresh rfl e

/-- Three persons; two are selected, of which the first stays selected and gets another name; the filter hides the
others; the chosen one is deleted. -/
def demo : List Event :=
  [.create "Emil".toList "Hans".toList (demoNodes 0), .create "Mustermann".toList "Max".toList (demoNodes 1),
    .create "Tisch".toList "Roman".toList (demoNodes 2), .choose (fun i => i == 2 || i == 3),
    .update "Muster".toList "Mia".toList, .filter "M".toList List.reverse]

theorem demo_allowed : AllowedRun begin_ (demo ++ [.delete]) := by
  refine allowedRun_of _ within_begin (by decide +kernel) ?_
  intro t sh hm l
  simp [demo] at hm
  rw [hm.2]
  exact List.reverse_perm l

example : (run begin_ demo).map (fun A => (options A).map Prod.snd) =
    some [⟨1, "Emil, Hans".toList, true, true, false⟩, ⟨2, "Muster, Mia".toList, false, false, true⟩,
      ⟨3, "Tisch, Roman".toList, true, true, false⟩] := by decide +kernel

example : (run begin_ (demo ++ [.delete])).map (fun A => (options A).map fun o => o.2.value) = some [1, 3] := by decide +kernel

/-- The theorem applied to the example. -/
example : ∃ A B, run begin_ (demo ++ [.delete]) = some A ∧ Book.start.after (demo ++ [.delete]) = some B ∧ Draws A B := by
  obtain ⟨A0, h0, h⟩ := crud_shows_partial Lists.proper_blank (frag := 100) (ls := 1) (le := 2) (select := 200) rfl
    (by decide) (by decide) (demo ++ [.delete])
  rw [start_blank] at h0
  cases h0
  rcases h demo_allowed with ⟨h1, _⟩ | h1
  · have : (run begin_ (demo ++ [.delete])).isSome = true := by decide +kernel
    rw [h1] at this
    cases this
  · exact h1

/-- **C66.** The property that nothing panics is false: press the button for deleting twice. -/
theorem crud_delete_twice (post : List Event) :
    (run begin_ (demo ++ [.delete])).isSome = true ∧ AllowedRun begin_ (demo ++ [.delete]) ∧
    run begin_ (demo ++ .delete :: ([] ++ .delete :: post)) = none := by
  refine ⟨by decide +kernel, demo_allowed, ?_⟩
  have h : run begin_ (demo ++ [.delete, .delete]) = none := by
    cases h : run begin_ (demo ++ [.delete, .delete]) with
    | none => rfl
    | some A =>
      have : (run begin_ (demo ++ [.delete, .delete])).isSome = false := by decide +kernel
      rw [h] at this
      cases this
  have := run_append (demo ++ [.delete, .delete]) post begin_
  rw [h] at this
  simpa using this

/-- **C66.** The property that the filter applies to every person is false: a new person is shown although its name
does not begin with what is in the field, and stays so until something is typed there. -/
theorem crud_filter_stale :
    (run begin_ [.filter "M".toList id, .create "Emil".toList "Hans".toList (demoNodes 0)]).map (fun A => (options A).map Prod.snd) =
      some [⟨1, "Emil, Hans".toList, false, false, false⟩] := by decide +kernel

/-- **C66.** A person that the filter hides can be deleted, if it was chosen before. -/
theorem crud_deletes_hidden :
    (run begin_ [.create "Emil".toList "Hans".toList (demoNodes 0), .choose (· == 1), .filter "M".toList id]).map
      (fun A => (options A).map Prod.snd) = some [⟨1, "Emil, Hans".toList, true, true, true⟩] ∧
    (run begin_ [.create "Emil".toList "Hans".toList (demoNodes 0), .choose (· == 1), .filter "M".toList id, .delete]).map
      (fun A => (options A).map Prod.snd) = some [] := by
  constructor <;> decide +kernel

end Examples

end Verif.Crud
