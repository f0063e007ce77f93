import Verif.Lists.DynamicProps
/-!
# Sequences of calls of a DynamicList

Helper lemmas for the lists that are built on `DynamicList`: what a sequence of calls does to the
plain list of items.
-/
namespace Verif.Lists
open Verif.Dom

/-- The document shows these items; all content ever shown is among `given`. -/
structure Tracks (s : Sys) (l : List Item) (given : List NodeId) : Prop where
  good : ∃ left, Good s l left ∧ ∀ n ∈ left, n ∈ given
  content : ∀ x ∈ l, ∀ n ∈ x.content, n ∈ given

theorem Tracks.keys {s : Sys} {l : List Item} {given : List NodeId} (h : Tracks s l given) : (l.map Item.key).Nodup := by
  obtain ⟨left, hg, -⟩ := h.good
  exact hg.keys

theorem Tracks.proper {s : Sys} {l : List Item} {given : List NodeId} (h : Tracks s l given) : Proper s.dom := by
  obtain ⟨left, hg, -⟩ := h.good
  exact hg.proper

theorem Tracks.perm {s : Sys} {l : List Item} {given : List NodeId} (h : Tracks s l given) :
    s.list.items.Perm (l.map Item.entry) := by
  obtain ⟨left, hg, -⟩ := h.good
  exact hg.perm

theorem shows_among {d : Dom} {L : DynList} {l : List Item} {left given : List NodeId} (h : Shows d L l left)
    (hs : ∀ n ∈ left, n ∈ given) : ShowsAmong d L l given := by
  obtain ⟨pre, segs, post, g1, g2, g3⟩ := h
  exact ⟨pre, segs, post, g1, g2, fun n hn => hs n ((g3 n).1 hn)⟩

theorem Tracks.shows {s : Sys} {l : List Item} {given : List NodeId} (h : Tracks s l given) :
    ShowsAmong s.dom s.list l given := by
  obtain ⟨left, hg, hs⟩ := h.good
  exact shows_among hg.shows hs

theorem find_mem {k : Key} {l : List Item} {x : Item} (h : find k l = some x) : x ∈ l ∧ x.key = k := by
  unfold find at h
  exact ⟨List.mem_of_find?_eq_some h, by simpa using List.find?_some h⟩

theorem mem_placeBefore {x y : Item} {b : Key} {l : List Item} (h : y ∈ placeBefore x b l) : y = x ∨ y ∈ l := by
  induction l with
  | nil => cases h
  | cons z zs ih =>
    unfold placeBefore at h
    split at h
    · exact List.mem_cons.1 h
    · rcases List.mem_cons.1 h with rfl | h
      · exact Or.inr (by simp)
      · rcases ih h with h | h
        · exact Or.inl h
        · exact Or.inr (by simp [h])

theorem mem_place {x y : Item} {b : Option Key} {l : List Item} (h : y ∈ place x b l) : y = x ∨ y ∈ l := by
  cases b with
  | none =>
    rcases List.mem_append.1 h with h | h
    · exact Or.inr h
    · exact Or.inl (List.mem_singleton.1 h)
  | some b => exact mem_placeBefore h

/-- Calls of the list, as opposed to what the rest of the program does. -/
def Op.isCall : Op → Bool
  | .insert _ _ _ _ | .remove _ | .moveBefore _ _ | .swap _ _ | .retain _ => true
  | _ => false

/-- calls make no content -/
theorem content_specStep {l : List Item} {given : List NodeId} {op : Op} (hc : op.isCall = true)
    (h : ∀ x ∈ l, ∀ n ∈ x.content, n ∈ given) : ∀ x ∈ specStep l op, ∀ n ∈ x.content, n ∈ given := by
  intro x hx n hn
  cases op with
  | insert k b s e =>
    simp only [specStep, specInsert] at hx
    split at hx
    · obtain ⟨y, hy, e⟩ := List.mem_map.1 hx
      split at e
      · rw [← e] at hn; cases hn
      · exact h x (e ▸ hy) n hn
    · rcases mem_place hx with rfl | hx
      · cases hn
      · exact h x (List.mem_filter.1 hx).1 n hn
  | remove k => exact h x (List.mem_filter.1 hx).1 n hn
  | moveBefore k b =>
    simp only [specStep, specMove] at hx
    split at hx
    · rename_i y hy
      rcases mem_place hx with rfl | hx
      · exact h _ (find_mem hy).1 n hn
      · exact h x (List.mem_filter.1 hx).1 n hn
    · exact h x hx n hn
  | swap a b =>
    simp only [specStep, specSwap] at hx
    split at hx
    · rename_i y z hy hz
      obtain ⟨w, hw, e⟩ := List.mem_map.1 hx
      split at e
      · exact h x (e ▸ (find_mem hz).1) n hn
      · split at e
        · exact h x (e ▸ (find_mem hy).1) n hn
        · exact h x (e ▸ hw) n hn
    · exact h x hx n hn
  | retain p => exact h x (List.mem_filter.1 hx).1 n hn
  | _ => cases hc

theorem left_specStep {l : List Item} {left given : List NodeId} {op : Op} (hl : ∀ n ∈ left, n ∈ given)
    (h : ∀ x ∈ l, ∀ n ∈ x.content, n ∈ given) : ∀ n ∈ specLeft l left op, n ∈ given := by
  intro n hn
  cases op with
  | insert k b s e =>
    simp only [specLeft] at hn
    split at hn
    · rename_i y hy
      rcases List.mem_append.1 hn with hn | hn
      · exact h _ (find_mem hy).1 n hn
      · exact hl n hn
    · exact hl n hn
  | remove k =>
    simp only [specLeft] at hn
    split at hn
    · rename_i y hy
      rcases List.mem_append.1 hn with hn | hn
      · exact h _ (find_mem hy).1 n hn
      · exact hl n hn
    · exact hl n hn
  | retain p =>
    simp only [specLeft] at hn
    rcases List.mem_append.1 hn with hn | hn
    · obtain ⟨y, hy, hn⟩ := List.mem_flatMap.1 hn
      exact h _ (List.mem_filter.1 hy).1 n hn
    · exact hl n hn
  | place c m r => exact hl n (List.mem_filter.1 hn).1
  | vanish c m => exact hl n (List.mem_filter.1 hn).1
  | _ => exact hl n hn

theorem tracks_call {s : Sys} {l : List Item} {given : List NodeId} (h : Tracks s l given) {op : Op}
    (hc : op.isCall = true) (ha : Allowed s l op) :
    ∃ s', step s op = some (s', specAnswer l op) ∧ Tracks s' (specStep l op) given := by
  obtain ⟨left, hg, hl⟩ := h.good
  obtain ⟨s', h1, h2⟩ := good_step hg ha
  exact ⟨s', h1, ⟨_, h2, left_specStep hl h.content⟩, content_specStep hc h.content⟩

/-- what the rest of the program does -/
def givenBy : Op → List NodeId
  | .content _ ns => ns
  | _ => []

theorem tracks_env {s : Sys} {l : List Item} {given : List NodeId} (h : Tracks s l given) {op : Op}
    (hc : op.isCall = false) (ha : Allowed s l op) :
    ∃ s', step s op = some (s', none) ∧ Tracks s' (specStep l op) (givenBy op ++ given) := by
  obtain ⟨left, hg, hl⟩ := h.good
  obtain ⟨s', h1, h2⟩ := good_step hg ha
  have hans : specAnswer l op = none := by cases op <;> first | rfl | cases hc
  rw [hans] at h1
  refine ⟨s', h1, ⟨_, h2, fun n hn => List.mem_append_right _ (left_specStep hl h.content n hn)⟩, ?_⟩
  intro x hx n hn
  cases op with
  | content k ns =>
    simp only [specStep, specContent] at hx
    obtain ⟨y, hy, e⟩ := List.mem_map.1 hx
    split at e
    · subst e; exact List.mem_append_left _ hn
    · exact List.mem_append_right _ (h.content x (e ▸ hy) n hn)
  | insert => cases hc
  | remove => cases hc
  | moveBefore => cases hc
  | swap => cases hc
  | retain => cases hc
  | _ => exact List.mem_append_right _ (h.content x hx n hn)

theorem env_keys {l : List Item} {op : Op} (hc : op.isCall = false) :
    (specStep l op).map Item.key = l.map Item.key := by
  cases op with
  | content k ns =>
    simp only [specStep, specContent, List.map_map]
    apply List.map_congr_left
    intro x _
    simp only [Function.comp]
    split <;> rfl
  | insert => cases hc
  | remove => cases hc
  | moveBefore => cases hc
  | swap => cases hc
  | retain => cases hc
  | _ => rfl

/-! ## which nodes are in the document -/

theorem insertBefore_fresh {d d' : Dom} {c n m : NodeId} {r : Option NodeId}
    (h : d.insertBefore c n r = some d') (hm : Fresh d m) (hne : m ≠ n) : Fresh d' m := by
  intro x hx
  unfold Dom.insertBefore at h
  cases r with
  | none =>
    simp only [Option.some.injEq] at h
    subst h
    simp only [Dom.detach] at hx
    split at hx
    · rcases List.mem_append.1 hx with hx | hx
      · exact hm _ (List.mem_filter.1 hx).1
      · exact hne (List.mem_singleton.1 hx)
    · exact hm _ (List.mem_filter.1 hx).1
  | some r =>
    simp only at h
    split at h
    · split at h
      · cases h; exact hm _ hx
      · simp only [Option.some.injEq] at h
        subst h
        simp only [Dom.detach] at hx
        split at hx
        · rcases mem_insertBeforeIn.1 hx with hx | hx
          · exact hne hx
          · exact hm _ (List.mem_filter.1 hx).1
        · exact hm _ (List.mem_filter.1 hx).1
    · cases h

theorem removeChild_fresh {d d' : Dom} {c n m : NodeId} (h : d.removeChild c n = some d') (hm : Fresh d m) :
    Fresh d' m := by
  intro x hx
  unfold Dom.removeChild at h
  split at h
  · simp only [Option.some.injEq] at h
    subst h
    simp only at hx
    split at hx
    · exact hm _ (List.mem_filter.1 hx).1
    · exact hm _ hx
  · cases h

theorem removeMarkers_fresh {d d' : Dom} {c m : NodeId} {x : Stored} (h : removeMarkers d c x = some d')
    (hm : Fresh d m) : Fresh d' m := by
  simp only [removeMarkers, Option.bind_eq_bind, Option.bind_eq_some_iff] at h
  obtain ⟨d1, e1, e2⟩ := h
  exact removeChild_fresh e2 (removeChild_fresh e1 hm)

theorem nextIn_mem {n m : NodeId} {l : List NodeId} (h : nextIn n l = some m) : m ∈ l := by
  induction l with
  | nil => cases h
  | cons x xs ih =>
    unfold nextIn at h
    split at h
    · exact List.mem_cons_of_mem _ (List.mem_of_head? h)
    · exact List.mem_cons_of_mem _ (ih h)

theorem moveLoop_fresh {src dst stop m : NodeId} {r : Option NodeId} (fuel : Nat) :
    ∀ {d d' : Dom} {node : NodeId}, moveLoop src dst stop r fuel d node = some d' → Fresh d m → m ≠ node →
      Fresh d' m := by
  induction fuel with
  | zero => intro d d' node h; cases h
  | succ fuel ih =>
    intro d d' node h hm hne
    simp only [moveLoop, Option.bind_eq_bind, Option.bind_eq_some_iff] at h
    obtain ⟨d1, e1, h⟩ := h
    have hm1 := insertBefore_fresh e1 hm hne
    split at h
    · simp only [pure, Option.some.injEq] at h; subst h; exact hm1
    · split at h
      · cases h
      · rename_i k hk
        refine ih h hm1 ?_
        rintro rfl
        exact hm src (nextIn_mem hk)

theorem Good.marker_in {s : Sys} {l : List Item} {left : List NodeId} (hg : Good s l left) {k : Key} {x : Stored}
    (h : s.list.get k = some x) : ¬ Fresh s.dom x.start ∧ ¬ Fresh s.dom x.stop := by
  unfold DynList.get at h
  simp only [Option.map_eq_some_iff] at h
  obtain ⟨e, he, rfl⟩ := h
  have hm := List.mem_of_find?_eq_some he
  rw [hg.perm.mem_iff] at hm
  obtain ⟨y, hy, hye⟩ := List.mem_map.1 hm
  have hsub := (shows_sublist hg.shows).subset
  have h1 : y.start ∈ s.dom.kids s.list.container :=
    hsub (List.mem_flatMap.2 ⟨y, hy, by simp [Item.nodes]⟩)
  have h2 : y.stop ∈ s.dom.kids s.list.container :=
    hsub (List.mem_flatMap.2 ⟨y, hy, by simp [Item.nodes]⟩)
  have hs : e.2 = ⟨y.start, y.stop⟩ := by rw [← hye]; rfl
  rw [hs]
  exact ⟨fun hf => hf _ h1, fun hf => hf _ h2⟩

/-- the nodes that a call creates -/
def madeBy : Op → List NodeId
  | .insert _ _ x y => [x, y]
  | _ => []

theorem retainLoop_fresh {c m : NodeId} {keep : Key → Bool} (es : List (Key × Stored)) :
    ∀ {d d' : Dom}, retainLoop c keep es d = some d' → Fresh d m → Fresh d' m := by
  induction es with
  | nil => intro d d' h hm; cases h; exact hm
  | cons e es ih =>
    intro d d' h hm
    simp only [retainLoop, Option.bind_eq_bind] at h
    split at h
    · exact ih h hm
    · obtain ⟨d1, e1, h⟩ := Option.bind_eq_some_iff.1 h
      exact ih h (removeMarkers_fresh e1 hm)

theorem call_fresh {s s' : Sys} {l : List Item} {left : List NodeId} (hg : Good s l left) {op : Op} {a : Option Bool}
    (hc : op.isCall = true) (h : step s op = some (s', a)) {m : NodeId} (hm : Fresh s.dom m)
    (hn : m ∉ madeBy op) : Fresh s'.dom m := by
  cases op with
  | insert k b x y =>
    simp only [madeBy, List.mem_cons, List.not_mem_nil, or_false, not_or] at hn
    simp only [step, Verif.Lists.insert, Option.map_eq_some_iff, Option.bind_eq_bind, Option.bind_eq_some_iff] at h
    obtain ⟨r, ⟨af, -, d1, e1, d2, e2, h⟩, he⟩ := h
    have hm2 := insertBefore_fresh e2 (insertBefore_fresh e1 hm hn.2) hn.1
    split at h
    · obtain ⟨d3, e3, h⟩ := Option.bind_eq_some_iff.1 h
      simp only [pure, Option.some.injEq] at h
      subst h
      cases he
      exact removeMarkers_fresh e3 hm2
    · simp only [pure, Option.some.injEq] at h
      subst h
      cases he
      exact hm2
  | remove k =>
    simp only [step, remove, Option.map_eq_some_iff] at h
    obtain ⟨r, h, he⟩ := h
    split at h
    · simp only [Option.bind_eq_bind, Option.bind_eq_some_iff, pure, Option.some.injEq] at h
      obtain ⟨d1, e1, h⟩ := h
      subst h
      cases he
      exact removeMarkers_fresh e1 hm
    · cases h; cases he; exact hm
  | moveBefore k b =>
    simp only [step, moveBefore, Option.map_eq_some_iff, Option.bind_eq_bind, Option.bind_eq_some_iff] at h
    obtain ⟨d, ⟨af, -, x, hx, h⟩, he⟩ := h
    cases he
    refine moveLoop_fresh _ h hm ?_
    rintro rfl
    exact (hg.marker_in hx).1 hm
  | swap a b =>
    simp only [step, swap, Option.map_eq_some_iff, Option.bind_eq_bind, Option.bind_eq_some_iff] at h
    obtain ⟨d, ⟨x1, hx1, x2, hx2, h⟩, he⟩ := h
    cases he
    split at h
    · simp only [pure, Option.some.injEq] at h; subst h; exact hm
    · obtain ⟨d1, e1, h⟩ := Option.bind_eq_some_iff.1 h
      refine moveLoop_fresh _ h (moveLoop_fresh _ e1 hm ?_) ?_
      · rintro rfl; exact (hg.marker_in hx1).1 hm
      · rintro rfl; exact (hg.marker_in hx2).1 hm
  | retain p =>
    simp only [step, retain, Option.map_eq_some_iff, Option.bind_eq_bind, Option.bind_eq_some_iff, pure,
      Option.some.injEq] at h
    obtain ⟨r, ⟨d1, e1, h⟩, he⟩ := h
    subst h
    cases he
    exact retainLoop_fresh _ e1 hm
  | _ => cases hc

/-! ## sequences of calls -/

/-- What is asked of a call, apart from the nodes it creates. -/
def CallOk (l : List Item) : Op → Prop
  | .insert _ b _ _ => ∀ k, b = some k → Has l k
  | .remove _ => True
  | .moveBefore k b => Has l k ∧ ∀ k', b = some k' → Has l k' ∧ k' ≠ k
  | .swap a b => Has l a ∧ Has l b ∧ ¬ directlyBefore a b l
  | .retain _ => True
  | _ => False

def CallsOk (l : List Item) : List Op → Prop
  | [] => True
  | op :: ops => CallOk l op ∧ CallsOk (specStep l op) ops

theorem callsOk_append {ops1 ops2 : List Op} : ∀ {l : List Item},
    CallsOk l (ops1 ++ ops2) ↔ CallsOk l ops1 ∧ CallsOk (ops1.foldl specStep l) ops2 := by
  induction ops1 with
  | nil => intro l; simp [CallsOk]
  | cons op ops ih => intro l; simp only [List.cons_append, CallsOk, List.foldl_cons, ih, and_assoc]

/-- the answers of a plain list -/
def answers (l : List Item) : List Op → List (Option Bool)
  | [] => []
  | op :: ops => specAnswer l op :: answers (specStep l op) ops

theorem CallOk.call {l : List Item} {op : Op} (h : CallOk l op) : op.isCall = true := by
  cases op <;> first | rfl | exact h.elim

theorem run_calls (ops : List Op) : ∀ {s : Sys} {l : List Item} {given : List NodeId}, Tracks s l given →
    CallsOk l ops → (ops.flatMap madeBy).Nodup → (∀ n ∈ ops.flatMap madeBy, Fresh s.dom n) →
    ∃ s', run s ops = some (s', answers l ops) ∧ Tracks s' (ops.foldl specStep l) given ∧
      ∀ n, Fresh s.dom n → n ∉ ops.flatMap madeBy → Fresh s'.dom n := by
  induction ops with
  | nil => intro s l given h _ _ _; exact ⟨s, rfl, h, fun n hn _ => hn⟩
  | cons op ops ih =>
    intro s l given h hok hnd hfr
    obtain ⟨hok1, hok2⟩ := hok
    rw [List.flatMap_cons, List.nodup_append] at hnd
    have hcall := hok1.call
    have ha : Allowed s l op := by
      cases op with
      | insert k b x y =>
        refine ⟨hok1, hfr x (by simp [madeBy]), hfr y (by simp [madeBy]), ?_⟩
        have := hnd.1
        simp only [madeBy, List.nodup_cons, List.mem_singleton] at this
        exact this.1
      | remove k => trivial
      | moveBefore k b => exact hok1
      | swap a b => exact hok1
      | retain p => trivial
      | _ => cases hcall
    obtain ⟨s1, e1, t1⟩ := tracks_call h hcall ha
    have hfr1 : ∀ n, Fresh s.dom n → n ∉ madeBy op → Fresh s1.dom n :=
      fun n hn hm => by obtain ⟨left, hg, -⟩ := h.good; exact call_fresh hg hcall e1 hn hm
    obtain ⟨s2, e2, t2, f2⟩ := ih t1 hok2 hnd.2.1 (by
      intro n hn
      refine hfr1 n (hfr n (by simp only [List.flatMap_cons, List.mem_append]; exact Or.inr hn)) ?_
      intro hm
      exact hnd.2.2 n hm n hn rfl)
    refine ⟨s2, ?_, t2, ?_⟩
    · simp only [run, e1, e2, bind, Option.bind, pure, answers]
    · intro n hn hm
      simp only [List.flatMap_cons, List.mem_append, not_or] at hm
      exact f2 n (hfr1 n hn hm.1) hm.2

end Verif.Lists
