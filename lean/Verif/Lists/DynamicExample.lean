import Verif.Lists.DynamicSystem
/-!
# A concrete history of a DynamicList

`Allowed` speaks about all nodes of the document. To show that a concrete history is allowed,
`allowedB` looks at the nodes that have children only.
-/
namespace Verif.Lists
open Verif.Dom

theorem insertBefore_empty {d d' : Dom} {c n x : NodeId} {r : Option NodeId}
    (h : d.insertBefore c n r = some d') (hx : x ≠ c) (he : d.kids x = []) : d'.kids x = [] := by
  cases r with
  | none =>
    simp only [Dom.insertBefore, Option.some.injEq] at h
    subst h
    simp [hx, Dom.detach, he]
  | some r =>
    simp only [Dom.insertBefore] at h
    split at h
    · split at h
      · cases h; exact he
      · simp only [Option.some.injEq] at h
        subst h
        simp [hx, Dom.detach, he]
    · cases h

theorem removeChild_empty {d d' : Dom} {c n x : NodeId}
    (h : d.removeChild c n = some d') (hx : x ≠ c) (he : d.kids x = []) : d'.kids x = [] := by
  simp only [Dom.removeChild] at h
  split at h
  · cases h; simp [hx, he]
  · cases h

theorem removeMarkers_empty {d d' : Dom} {c x : NodeId} {m : Stored}
    (h : removeMarkers d c m = some d') (hx : x ≠ c) (he : d.kids x = []) : d'.kids x = [] := by
  simp only [removeMarkers, bind, Option.bind] at h
  split at h
  · cases h
  · rename_i h1; exact removeChild_empty h hx (removeChild_empty h1 hx he)

theorem moveLoop_empty {src dst stop x : NodeId} {r : Option NodeId} (hx : x ≠ dst) (fuel : Nat) :
    ∀ {d d' : Dom} {node : NodeId}, moveLoop src dst stop r fuel d node = some d' →
    d.kids x = [] → d'.kids x = [] := by
  induction fuel with
  | zero => intro d d' node h; simp [moveLoop] at h
  | succ fuel ih =>
    intro d d' node h he
    simp only [moveLoop, bind, Option.bind, pure] at h
    split at h
    · cases h
    · rename_i d1 h1
      have he1 := insertBefore_empty h1 hx he
      split at h
      · cases h; exact he1
      · split at h
        · cases h
        · exact ih h he1

theorem retainLoop_empty {c x : NodeId} {keep : Key → Bool} (hx : x ≠ c) (es : List (Key × Stored)) :
    ∀ {d d' : Dom}, retainLoop c keep es d = some d' → d.kids x = [] → d'.kids x = [] := by
  induction es with
  | nil => intro d d' h he; simp only [retainLoop] at h; cases h; exact he
  | cons e es ih =>
    intro d d' h he
    simp only [retainLoop, bind, Option.bind] at h
    split at h
    · exact ih h he
    · split at h
      · cases h
      · rename_i h1; exact ih h (removeMarkers_empty h1 hx he)

theorem insertAll_empty {c r x : NodeId} (hx : x ≠ c) (ns : List NodeId) :
    ∀ {d d' : Dom}, insertAll c r ns d = some d' → d.kids x = [] → d'.kids x = [] := by
  induction ns with
  | nil => intro d d' h he; simp only [insertAll] at h; cases h; exact he
  | cons n ns ih =>
    intro d d' h he
    simp only [insertAll, bind, Option.bind] at h
    split at h
    · cases h
    · rename_i h1; exact ih h (insertBefore_empty h1 hx he)

/-- Only the given nodes have children, and they include the container and the fragment. -/
def Within (sup : List NodeId) (s : Sys) : Prop :=
  s.list.container ∈ sup ∧ s.list.frag ∈ sup ∧ ∀ c, c ∉ sup → s.dom.kids c = []

def opWithin (sup : List NodeId) : Op → Bool
  | .render p _ => sup.contains p
  | .place c _ _ => sup.contains c
  | _ => true

theorem within_step {sup : List NodeId} {s s' : Sys} {op : Op} {a : Option Bool}
    (hw : Within sup s) (ho : opWithin sup op = true) (h : step s op = some (s', a)) :
    Within sup s' := by
  obtain ⟨w1, w2, w3⟩ := hw
  have hc : ∀ c, c ∉ sup → c ≠ s.list.container := fun c h e => h (e ▸ w1)
  have hf : ∀ c, c ∉ sup → c ≠ s.list.frag := fun c h e => h (e ▸ w2)
  cases op with
  | insert k b x y =>
    simp only [step, insert, Option.map_eq_some_iff, Option.bind_eq_bind, Option.bind_eq_some_iff] at h
    obtain ⟨⟨d', L', ans⟩, ⟨r, _, d1, h1, d2, h2, h3⟩, h4⟩ := h
    cases h4
    have key : ∀ c, c ∉ sup → d2.kids c = [] := fun c hcs =>
      insertBefore_empty h2 (hc c hcs) (insertBefore_empty h1 (hc c hcs) (w3 c hcs))
    split at h3
    · simp only [Option.bind_eq_some_iff] at h3
      obtain ⟨d3, h5, h6⟩ := h3
      cases h6
      exact ⟨w1, w2, fun c hcs => removeMarkers_empty h5 (hc c hcs) (key c hcs)⟩
    · cases h3
      exact ⟨w1, w2, key⟩
  | remove k =>
    simp only [step, remove, Option.map_eq_some_iff] at h
    obtain ⟨⟨d', L', ans⟩, h1, h4⟩ := h
    cases h4
    split at h1
    · simp only [Option.bind_eq_bind, Option.bind_eq_some_iff] at h1
      obtain ⟨d3, h5, h6⟩ := h1
      cases h6
      exact ⟨w1, w2, fun c hcs => removeMarkers_empty h5 (hc c hcs) (w3 c hcs)⟩
    · cases h1
      exact ⟨w1, w2, w3⟩
  | moveBefore k b =>
    simp only [step, moveBefore, Option.map_eq_some_iff, Option.bind_eq_bind, Option.bind_eq_some_iff] at h
    obtain ⟨d', ⟨r, _, x, _, h1⟩, h4⟩ := h
    cases h4
    exact ⟨w1, w2, fun c hcs => moveLoop_empty (hc c hcs) _ h1 (w3 c hcs)⟩
  | swap k1 k2 =>
    simp only [step, swap, Option.map_eq_some_iff, Option.bind_eq_bind, Option.bind_eq_some_iff] at h
    obtain ⟨d', ⟨x, _, y, _, h1⟩, h4⟩ := h
    cases h4
    split at h1
    · cases h1; exact ⟨w1, w2, w3⟩
    · simp only [Option.bind_eq_some_iff] at h1
      obtain ⟨d1, h5, h6⟩ := h1
      exact ⟨w1, w2, fun c hcs => moveLoop_empty (hc c hcs) _ h6 (moveLoop_empty (hc c hcs) _ h5 (w3 c hcs))⟩
  | retain p =>
    simp only [step, retain, Option.map_eq_some_iff, Option.bind_eq_bind, Option.bind_eq_some_iff] at h
    obtain ⟨⟨d', L'⟩, ⟨d1, h1, h2⟩, h4⟩ := h
    cases h2
    cases h4
    exact ⟨w1, w2, fun c hcs => retainLoop_empty (hc c hcs) _ h1 (w3 c hcs)⟩
  | render p r =>
    simp only [step, render, Option.map_eq_some_iff, Option.bind_eq_bind, Option.bind_eq_some_iff] at h
    obtain ⟨⟨d', L'⟩, ⟨d1, h1, d2, h2, d3, h3, d4, h4, h5⟩, h6⟩ := h
    cases h6
    simp only [opWithin, List.contains_iff_mem] at ho
    have hp : ∀ c, c ∉ sup → c ≠ p := fun c h e => h (e ▸ ho)
    split at h5
    · simp only [Option.bind_eq_some_iff] at h5
      obtain ⟨d5, h7, h8⟩ := h5
      cases h8
      exact ⟨ho, w2, fun c hcs => insertAll_empty (hp c hcs) _ h7 (insertBefore_empty h4 (hp c hcs)
        (removeChild_empty h3 (hp c hcs) (insertBefore_empty h2 (hp c hcs)
          (insertBefore_empty h1 (hp c hcs) (w3 c hcs)))))⟩
    · cases h5
  | unrender =>
    simp only [step, unrender, Option.map_eq_some_iff, Option.bind_eq_bind, Option.bind_eq_some_iff] at h
    obtain ⟨⟨d', L'⟩, ⟨d1, h1, h2⟩, h4⟩ := h
    cases h2
    cases h4
    exact ⟨w2, w2, fun c hcs => moveLoop_empty (hf c hcs) _ h1 (w3 c hcs)⟩
  | content k ns =>
    simp only [step, Option.map_eq_some_iff] at h
    obtain ⟨x, _, h4⟩ := h
    cases h4
    refine ⟨w1, w2, fun c hcs => ?_⟩
    simp only [if_neg (hc c hcs)]
    exact w3 c hcs
  | place c n r =>
    simp only [step, Option.map_eq_some_iff] at h
    obtain ⟨d', h1, h4⟩ := h
    cases h4
    simp only [opWithin, List.contains_iff_mem] at ho
    exact ⟨w1, w2, fun c' hcs => insertBefore_empty h1 (fun e => hcs (e ▸ ho)) (w3 c' hcs)⟩
  | vanish c n =>
    simp only [step, Option.map_eq_some_iff] at h
    obtain ⟨d', h1, h4⟩ := h
    cases h4
    refine ⟨w1, w2, fun c' hcs => ?_⟩
    by_cases hcc : c' = c
    · subst hcc
      simp only [Dom.removeChild, w3 c' hcs] at h1
      simp at h1
    · exact removeChild_empty h1 hcc (w3 c' hcs)

def freshB (sup : List NodeId) (d : Dom) (n : NodeId) : Bool := sup.all fun c => !(d.kids c).contains n

def hasB (l : List Item) (k : Key) : Bool := l.any fun x => x.key == k

/-- `Allowed`, for the calls that `sample` uses. -/
def allowedB (sup : List NodeId) (s : Sys) (l : List Item) : Op → Bool
  | .insert _ b x y => (match b with | none => true | some k => hasB l k) &&
      freshB sup s.dom x && freshB sup s.dom y && x != y
  | .remove _ => true
  | .moveBefore k b => hasB l k && (match b with | none => true | some k' => hasB l k' && k' != k)
  | .swap a b => hasB l a && hasB l b && !decide ([a, b] <:+: l.map (·.key))
  | .retain _ => true
  | .content k ns => l.any fun x => x.key == k && decide ns.Nodup &&
      ns.all fun n => x.content.contains n || freshB sup s.dom n
  | .render p none => s.list.container == s.list.frag && p != s.list.frag
  | .render p (some r) => s.list.container == s.list.frag && p != s.list.frag && (s.dom.kids p).contains r
  | .unrender => s.list.container != s.list.frag
  | _ => false

theorem fresh_of {sup : List NodeId} {s : Sys} (hw : Within sup s) {n : NodeId}
    (h : freshB sup s.dom n = true) : Fresh s.dom n := by
  intro c hc
  by_cases hs : c ∈ sup
  · simp only [freshB, List.all_eq_true] at h
    have := h c hs
    simp at this
    exact this hc
  · rw [hw.2.2 c hs] at hc; cases hc

theorem has_of {l : List Item} {k : Key} (h : hasB l k = true) : Has l k := by
  simp only [hasB, List.any_eq_true, beq_iff_eq] at h
  exact h

theorem allowed_of {sup : List NodeId} {s : Sys} {l : List Item} {op : Op} (hw : Within sup s)
    (h : allowedB sup s l op = true) : Allowed s l op := by
  cases op with
  | insert k b x y =>
    simp only [allowedB, Bool.and_eq_true, bne_iff_ne, ne_eq] at h
    refine ⟨?_, fresh_of hw h.1.1.2, fresh_of hw h.1.2, h.2⟩
    rintro k rfl
    exact has_of h.1.1.1
  | remove k => trivial
  | moveBefore k b =>
    simp only [allowedB, Bool.and_eq_true] at h
    refine ⟨has_of h.1, ?_⟩
    rintro k rfl
    have := h.2
    simp only [Bool.and_eq_true, bne_iff_ne, ne_eq] at this
    exact ⟨has_of this.1, this.2⟩
  | swap a b =>
    simp only [allowedB, Bool.and_eq_true, Bool.not_eq_true', decide_eq_false_iff_not] at h
    exact ⟨has_of h.1.1, has_of h.1.2, h.2⟩
  | retain p => trivial
  | content k ns =>
    simp only [allowedB, List.any_eq_true, Bool.and_eq_true, beq_iff_eq, decide_eq_true_eq, List.all_eq_true,
      Bool.or_eq_true, List.contains_iff_mem] at h
    obtain ⟨x, hx, ⟨hk, hn⟩, ha⟩ := h
    exact ⟨x, hx, hk, hn, fun n hn => (ha n hn).imp id (fresh_of hw)⟩
  | render p r =>
    cases r with
    | none =>
      simp only [allowedB, Bool.and_eq_true, beq_iff_eq, bne_iff_ne, ne_eq] at h
      exact ⟨h.1, h.2, fun r hr => by cases hr⟩
    | some r =>
      simp only [allowedB, Bool.and_eq_true, beq_iff_eq, bne_iff_ne, ne_eq, List.contains_iff_mem] at h
      refine ⟨h.1.1, h.1.2, ?_⟩
      intro r' hr'
      cases hr'
      exact h.2
  | unrender =>
    simp only [allowedB, bne_iff_ne, ne_eq] at h
    exact h
  | place c n r => cases h
  | vanish c n => cases h

def allowedRunB (sup : List NodeId) (s : Sys) (l : List Item) : List Op → Bool
  | [] => true
  | op :: ops => allowedB sup s l op && opWithin sup op &&
      match step s op with
      | none => true
      | some (s', _) => allowedRunB sup s' (specStep l op) ops

theorem allowedRun_of {sup : List NodeId} (ops : List Op) : ∀ {s : Sys} {l : List Item},
    Within sup s → allowedRunB sup s l ops = true → AllowedRun s l ops := by
  induction ops with
  | nil => intro s l _ _; trivial
  | cons op ops ih =>
    intro s l hw h
    simp only [allowedRunB, Bool.and_eq_true] at h
    refine ⟨allowed_of hw h.1.1, ?_⟩
    intro s' a hs
    rw [hs] at h
    exact ih (within_step hw h.1.2 hs) h.2

/-- an empty document -/
def blank : Dom := ⟨fun _ => []⟩

/-- fragment 100, list markers 1 and 2 -/
def fresh : Sys := ⟨⟨fun c => if c = 100 then [1, 2] else []⟩, ⟨[], 100, 100, 1, 2⟩⟩

theorem new_blank : new blank 100 1 2 = some (fresh.dom, fresh.list) := by
  simp only [new, Dom.insertBefore, Dom.detach, blank, bind, Option.bind, pure, fresh]
  congr 3
  funext c
  by_cases h : c = 100 <;> simp [h]

theorem proper_blank : Proper blank := ⟨fun _ => List.nodup_nil, fun _ _ _ h => by cases h⟩

/-- Items 7, 8 and 9 (in that order), of which 8 shows the nodes 50 and 51; the list is rendered in
node 200; 9 is moved before 7, 8 and 9 are swapped, 7 is removed, 8 is replaced. -/
def sample : List Op :=
  [.insert 7 none 11 12, .insert 9 none 15 16, .insert 8 (some 9) 13 14, .content 8 [50, 51],
   .render 200 none, .moveBefore 9 (some 7), .swap 8 9, .remove 7, .insert 8 (some 8) 17 18]

/-- What this history shows: 8 (replaced, without content), its old content, and 9. -/
theorem sample_kids :
    (run fresh sample).map (fun r => r.1.dom.kids 200) = some [1, 17, 18, 50, 51, 15, 16, 2] := by
  decide

theorem sample_spec : (specRun [] [] sample).1 = [⟨8, 17, 18, []⟩, ⟨9, 15, 16, []⟩] := by decide

/-- What the plain list answers. -/
theorem sample_answers : (specRun [] [] sample).2.2 =
    [some false, some false, some false, none, none, none, none, some true, some true] := by decide


theorem within_fresh : Within [100, 200] fresh := by
  refine ⟨by decide, by decide, fun c hc => ?_⟩
  simp only [fresh]
  rw [if_neg]
  rintro rfl
  exact hc (by decide)

theorem sample_allowed : AllowedRun fresh [] sample := allowedRun_of sample within_fresh (by decide)

end Verif.Lists
