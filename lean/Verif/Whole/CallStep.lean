import Verif.Whole.Keeps
/-! # A call of a list -/
namespace Verif.Whole
open Verif.Dom Verif.Lists Verif.Lists.Forest

/-! ## about forests -/

theorem noList_seq {i : Nat} {f : Forest} (hl : f.Level 2) (h : NoList i f) : seq (.list i) .top f = [] := by
  induction f with
  | nil => rfl
  | node n r ih => rw [seq, if_neg (by simp), ih hl h]
  | item k x y m r _ ih => exact absurd hl.1 (by simp)
  | list j x y m r _ ih => rw [seq, ih hl.2.2 h.2, level1_other hl.2.1 (fun e => h.1 e.symm)]; rfl

theorem mem_content {f : Forest} {e : Key × Stored × List NodeId} (h : e ∈ f.content) : (e.1, e.2.1) ∈ f.entries := by
  rw [← content_entries]
  exact List.mem_map.2 ⟨e, h, rfl⟩

theorem content_of_entry {f : Forest} {k : Key} {s : Stored} (h : (k, s) ∈ f.entries) :
    ∃ e ∈ f.content, e.1 = k ∧ e.2.1 = s := by
  rw [← content_entries] at h
  obtain ⟨e, he, h⟩ := List.mem_map.1 h
  cases h
  exact ⟨e, he, rfl, rfl⟩

theorem stop_mem {f : Forest} {k : Key} {s : Stored} (h : (k, s) ∈ f.entries) : s.stop ∈ f.flat :=
  marker_mem (entry_marker h).2

theorem stop_unique {f : Forest} (hnd : f.flat.Nodup) {e e' : Key × Stored × List NodeId} (h : e ∈ f.content)
    (h' : e' ∈ f.content) (hs : e.2.1.stop = e'.2.1.stop) : e = e' := by
  induction f with
  | nil => cases h
  | node n r ih =>
    simp only [Forest.flat, List.nodup_cons] at hnd
    exact ih hnd.2 h h'
  | item k x y m r _ ih =>
    simp only [Forest.flat, List.nodup_cons, List.nodup_append] at hnd
    have hy : ∀ e ∈ r.content, e.2.1.stop ≠ y := by
      intro e he hey
      have := stop_mem (mem_content he)
      rw [hey] at this
      exact hnd.2.2.1.1 this
    rcases List.mem_cons.1 h with h1 | h1 <;> rcases List.mem_cons.1 h' with h2 | h2
    · rw [h1, h2]
    · rw [h1] at hs; exact absurd hs.symm (hy _ h2)
    · rw [h2] at hs; exact absurd hs (hy _ h1)
    · exact ih hnd.2.2.1.2 h1 h2
  | list j x y m r _ ih =>
    simp only [Forest.flat, List.nodup_cons, List.nodup_append] at hnd
    exact ih hnd.2.2.1.2 h h'

theorem mem_item {f : Forest} (hl : f.Level 1) {i : Nat} {y q : NodeId} :
    q ∈ seq (.item y) (.list i) f ↔ ∃ e ∈ f.content, e.2.1.stop = y ∧ q ∈ e.2.2 := by
  rw [level1_item hl]
  simp only [List.mem_flatMap]
  constructor
  · rintro ⟨e, he, h⟩
    split at h
    · rename_i hy; exact ⟨e, he, hy, h⟩
    · cases h
  · rintro ⟨e, he, hy, h⟩
    exact ⟨e, he, by rw [if_pos hy]; exact h⟩

theorem flatMap_single {α β : Type} {f : α → List β} {l : List α} {a : α} (ha : a ∈ l)
    (h : ∀ b ∈ l, b ≠ a → f b = []) (hn : l.Nodup) : l.flatMap f = f a := by
  induction l with
  | nil => cases ha
  | cons x l ih =>
    rw [List.nodup_cons] at hn
    rw [List.flatMap_cons]
    rcases List.mem_cons.1 ha with rfl | ha
    · have : l.flatMap f = [] := by
        rw [List.flatMap_eq_nil_iff]
        intro b hb
        exact h b (by simp [hb]) fun e => hn.1 (e ▸ hb)
      rw [this, List.append_nil]
    · rw [h x (by simp) (fun e => hn.1 (e ▸ ha)), List.nil_append]
      exact ih ha (fun b hb => h b (by simp [hb])) hn.2

theorem content_nodup {f : Forest} (hk : f.keys.Nodup) : f.content.Nodup := by
  rw [← content_keys] at hk
  rw [List.Nodup, List.pairwise_map] at hk
  exact hk.imp fun h e => h (by rw [e])

theorem item_nodes {f : Forest} (hl : f.Level 1) (hnd : f.flat.Nodup) (hk : f.keys.Nodup) {i : Nat}
    {e : Key × Stored × List NodeId} (he : e ∈ f.content) : seq (.item e.2.1.stop) (.list i) f = e.2.2 := by
  rw [level1_item hl, flatMap_single he ?_ (content_nodup hk), if_pos rfl]
  intro b hb hne
  rw [if_neg]
  exact fun hs => hne (stop_unique hnd hb he hs)

theorem item_none {f : Forest} (hl : f.Level 1) {i : Nat} {y : NodeId} (h : ∀ e ∈ f.content, e.2.1.stop ≠ y) :
    seq (.item y) (.list i) f = [] := by
  rw [level1_item hl, List.flatMap_eq_nil_iff]
  intro e he
  rw [if_neg (h e he)]

/-! ## about calls -/

theorem rowOk_keys {α β : Type} {rows : List (Key × α)} {rows' : List (Key × β)}
    (h : rows.map (·.1) = rows'.map (·.1)) {c : LCall} (hok : RowOk rows c) : RowOk rows' c := by
  cases c <;> simp only [RowOk, h] at hok ⊢ <;> exact hok

theorem adjacent_infix {a b : Key} {f : Forest} (h : f.adjacent a b) : [a, b] <:+: f.keys := by
  obtain ⟨p, xa, ya, ma, xb, yb, mb, q, rfl⟩ := h
  refine ⟨p.keys, q.keys, ?_⟩
  simp [keys, entries]

theorem callOk {n : Nat} {d : Dom} {m : Forest} {c : LCall} (hok : RowOk m.entries c)
    (hf : ∀ k b a s, c = .insert k b a s → Lists.Fresh d n ∧ Lists.Fresh d (n + 1)) : (c.call n).ok d m := by
  cases c with
  | insert k b a s =>
    obtain ⟨h1, h2⟩ := hf k b a s rfl
    exact ⟨hok, h1, h2, by simp⟩
  | remove k => trivial
  | moveBefore k b => exact hok
  | swap a b => exact ⟨hok.1, hok.2.1, fun h => hok.2.2 (adjacent_infix h)⟩
  | retain p => trivial

theorem run_same {c : Call} {d d' : Dom} {L L' : DynList} {a : Option Bool} (h : c.run d L = some (d', L', a)) :
    L'.container = L.container ∧ L'.frag = L.frag ∧ L'.listStart = L.listStart ∧ L'.listEnd = L.listEnd := by
  cases c with
  | insert k b x y =>
    simp only [Call.run, Option.map_eq_some_iff] at h
    obtain ⟨⟨d1, L1, a1⟩, h, e⟩ := h
    cases e
    simp only [Lists.insert, Option.bind_eq_bind, Option.bind_eq_some_iff] at h
    obtain ⟨q, -, d2, -, d3, -, h⟩ := h
    split at h
    · simp only [Option.pure_def, Option.bind_eq_some_iff, Option.some.injEq, Prod.mk.injEq] at h
      obtain ⟨d4, -, -, rfl, -⟩ := h
      exact ⟨rfl, rfl, rfl, rfl⟩
    · simp only [Option.pure_def, Option.some.injEq, Prod.mk.injEq] at h
      obtain ⟨-, rfl, -⟩ := h
      exact ⟨rfl, rfl, rfl, rfl⟩
  | remove k =>
    simp only [Call.run, Option.map_eq_some_iff] at h
    obtain ⟨⟨d1, L1, a1⟩, h, e⟩ := h
    cases e
    simp only [Lists.remove] at h
    split at h
    · simp only [Option.bind_eq_bind, Option.pure_def, Option.bind_eq_some_iff, Option.some.injEq, Prod.mk.injEq] at h
      obtain ⟨d4, -, -, rfl, -⟩ := h
      exact ⟨rfl, rfl, rfl, rfl⟩
    · cases h
      exact ⟨rfl, rfl, rfl, rfl⟩
  | moveBefore k b =>
    simp only [Call.run, Option.map_eq_some_iff] at h
    obtain ⟨d1, -, e⟩ := h
    cases e
    exact ⟨rfl, rfl, rfl, rfl⟩
  | swap a b =>
    simp only [Call.run, Option.map_eq_some_iff] at h
    obtain ⟨d1, -, e⟩ := h
    cases e
    exact ⟨rfl, rfl, rfl, rfl⟩
  | retain p =>
    simp only [Call.run, Option.map_eq_some_iff] at h
    obtain ⟨⟨d1, L1⟩, h, e⟩ := h
    cases e
    simp only [Lists.retain, Option.bind_eq_bind, Option.pure_def, Option.bind_eq_some_iff, Option.some.injEq,
      Prod.mk.injEq] at h
    obtain ⟨d4, -, -, rfl⟩ := h
    exact ⟨rfl, rfl, rfl, rfl⟩

/-- The call takes the item with the end marker `y` out of the list. -/
def Out (c : LCall) (rows : List (Key × Stored)) (y : NodeId) : Prop :=
  ∃ k s, (k, ⟨s, y⟩) ∈ rows ∧ gone c k = true

open Classical in
/-- Where the groups are after a call. -/
noncomputable def callLay (l : Lay) (i n : Nat) (c : LCall) (rows : List (Key × Stored)) (home : NodeId) : Lay where
  at_ := fun g => if (added c).isSome ∧ g = n + 1 then home else l.at_ g
  lab := fun g => if (added c).isSome ∧ g = n + 1 then .item (n + 1) else
    match l.lab g with
    | .item y => if Out c rows y then .list i else .item y
    | κ => κ

section
variable {l : Lay} {lists : Nat → Option DynList} {fgn : List (NodeId × NodeId)} {O : Orders} {D : Display}
  {F : Page}

theorem Paged.items {d : Dom} (h : Paged l lists fgn O D d F) {i : Nat} {L : DynList} (hL : lists i = some L) :
    L.items.Perm (O i) := by
  obtain ⟨f1, f2, m, e, hn1, hn2, hm1, hl1, hl2, hent, hhas, hkeys⟩ := h.list hL
  obtain ⟨L', hL', -, -, hp, -⟩ := h.ninv.known _ _ _ _ _ hhas
  rw [show lists i = some L' from hL'] at hL
  cases hL
  rw [← hent]; exact hp

theorem Paged.call {st : State} {i n : Nat} {L : DynList} {c : LCall} (hi : Inv l.P D st)
    (h : Paged l lists fgn O D st.dom F) (hL : lists i = some L) (hok : RowOk (O i) c)
    (hf : ∀ k b a s, c = .insert k b a s → (∀ x, n ∉ st.dom.kids x ∧ n + 1 ∉ st.dom.kids x) ∧
      ∀ x ∈ D.shown, x.group ≠ n + 1) :
    ∃ d' L' D' F' ans, (c.call n).run st.dom L = some (d', L', ans) ∧
      L'.container = L.container ∧ L'.frag = L.frag ∧
      Inv (callLay l i n c (O i) L.container).P D' ⟨st.groups, d'⟩ ∧
      Paged (callLay l i n c (O i) L.container) (fun j => if j = i then some L' else lists j) fgn
        (fun j => if j = i then rowStep ⟨n, n + 1⟩ (O i) c else O j) D' d' F' ∧
      D'.shown = D.shown ∧
      ∀ p x, (p, x) ∈ D'.foreign → (∃ p', (p', x) ∈ D.foreign ∧ (p' = p)) ∨
        (p = L.container ∧ (added c).isSome ∧ (x = n ∨ x = n + 1)) := by
  obtain ⟨f1, f2, m, e, hn1, hn2, hm1, hl1, hl2, hent, hhas, hkeys⟩ := h.list hL
  have hnd := h.nodup L.container
  rw [e, Forest.flat_append, Forest.flat] at hnd
  have hndm : m.flat.Nodup := by
    simp only [List.nodup_append, List.nodup_cons] at hnd; exact hnd.2.1.2.1
  have hout : ∀ y ∈ m.flat, y ∉ f1.flat ∧ y ∉ f2.flat := by
    intro y hy
    simp only [List.nodup_append, List.nodup_cons, List.mem_append, List.mem_cons] at hnd
    refine ⟨fun hy1 => hnd.2.2 y hy1 y (.inr (.inl hy)) rfl, fun hy2 => hnd.2.1.2.2.2 y hy y (.inr hy2) rfl⟩
  have hokm : RowOk m.entries c := by rw [hent]; exact hok
  have hokc : RowOk m.content c := rowOk_keys (by rw [content_keys, keys]) hokm
  have hkc : (m.content.map (·.1)).Nodup := by rw [content_keys]; exact hkeys
  have hadd : ∀ k, added c = some k → ∃ b a s, c = .insert k b a s := by
    intro k hk
    cases c <;> simp only [added, Option.some.injEq, reduceCtorEq] at hk
    subst hk
    exact ⟨_, _, _, rfl⟩
  have hnew : (added c).isSome → ∀ x ∈ D.shown, x.group ≠ n + 1 := by
    intro ha
    obtain ⟨k, hk⟩ := Option.isSome_iff_exists.1 ha
    obtain ⟨b, a, s, hc⟩ := hadd k hk
    exact (hf _ _ _ _ hc).2
  -- the call
  obtain ⟨L0, m0, w', hL0, hm0, hstep, hn'⟩ := ninv_call h.ninv (i := i) (c := c.call n)
    ⟨L, m, hL, hhas, callOk hokm fun k b a s hc => ⟨fun x => ((hf k b a s hc).1 x).1, fun x => ((hf k b a s hc).1 x).2⟩⟩
  obtain rfl : L = L0 := by
    have := hL.symm.trans hL0
    cases this; rfl
  simp only [nstep, Option.bind_eq_bind, Option.pure_def, Option.bind_eq_some_iff, Option.some.injEq,
    Prod.mk.injEq] at hstep
  obtain ⟨L1, hL1, ⟨d', L', ans⟩, hrun, rfl, -⟩ := hstep
  obtain rfl : L = L1 := by
    have := hL.symm.trans hL1
    cases this; rfl
  obtain ⟨hcont, hfrag, hstart, hend⟩ := run_same hrun
  obtain ⟨hcs, hls⟩ := content_spec hm1 n c hokc
  obtain ⟨hlo1, hlo2, hlo3⟩ := loose_spec hm1 n c hokc hkc
  generalize hm' : (c.call n).spec m = m' at hcs hls hlo1 hlo2 hlo3
  have hents : m'.entries = rowStep ⟨n, n + 1⟩ (O i) c := by
    rw [← content_entries, hcs, rowStep_map (fun x : Stored × List NodeId => x.1) (⟨n, n + 1⟩, []), content_entries, hent]
  have hrow : ∀ x, x ∈ rowStep ⟨n, n + 1⟩ (O i) c ↔ (x ∈ O i ∧ gone c x.1 = false) ∨
      (x.2 = ⟨n, n + 1⟩ ∧ added c = some x.1) := mem_rowStep (by rw [← hent]; exact hkeys) hok
  have hcont' : ∀ x, x ∈ m'.content ↔ (x ∈ m.content ∧ gone c x.1 = false) ∨
      (x.2 = (⟨n, n + 1⟩, []) ∧ added c = some x.1) := by rw [hcs]; exact mem_rowStep hkc hokc
  obtain ⟨F', hF'⟩ : ∃ F', F' = nspec F (.call i (c.call n)) := ⟨_, rfl⟩
  rw [← hF'] at hn'
  have hat : F'.at_ L.container = f1 ++ Forest.list i L.listStart L.listEnd m' f2 := by
    rw [hF']
    show (F.at_ L.container).atList i _ = _
    rw [e, atList_split hl1 hl2 hn1 hn2, hm']
  have hoth : ∀ x, x ≠ L.container → F'.at_ x = F.at_ x := by
    intro x hx
    rw [hF']
    exact atList_none fun a b m1 h1 => hx (h.only hL h1).1
  -- items that go
  have hOut : ∀ y, Out c (O i) y ↔ ∃ x ∈ m.content, x.2.1.stop = y ∧ gone c x.1 = true := by
    intro y
    constructor
    · rintro ⟨k, s, h1, h2⟩
      rw [← hent] at h1
      obtain ⟨x, hx, rfl, e2⟩ := content_of_entry h1
      exact ⟨x, hx, by rw [e2], h2⟩
    · rintro ⟨x, hx, rfl, h2⟩
      exact ⟨x.1, x.2.1.start, by rw [← hent]; exact mem_content hx, h2⟩
  have hOutAt : ∀ g y, l.lab g = .item y → Out c (O i) y → l.at_ g = L.container := by
    intro g y hg ho
    obtain ⟨x, hx, rfl, -⟩ := (hOut y).1 ho
    refine h.one (marker_mem (h.ref hg).2) ?_
    rw [e]
    simp [Forest.flat, stop_mem (mem_content hx)]
  generalize hl' : callLay l i n c (O i) L.container = l'
  have hat' : ∀ x ∈ D.shown, l'.at_ x.group = l.at_ x.group := by
    intro x hx
    rw [← hl']
    simp only [callLay]
    rw [if_neg]
    rintro ⟨h1, h2⟩
    exact hnew h1 x hx h2
  have hlab' : ∀ x ∈ D.shown, l'.lab x.group = match l.lab x.group with
      | .item y => open Classical in if Out c (O i) y then .list i else .item y
      | κ => κ := by
    intro x hx
    rw [← hl']
    simp only [callLay]
    rw [if_neg]
    rintro ⟨h1, h2⟩
    exact hnew h1 x hx h2
  -- the nodes of a group, by what has become of it
  have hlabel : ∀ x ∈ D.shown, (l'.lab x.group = l.lab x.group ∧ ∀ y, l.lab x.group = .item y → ¬ Out c (O i) y) ∨
      (∃ y, l.lab x.group = .item y ∧ Out c (O i) y ∧ l'.lab x.group = .list i ∧ l.at_ x.group = L.container) := by
    intro x hx
    have h1 := hlab' x hx
    cases hk : l.lab x.group with
    | top => rw [hk] at h1; exact .inl ⟨h1, by simp⟩
    | list j => rw [hk] at h1; exact .inl ⟨h1, by simp⟩
    | item y =>
      rw [hk] at h1
      simp only at h1
      by_cases ho : Out c (O i) y
      · rw [if_pos ho] at h1
        exact .inr ⟨y, rfl, ho, h1, hOutAt _ y hk ho⟩
      · rw [if_neg ho] at h1
        exact .inl ⟨h1, fun y' e' => by cases e'; exact ho⟩
  have hseq : ∀ κ, seq κ .top (F.at_ L.container) = seq κ .top f1 ++ (seq κ (.list i) m ++ seq κ .top f2) := by
    intro κ; rw [e, seq_append]; rfl
  have hseq' : ∀ κ, seq κ .top (F'.at_ L.container) = seq κ .top f1 ++ (seq κ (.list i) m' ++ seq κ .top f2) := by
    intro κ; rw [hat, seq_append]; rfl
  have hstop : ∀ x ∈ m.content, seq (.item x.2.1.stop) .top f1 = [] ∧ seq (.item x.2.1.stop) .top f2 = [] := by
    intro x hx
    obtain ⟨h1, h2⟩ := hout _ (stop_mem (mem_content hx))
    exact ⟨seq_item_nil h1 (by simp), seq_item_nil h2 (by simp)⟩
  have hnodes : ∀ x ∈ m.content, seq (.item x.2.1.stop) .top (F.at_ L.container) = x.2.2 := by
    intro x hx
    rw [hseq, (hstop x hx).1, (hstop x hx).2, item_nodes hm1 hndm hkeys hx]
    simp
  -- foreign nodes
  obtain ⟨fo, hfo⟩ := exists_foreign (F' := F') h.marks [L.container] (by
    intro x hx
    exact hoth x (by simpa using hx))
  have hP : Paged l' (fun j => if j = i then some L' else lists j) fgn
        (fun j => if j = i then rowStep ⟨n, n + 1⟩ (O i) c else O j) ⟨D.shown, fo⟩ d' F' := by
    refine ⟨hn', ?_, ?_, hfo, ?_, ?_, ?_⟩
    · intro x
      by_cases hx : x = L.container
      · rw [hx, hat, level_append]; exact ⟨hl1, rfl, hls, hl2⟩
      · rw [hoth x hx]; exact h.level x
    · intro x κ q
      by_cases hx : x = L.container
      · subst hx
        have old := h.cells L.container
        cases κ with
        | top =>
          have : seq .top .top (F'.at_ L.container) = seq .top .top (F.at_ L.container) := by
            rw [hseq, hseq', seq_top_nil (here := .list i) (f := m) (by simp), seq_top_nil (here := .list i) (f := m') (by simp)]
          rw [this, old]
          constructor
          · rintro (h1 | ⟨x, hx, h1, h2, h3⟩)
            · exact .inl h1
            · refine .inr ⟨x, hx, h1, (hat' x hx).trans h2, ?_⟩
              rw [hlab' x hx, h3]
          · rintro (h1 | ⟨x, hx, h1, h2, h3⟩)
            · exact .inl h1
            · refine .inr ⟨x, hx, h1, (hat' x hx).symm.trans h2, ?_⟩
              rcases hlabel x hx with ⟨h4, -⟩ | ⟨y, -, -, h4, -⟩
              · rw [← h4, h3]
              · rw [h4] at h3; cases h3
        | list j =>
          by_cases hj : j = i
          · subst hj
            rw [hseq', noList_seq hl1 hn1, noList_seq hl2 hn2, level1_loose hls]
            simp only [List.nil_append, List.append_nil, reduceCtorEq, false_and, false_or]
            have hold : ∀ q, q ∈ m.loose ↔ ∃ x ∈ D.shown, x.node = q ∧ l.at_ x.group = L.container ∧ l.lab x.group = .list j := by
              intro q
              have := old (.list j) q
              rw [hseq, noList_seq hl1 hn1, noList_seq hl2 hn2, level1_loose hm1] at this
              simpa using this
            constructor
            · intro hq
              rcases hlo3 q hq with h1 | ⟨z, hz, h1, h2⟩
              · obtain ⟨x, hx, h3, h4, h5⟩ := (hold q).1 h1
                exact ⟨x, hx, h3, (hat' x hx).trans h4, by rw [hlab' x hx, h5]⟩
              · rw [← hnodes z hz, old] at h2
                rcases h2 with h2 | ⟨x, hx, h3, h4, h5⟩
                · exact absurd h2.1 (by simp)
                · refine ⟨x, hx, h3, (hat' x hx).trans h4, ?_⟩
                  rcases hlabel x hx with ⟨-, h6⟩ | ⟨y, -, -, h6, -⟩
                  · exact absurd ((hOut _).2 ⟨z, hz, rfl, h1⟩) (h6 _ h5)
                  · exact h6
            · rintro ⟨x, hx, h1, h2, h3⟩
              rcases hlabel x hx with ⟨h4, -⟩ | ⟨y, h4, h5, h6, h7⟩
              · exact hlo1.subset ((hold q).2 ⟨x, hx, h1, (hat' x hx).symm.trans h2, h4.symm.trans h3⟩)
              · obtain ⟨z, hz, rfl, hg⟩ := (hOut y).1 h5
                refine (hlo2 z hz hg).subset ?_
                rw [← hnodes z hz, old]
                exact .inr ⟨x, hx, h1, h7, h4⟩
          · have : seq (.list j) .top (F'.at_ L.container) = seq (.list j) .top (F.at_ L.container) := by
              rw [hseq, hseq', level1_other hm1 hj, level1_other hls hj]
            rw [this, old]
            simp only [reduceCtorEq, false_and, false_or]
            constructor
            · rintro ⟨x, hx, h1, h2, h3⟩
              exact ⟨x, hx, h1, (hat' x hx).trans h2, by rw [hlab' x hx, h3]⟩
            · rintro ⟨x, hx, h1, h2, h3⟩
              refine ⟨x, hx, h1, (hat' x hx).symm.trans h2, ?_⟩
              rcases hlabel x hx with ⟨h4, -⟩ | ⟨y, -, -, h4, -⟩
              · rw [← h4, h3]
              · rw [h4] at h3; cases h3; exact absurd rfl hj
        | item y =>
          have hnewItem : q ∈ seq (.item y) (.list i) m' ↔
              ∃ z ∈ m.content, gone c z.1 = false ∧ z.2.1.stop = y ∧ q ∈ z.2.2 := by
            rw [mem_item hls]
            constructor
            · rintro ⟨z, hz, h1, h2⟩
              rcases (hcont' z).1 hz with ⟨h3, h4⟩ | ⟨h3, -⟩
              · exact ⟨z, h3, h4, h1, h2⟩
              · rw [h3] at h2; cases h2
            · rintro ⟨z, hz, h4, h1, h2⟩
              exact ⟨z, (hcont' z).2 (.inl ⟨hz, h4⟩), h1, h2⟩
          simp only [reduceCtorEq, false_and, false_or]
          constructor
          · intro hq
            obtain ⟨hq', hno⟩ : q ∈ seq (.item y) .top (F.at_ L.container) ∧ ¬ Out c (O i) y := by
              rw [hseq', List.mem_append, List.mem_append, hnewItem] at hq
              rw [hseq, List.mem_append, List.mem_append, mem_item hm1]
              have hno : q ∈ seq (.item y) .top f1 ∨ q ∈ seq (.item y) .top f2 → ¬ Out c (O i) y := by
                intro h1 ho
                obtain ⟨z, hz, rfl, -⟩ := (hOut y).1 ho
                rw [(hstop z hz).1, (hstop z hz).2] at h1
                simp at h1
              rcases hq with h1 | ⟨z, hz, h2, h3, h4⟩ | h1
              · exact ⟨.inl h1, hno (.inl h1)⟩
              · refine ⟨.inr (.inl ⟨z, hz, h3, h4⟩), fun ho => ?_⟩
                obtain ⟨z', hz', h5, h6⟩ := (hOut y).1 ho
                rw [stop_unique hndm hz hz' (h3.trans h5.symm), h6] at h2
                cases h2
              · exact ⟨.inr (.inr h1), hno (.inr h1)⟩
            rw [old] at hq'
            rcases hq' with h1 | ⟨x, hx, h1, h2, h3⟩
            · exact absurd h1.1 (by simp)
            · refine ⟨x, hx, h1, (hat' x hx).trans h2, ?_⟩
              rw [hlab' x hx, h3]
              simp only [if_neg hno]
          · rintro ⟨x, hx, h1, h2, h3⟩
            rcases hlabel x hx with ⟨h4, h5⟩ | ⟨y', -, -, h4, -⟩
            · have hlab := h4.symm.trans h3
              have hno := h5 y hlab
              have hq := (old (.item y) q).2 (.inr ⟨x, hx, h1, (hat' x hx).symm.trans h2, hlab⟩)
              rw [hseq, List.mem_append, List.mem_append, mem_item hm1] at hq
              rw [hseq', List.mem_append, List.mem_append, hnewItem]
              rcases hq with h1 | ⟨z, hz, h6, h7⟩ | h1
              · exact .inl h1
              · refine .inr (.inl ⟨z, hz, ?_, h6, h7⟩)
                cases hg : gone c z.1 with
                | false => rfl
                | true => exact absurd ((hOut y).2 ⟨z, hz, h6, hg⟩) hno
              · exact .inr (.inr h1)
            · rw [h4] at h3; cases h3
      · rw [hoth x hx, h.cells]
        constructor
        · rintro (h1 | ⟨z, hz, h1, h2, h3⟩)
          · exact .inl h1
          · refine .inr ⟨z, hz, h1, (hat' z hz).trans h2, ?_⟩
            rcases hlabel z hz with ⟨h4, -⟩ | ⟨y, -, -, -, h4⟩
            · rw [h4, h3]
            · exact absurd (h2.symm.trans h4) hx
        · rintro (h1 | ⟨z, hz, h1, h2, h3⟩)
          · exact .inl h1
          · rw [hat' z hz] at h2
            refine .inr ⟨z, hz, h1, h2, ?_⟩
            rcases hlabel z hz with ⟨h4, -⟩ | ⟨y, -, -, -, h4⟩
            · rw [← h4, h3]
            · exact absurd (h2.symm.trans h4) hx
    · intro x j a b m1 hm1'
      by_cases hx : x = L.container
      · subst hx
        rw [hat, has_append] at hm1'
        rcases hm1' with h1 | ⟨rfl, -, -, rfl⟩ | h1 | h1
        · have hj : j ≠ i := by rintro rfl; exact (noList_has hl1).1 hn1 _ _ _ h1
          rw [if_neg hj]
          refine h.rows L.container j a b m1 ?_
          rw [e, has_append]; exact .inl h1
        · rw [if_pos rfl]; exact hents
        · exact absurd (has_level hls h1).1 (by simp)
        · have hj : j ≠ i := by rintro rfl; exact (noList_has hl2).1 hn2 _ _ _ h1
          rw [if_neg hj]
          refine h.rows L.container j a b m1 ?_
          rw [e, has_append]; exact .inr (.inr (.inr h1))
      · rw [hoth x hx] at hm1'
        have hj : j ≠ i := by rintro rfl; exact hx (h.only hL hm1').1
        rw [if_neg hj]
        exact h.rows _ _ _ _ _ hm1'
    · intro g y hg
      rw [← hl'] at hg ⊢
      simp only [callLay] at hg ⊢
      by_cases hng : (added c).isSome ∧ g = n + 1
      · rw [if_pos hng] at hg ⊢
        cases hg
        obtain ⟨k, hk⟩ := Option.isSome_iff_exists.1 hng.1
        refine ⟨i, L', k, n, by simp, hcont.symm, ?_⟩
        rw [if_pos rfl, hrow]
        exact .inr ⟨rfl, hk⟩
      · rw [if_neg hng] at hg ⊢
        have : l.lab g = .item y ∧ ¬ Out c (O i) y := by
          cases hk : l.lab g with
          | top => rw [hk] at hg; cases hg
          | list j => rw [hk] at hg; cases hg
          | item y' =>
            rw [hk] at hg
            simp only at hg
            by_cases ho : Out c (O i) y'
            · rw [if_pos ho] at hg; cases hg
            · rw [if_neg ho] at hg; cases hg; exact ⟨rfl, ho⟩
        obtain ⟨j, Lj, k, s, h1, h2, h3⟩ := h.ends g y this.1
        by_cases hj : j = i
        · subst hj
          rw [hL] at h1
          cases h1
          refine ⟨j, L', k, s, by simp, by rw [h2, hcont], ?_⟩
          rw [if_pos rfl, hrow]
          refine .inl ⟨h3, ?_⟩
          cases hgk : gone c k with
          | false => rfl
          | true => exact absurd ⟨k, s, h3, hgk⟩ this.2
        · exact ⟨j, Lj, k, s, by rw [if_neg hj]; exact h1, h2, by rw [if_neg hj]; exact h3⟩
    · intro j Lj hLj
      by_cases hj : j = i
      · subst hj
        rw [if_pos rfl] at hLj
        cases hLj
        rw [hcont, hstart, hend, hat]
        exact ⟨m', by rw [has_append]; exact .inr (.inl ⟨rfl, rfl, rfl, rfl⟩)⟩
      · rw [if_neg hj] at hLj
        obtain ⟨mj, hmj⟩ := h.homes j Lj hLj
        by_cases hx : Lj.container = L.container
        · rw [hx, e, has_append] at hmj
          rw [hx, hat]
          simp only [has_append]
          rcases hmj with h1 | ⟨rfl, -⟩ | h1 | h1
          · exact ⟨mj, .inl h1⟩
          · exact absurd rfl hj
          · exact absurd (has_level hm1 h1).1 (by simp)
          · exact ⟨mj, .inr (.inr (.inr h1))⟩
        · rw [hoth _ hx]; exact ⟨mj, hmj⟩
  refine ⟨d', L', ⟨D.shown, fo⟩, F', ans, hrun, hcont, hfrag, ?_, hP, rfl, ?_⟩
  · refine inv_of_cells hi rfl hP (fun p x hx => ⟨p, (h.marks _ _).2 (.inl hx)⟩) ?_
    intro g
    cases hg : st.groups g with
    | nil => simp
    | cons z zs =>
      have hz : z ∈ st.groups g := by rw [hg]; simp
      have hx := (hi.agree g z.1 z.2).1 hz
      have hold := h.order hi g
      rw [← hg]
      rw [show l'.at_ g = l.at_ g from hat' _ hx]
      have hlb := hlabel _ hx
      simp only at hlb
      by_cases hc : l.at_ g = L.container
      · rw [hc] at hold ⊢
        rcases hlb with ⟨h1, h2⟩ | ⟨y, h1, h2, h3, -⟩
        · rw [h1]
          refine hold.trans ?_
          rw [hseq, hseq']
          refine (List.Sublist.refl _).append ((?_ : List.Sublist _ _).append (List.Sublist.refl _))
          cases hk : l.lab g with
          | top => rw [seq_top_nil (here := .list i) (f := m) (by simp)]; exact List.nil_sublist _
          | list j =>
            by_cases hj : j = i
            · subst hj; rw [level1_loose hm1, level1_loose hls]; exact hlo1
            · rw [level1_other hm1 hj]; exact List.nil_sublist _
          | item y =>
            by_cases hy : ∃ x ∈ m.content, x.2.1.stop = y
            · obtain ⟨x, hx, rfl⟩ := hy
              rw [item_nodes hm1 hndm hkeys hx, level1_item hls]
              have hx' : x ∈ m'.content := by
                refine (hcont' x).2 (.inl ⟨hx, ?_⟩)
                cases hgk : gone c x.1 with
                | false => rfl
                | true => exact absurd ((hOut _).2 ⟨x, hx, rfl, hgk⟩) (h2 _ hk)
              obtain ⟨A, B, hAB⟩ := List.append_of_mem hx'
              rw [hAB, List.flatMap_append, List.flatMap_cons, if_pos rfl]
              exact (List.sublist_append_left _ _).trans (List.sublist_append_right _ _)
            · rw [item_none hm1 fun x hx hs => hy ⟨x, hx, hs⟩]; exact List.nil_sublist _
        · rw [h3]
          rw [h1] at hold
          obtain ⟨x, hx, rfl, hgk⟩ := (hOut y).1 h2
          rw [hnodes x hx] at hold
          rw [hseq', noList_seq hl1 hn1, noList_seq hl2 hn2, level1_loose hls, List.nil_append, List.append_nil]
          exact hold.trans (hlo2 x hx hgk)
      · rw [hoth _ hc]
        rcases hlb with ⟨h1, -⟩ | ⟨y, -, -, -, h1⟩
        · rw [h1]; exact hold
        · exact absurd h1 hc
  · intro p x hx
    have hold : ∀ p x, (F.at_ p).Marker x → (p, x) ∈ D.foreign := fun p x hm => (h.marks p x).2 (.inr hm)
    rcases (hfo p x).1 hx with h1 | h1
    · exact .inl ⟨p, (h.marks _ _).2 (.inl h1), rfl⟩
    · by_cases hp : p = L.container
      · subst hp
        rw [hat] at h1
        have h2 : f1.Marker x ∨ x = L.listStart ∨ x = L.listEnd ∨ m'.Marker x ∨ f2.Marker x := by
          have := (Forest.marker_append x f1 (Forest.list i L.listStart L.listEnd m' f2)).1 h1
          rcases this with h3 | h3 | h3 | h3 | h3
          · exact .inl h3
          · exact .inr (.inl h3)
          · exact .inr (.inr (.inl h3))
          · exact .inr (.inr (.inr (.inl h3)))
          · exact .inr (.inr (.inr (.inr h3)))
        have hin : f1.Marker x ∨ (Forest.list i L.listStart L.listEnd m f2).Marker x → (L.container, x) ∈ D.foreign := by
          intro h3
          apply hold
          rw [e]
          exact (Forest.marker_append _ _ _).2 h3
        rcases h2 with h2 | h2 | h2 | h2 | h2
        · exact .inl ⟨_, hin (.inl h2), rfl⟩
        · exact .inl ⟨_, hin (.inr (.inl h2)), rfl⟩
        · exact .inl ⟨_, hin (.inr (.inr (.inl h2))), rfl⟩
        · obtain ⟨k, s, h3, h4⟩ := level1_marker hls h2
          rw [hents, hrow] at h3
          rcases h3 with ⟨h3, -⟩ | ⟨h3, h5⟩
          · rw [← hent] at h3
            obtain ⟨h6, h7⟩ := entry_marker h3
            refine .inl ⟨_, hin (.inr (.inr (.inr (.inl ?_)))), rfl⟩
            rcases h4 with rfl | rfl
            · exact h6
            · exact h7
          · simp only at h3 h5
            subst h3
            exact .inr ⟨rfl, by rw [h5]; rfl, h4⟩
        · exact .inl ⟨_, hin (.inr (.inr (.inr (.inr h2)))), rfl⟩
      · rw [hoth p hp] at h1
        exact .inl ⟨p, hold p x h1, rfl⟩

end
end Verif.Whole
