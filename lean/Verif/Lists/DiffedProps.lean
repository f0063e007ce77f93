import Verif.Lists.DiffedLemmas2
/-!
# C35: DiffedList shows the requested keys in the requested order

The claim is false: `update` compares with the old keys in their old order and does not notice that
the key it waits for has been moved already. Proved here: an update never panics, always shows exactly
the requested keys and re-creates no item that stays (`diffed_items`); the order is right if every
update so far was smooth (`diffed_in_order_partial`), and after such a history the next update is
right if and only if it is smooth (`diffed_update_iff`). Updates that keep the items that stay in
their order are smooth (`smooth_of_same_order`).
-/
namespace Verif.Lists
open Verif.Dom

/-- what the proof keeps: the items are right, up to their order -/
def DInv (D : Diffed) (l l' : List Item) (given : List NodeId) : Prop :=
  Tracks D.sys l' given ∧ l'.Perm l ∧ l.map Item.key = D.prev

theorem diffed_update {drain : List Key → List Key} (hdr : ∀ l, (drain l).Perm l) {D : Diffed}
    {l l' : List Item} {given : List NodeId} (h : DInv D l l' given) {keys : List Key}
    {mk : Key → NodeId × NodeId} (ha : DiffAllowed D l (.update keys mk)) :
    ∃ D' l'', D.update drain keys mk = some D' ∧ DInv D' (itemsFor mk keys l) l'' given ∧
      (l' = l → (l'' = itemsFor mk keys l ↔ Smooth D.prev keys)) := by
  obtain ⟨ht, hp, hprev⟩ := h
  obtain ⟨hkn, hfn, hff⟩ := ha
  have hln : (l'.map Item.key).Nodup := ht.keys
  have hKp : (l'.map Item.key).Perm D.prev := hprev ▸ hp.map _
  obtain ⟨hok1, hperm1, hrest⟩ := diffLoop_perm (mk := mk) keys D.prev D.prev (l'.map Item.key) [] hln
    (by simpa using hKp) hkn (by simp) (by simp)
  generalize hops : (diffLoop mk D.prev D.prev keys).1 = ops at *
  generalize hre : (diffLoop mk D.prev D.prev keys).2 = rest at *
  have hdm : ∀ k, k ∈ drain rest ↔ k ∈ D.prev ∧ k ∉ keys := fun k => (hdr rest).mem_iff.trans (hrest k)
  have hall : CallsOk l' (ops ++ (drain rest).map .remove) :=
    callsOk_iff.2 (keysOk_append.2 ⟨hok1, removes_ok _ _⟩)
  have hmade : (ops ++ (drain rest).map Op.remove).flatMap madeBy = ops.flatMap madeBy := by
    rw [List.flatMap_append, removes_made, List.append_nil]
  have hsub := diffLoop_made (mk := mk) keys D.prev D.prev
  rw [hops] at hsub
  have hnd : ((ops ++ (drain rest).map Op.remove).flatMap madeBy).Nodup := by
    rw [hmade]; exact hfn.sublist hsub
  have hfr : ∀ n ∈ (ops ++ (drain rest).map Op.remove).flatMap madeBy, Fresh D.sys.dom n := by
    rw [hmade]; exact fun n hn => hff n (hsub.subset hn)
  obtain ⟨s', hrun, ht', -⟩ := run_calls _ ht hall hnd hfr
  have hres : ((ops ++ (drain rest).map Op.remove).foldl specStep l').map Item.key =
      (ops.foldl keyStep (l'.map Item.key)).filter (fun x => decide (x ∉ drain rest)) := by
    rw [keys_run, List.foldl_append, removes_keys]
  have hkperm : (((ops ++ (drain rest).map Op.remove).foldl specStep l').map Item.key).Perm keys := by
    rw [hres]
    refine (hperm1.filter _).trans ?_
    rw [List.nil_append, List.filter_append]
    have e1 : keys.filter (fun x => decide (x ∉ drain rest)) = keys := by
      rw [List.filter_eq_self]
      intro x hx
      simp only [decide_eq_true_eq]
      exact fun hm => ((hdm x).1 hm).2 hx
    have e2 : rest.filter (fun x => decide (x ∉ drain rest)) = [] := by
      rw [List.filter_eq_nil_iff]
      intro x hx
      simp only [decide_eq_true_eq, Decidable.not_not]
      exact (hdr rest).mem_iff.2 hx
    rw [e1, e2, List.append_nil]
  have hfindeq : itemsFor mk keys l' = itemsFor mk keys l := by
    unfold itemsFor
    apply List.map_congr_left
    intro k _
    rw [find_perm hln hp]
  have hitems : ∀ x ∈ itemsFor mk keys l', x ∈ (ops ++ (drain rest).map Op.remove).foldl specStep l' := by
    refine itemsFor_of_calls ht hall hnd hfr ?_ ?_
    · intro k hk hkl op hop
      have hkprev := hKp.mem_iff.1 hkl
      rcases List.mem_append.1 hop with hop | hop
      · have := diffLoop_keeps (mk := mk) keys D.prev D.prev k hkn (Or.inl hkprev)
        rw [hops] at this
        exact this op hop
      · obtain ⟨r, hr, rfl⟩ := List.mem_map.1 hop
        simp only [keepsKey, bne_iff_ne, ne_eq]
        rintro rfl
        exact ((hdm r).1 hr).2 hk
    · intro k hk hkl
      have hkprev : k ∉ D.prev := fun hm => hkl (hKp.mem_iff.2 hm)
      obtain ⟨pre, b, post, e, hpost⟩ := diffLoop_adds (mk := mk) keys D.prev D.prev k hkn hk hkprev
      rw [hops] at e
      refine ⟨pre, b, post ++ (drain rest).map .remove, by rw [e]; simp, ?_⟩
      intro op hop
      rcases List.mem_append.1 hop with hop | hop
      · exact hpost op hop
      · obtain ⟨r, hr, rfl⟩ := List.mem_map.1 hop
        simp only [keepsKey, bne_iff_ne, ne_eq]
        rintro rfl
        exact ((hdm r).1 hr).2 hk
  rw [hfindeq] at hitems
  refine ⟨⟨s', keys⟩, (ops ++ (drain rest).map Op.remove).foldl specStep l', ?_, ⟨ht', ?_, itemsFor_keys⟩, ?_⟩
  · simp only [Diffed.update, hops, hre, hrun, bind, Option.bind, pure]
  · exact perm_of_keys ht'.keys (by rw [itemsFor_keys]; exact hkperm) hitems
  · intro hll
    subst hll
    have hprevn : D.prev.Nodup := hKp.nodup_iff.1 hln
    have hfil : D.prev.filter (fun x => decide (x ∉ ([] : List Key))) = D.prev := by
      rw [List.filter_eq_self]; simp
    obtain ⟨R, r1, r2, r3⟩ := diffLoop_order (mk := mk) keys D.prev D.prev []
      (by rw [List.nil_append, hfil]; exact hprevn) hprevn hkn (by simp) (by simp)
    rw [List.nil_append, hfil, hops] at r2 r3
    have hR : R.filter (fun x => decide (x ∉ drain rest)) = [] := by
      rw [List.filter_eq_nil_iff]
      intro x hx
      simp only [decide_eq_true_eq, Decidable.not_not]
      exact (hdm x).2 (r1 x hx)
    have hK : ∀ (S : List Key), (∀ x ∈ S, x ∈ keys) → S.filter (fun x => decide (x ∉ drain rest)) = S := by
      intro S hS
      rw [List.filter_eq_self]
      intro x hx
      simp only [decide_eq_true_eq]
      exact fun hm => ((hdm x).1 hm).2 (hS x hx)
    rw [smooth_iff]
    constructor
    · intro he
      have hk := congrArg (List.map Item.key) he
      rw [itemsFor_keys, hres, hprev] at hk
      apply Classical.byContradiction
      intro hns
      obtain ⟨A1, p, A2, B, g1, g2, g3, g4⟩ := r3 hns
      simp only [List.nil_append] at g4
      rw [g4, List.filter_append, List.filter_append, List.filter_cons, List.filter_append, hR,
        hK A1 (by rw [g3]; intro x hx; simp [hx]), hK B (by rw [g3]; intro x hx; simp [hx]),
        hK A2 (by rw [g3]; intro x hx; simp [hx])] at hk
      have hpk : p ∉ drain rest := fun hm => ((hdm p).1 hm).2 (by rw [g3]; simp)
      rw [if_pos (by simpa using hpk)] at hk
      rw [g3, List.append_assoc, List.append_cancel_left_eq] at hk
      cases B with
      | nil => exact g1 rfl
      | cons b B =>
        simp only [List.cons_append, List.cons.injEq] at hk
        exact g2 (by rw [hk.1]; simp)
    · intro hs
      refine eq_of_keys ht'.keys ?_ hitems
      rw [itemsFor_keys, hres, hprev, r2 hs, List.nil_append, List.filter_append, hR, hK keys (fun x hx => hx),
        List.append_nil]

theorem allowed_perm {s : Sys} {l l' : List Item} (hp : l'.Perm l) {op : Op} (hc : op.isCall = false)
    (ha : Allowed s l op) : Allowed s l' op := by
  have hown : ∀ n, ¬ Owned s.list l n → ¬ Owned s.list l' n := by
    intro n h h'
    refine h ?_
    rcases h' with h' | h' | ⟨x, hx, hn⟩
    · exact Or.inl h'
    · exact Or.inr (Or.inl h')
    · exact Or.inr (Or.inr ⟨x, hp.mem_iff.1 hx, hn⟩)
  cases op with
  | content k ns =>
    obtain ⟨x, hx, h⟩ := ha
    exact ⟨x, hp.mem_iff.2 hx, h⟩
  | place c n r =>
    obtain ⟨h1, h3, h4⟩ := ha
    exact ⟨h1, hown n h3, h4⟩
  | vanish c n =>
    obtain ⟨h1, h2⟩ := ha
    exact ⟨h1, hown n h2⟩
  | render => exact ha
  | unrender => exact ha
  | _ => cases hc

theorem env_perm {l l' : List Item} (hp : l'.Perm l) {op : Op} (hc : op.isCall = false) :
    (specStep l' op).Perm (specStep l op) := by
  cases op with
  | content k ns => exact hp.map _
  | render => exact hp
  | unrender => exact hp
  | place => exact hp
  | vanish => exact hp
  | _ => cases hc

theorem diffed_env {drain : List Key → List Key} {D : Diffed} {l l' : List Item} {given : List NodeId}
    (h : DInv D l l' given) {op : Op} (ha : DiffAllowed D l (.env op)) :
    ∃ D', D.step drain (.env op) = some D' ∧ DInv D' (specStep l op) (specStep l' op) (givenBy op ++ given) ∧
      D'.prev = D.prev := by
  obtain ⟨ht, hp, hprev⟩ := h
  obtain ⟨hc, ha⟩ := ha
  obtain ⟨s', h1, h2⟩ := tracks_env ht hc (allowed_perm hp hc ha)
  refine ⟨{ D with sys := s' }, ?_, ⟨h2, env_perm hp hc, ?_⟩, rfl⟩
  · simp only [Diffed.step, h1, Option.map_some]
  · rw [env_keys hc]; exact hprev

theorem tracks_mono {s : Sys} {l : List Item} {g g' : List NodeId} (h : Tracks s l g) (hs : ∀ n ∈ g, n ∈ g') :
    Tracks s l g' := ⟨by obtain ⟨left, hg, hl⟩ := h.good; exact ⟨left, hg, fun n hn => hs n (hl n hn)⟩, fun x hx n hn => hs n (h.content x hx n hn)⟩

theorem diffed_run {drain : List Key → List Key} (hdr : ∀ l, (drain l).Perm l) (ops : List DiffOp) :
    ∀ {D : Diffed} {l l' : List Item} {given : List NodeId}, DInv D l l' given → DiffAllowedRun drain D l ops →
    ∃ D' l'', D.run drain ops = some D' ∧ DInv D' (ops.foldl diffSpec l) l'' (diffGiven ops ++ given) ∧
      (l' = l → SmoothRun D.prev ops → l'' = ops.foldl diffSpec l) := by
  induction ops with
  | nil => intro D l l' given h _; exact ⟨D, l', rfl, h, fun e _ => e⟩
  | cons op ops ih =>
    intro D l l' given h ha
    cases op with
    | update keys mk =>
      obtain ⟨D1, l1, e1, h1, o1⟩ := diffed_update hdr h ha.1
      obtain ⟨D2, l2, e2, h2, o2⟩ := ih h1 (ha.2 D1 e1)
      refine ⟨D2, l2, ?_, h2, ?_⟩
      · simp only [Diffed.run, Diffed.step, e1, e2, bind, Option.bind]
      · intro hl hs
        have hp1 : D1.prev = keys := by rw [← h1.2.2, itemsFor_keys]
        exact o2 ((o1 hl).2 hs.1) (hp1 ▸ hs.2)
    | env op =>
      obtain ⟨D1, e1, h1, hp1⟩ := diffed_env (drain := drain) h ha.1
      obtain ⟨D2, l2, e2, h2, o2⟩ := ih h1 (ha.2 D1 e1)
      refine ⟨D2, l2, ?_, ⟨tracks_mono h2.1 ?_, h2.2⟩, ?_⟩
      · simp only [Diffed.run, e1, e2, bind, Option.bind]
      · intro n hn
        have hg : diffGiven (.env op :: ops) = givenBy op ++ diffGiven ops := by
          cases op <;> rfl
        rw [hg]
        simp only [List.mem_append] at hn ⊢
        grind
      · intro hl hs
        refine o2 ?_ (hp1 ▸ hs)
        rw [hl]

/-- **C35, which items.** Start with a new list in any document. After any history of updates with
distinct keys, interleaved with anything the rest of the program does, nothing has panicked and the
document shows, in some order, exactly the items of the last requested keys: the same items as before
for the keys that were there (`itemsFor`), new ones for the others. -/
theorem diffed_items {drain : List Key → List Key} (hdr : ∀ l, (drain l).Perm l) {d : Dom}
    {frag ls le : NodeId} (hd : Proper d) (hf : d.kids frag = []) (hne : ls ≠ le) (ops : List DiffOp) :
    ∃ d0 L0, new d frag ls le = some (d0, L0) ∧
      (DiffAllowedRun drain ⟨⟨d0, L0⟩, []⟩ [] ops →
        ∃ D' l, Diffed.run drain ⟨⟨d0, L0⟩, []⟩ ops = some D' ∧
          l.Perm (ops.foldl diffSpec []) ∧ ShowsAmong D'.sys.dom D'.sys.list l (diffGiven ops)) := by
  obtain ⟨d0, L0, h, hg⟩ := good_new hd hf hne
  refine ⟨d0, L0, h, fun ha => ?_⟩
  obtain ⟨D', l'', h1, h2, -⟩ := diffed_run hdr ops (l := []) (l' := []) (given := [])
    ⟨⟨⟨_, hg, fun _ h => h⟩, by simp⟩, List.Perm.refl _, rfl⟩ ha
  refine ⟨D', l'', h1, h2.2.1, ?_⟩
  have := h2.1.shows
  rwa [List.append_nil] at this

/-- **C35, the order (partial).** If every update of the history is smooth, the document shows the
items in the requested order.
Missing: updates that are not smooth; `diffed_update_iff` shows that they go wrong. -/
theorem diffed_in_order_partial {drain : List Key → List Key} (hdr : ∀ l, (drain l).Perm l) {d : Dom}
    {frag ls le : NodeId} (hd : Proper d) (hf : d.kids frag = []) (hne : ls ≠ le) (ops : List DiffOp)
    (hs : SmoothRun [] ops) :
    ∃ d0 L0, new d frag ls le = some (d0, L0) ∧
      (DiffAllowedRun drain ⟨⟨d0, L0⟩, []⟩ [] ops →
        ∃ D', Diffed.run drain ⟨⟨d0, L0⟩, []⟩ ops = some D' ∧
          ShowsAmong D'.sys.dom D'.sys.list (ops.foldl diffSpec []) (diffGiven ops)) := by
  obtain ⟨d0, L0, h, hg⟩ := good_new hd hf hne
  refine ⟨d0, L0, h, fun ha => ?_⟩
  obtain ⟨D', l'', h1, h2, h3⟩ := diffed_run hdr ops (l := []) (l' := []) (given := [])
    ⟨⟨⟨_, hg, fun _ h => h⟩, by simp⟩, List.Perm.refl _, rfl⟩ ha
  refine ⟨D', h1, ?_⟩
  have := h2.1.shows
  rwa [List.append_nil, h3 rfl hs] at this

theorem sublist_eq_filter {l K : List NodeId} (h : List.Sublist l K) (hn : K.Nodup) :
    K.filter (fun x => decide (x ∈ l)) = l := by
  induction h with
  | slnil => rfl
  | cons a h ih =>
    rw [List.nodup_cons] at hn
    rw [List.filter_cons_of_neg, ih hn.2]
    simp only [decide_eq_true_eq]
    exact fun hm => hn.1 (h.subset hm)
  | cons_cons a h ih =>
    rw [List.nodup_cons] at hn
    rw [List.filter_cons_of_pos (by simp)]
    congr 1
    refine Eq.trans ?_ (ih hn.2)
    apply List.filter_congr
    intro x hx
    have : x ≠ a := fun e => hn.1 (e ▸ hx)
    simp [this]

theorem start_sublist (l : List Item) : List.Sublist (l.map Item.start) (l.flatMap Item.nodes) := by
  induction l with
  | nil => exact List.Sublist.refl _
  | cons x xs ih =>
    rw [List.map_cons, List.flatMap_cons]
    exact List.Sublist.cons_cons _ (ih.trans (List.sublist_append_right _ _))

theorem inj_of_nodup {α β : Type} {f : α → β} {l : List α} (hn : (l.map f).Nodup) {x y : α} (hx : x ∈ l)
    (hy : y ∈ l) (h : f x = f y) : x = y := by
  induction l with
  | nil => cases hx
  | cons z zs ih =>
    simp only [List.map_cons, List.nodup_cons] at hn
    rcases List.mem_cons.1 hx with rfl | hx' <;> rcases List.mem_cons.1 hy with rfl | hy'
    · rfl
    · exact absurd (h ▸ List.mem_map_of_mem hy') hn.1
    · exact absurd (h ▸ List.mem_map_of_mem hx') hn.1
    · exact ih hn.2 hx' hy'

/-- a document shows the same items in one order only -/
theorem shows_unique {d : Dom} {L : DynList} {l l' : List Item} {left left' : List NodeId}
    (hd : Proper d) (h : ShowsAmong d L l left) (h' : ShowsAmong d L l' left') (hp : l'.Perm l) : l' = l := by
  have hnd := hd.1 L.container
  have s1 := (start_sublist l).trans (showsAmong_sublist h)
  have s2 := (start_sublist l').trans (showsAmong_sublist h')
  have e : l'.map Item.start = l.map Item.start := by
    rw [← sublist_eq_filter s1 hnd, ← sublist_eq_filter s2 hnd]
    apply List.filter_congr
    intro x _
    simp only [(hp.map Item.start).mem_iff]
  have n1 := nodup_sub s1 hnd
  apply List.ext_getElem
  · exact hp.length_eq
  · intro i h1 h2
    refine inj_of_nodup n1 (hp.mem_iff.1 (List.getElem_mem h1)) (List.getElem_mem h2) ?_
    have := congrArg (fun l => l[i]?) e
    simpa [h1, h2] using this

/-- **C35, exactly when.** After any history of smooth updates, the next update leads to the requested
order if and only if it is smooth. (Otherwise the document does not show the items in this order,
whatever else it shows.) -/
theorem diffed_update_iff {drain : List Key → List Key} (hdr : ∀ l, (drain l).Perm l) {d : Dom}
    {frag ls le : NodeId} (hd : Proper d) (hf : d.kids frag = []) (hne : ls ≠ le) (ops : List DiffOp)
    (hs : SmoothRun [] ops) (keys : List Key) (mk : Key → NodeId × NodeId) :
    ∃ d0 L0, new d frag ls le = some (d0, L0) ∧
      (DiffAllowedRun drain ⟨⟨d0, L0⟩, []⟩ [] (ops ++ [.update keys mk]) →
        ∃ D1 D2, Diffed.run drain ⟨⟨d0, L0⟩, []⟩ ops = some D1 ∧ D1.step drain (.update keys mk) = some D2 ∧
          ((∃ left, ShowsAmong D2.sys.dom D2.sys.list (diffSpec (ops.foldl diffSpec []) (.update keys mk)) left) ↔
            Smooth D1.prev keys)) := by
  obtain ⟨d0, L0, h, hg⟩ := good_new hd hf hne
  refine ⟨d0, L0, h, fun ha => ?_⟩
  have key : ∀ (ops : List DiffOp) (D : Diffed) (l : List Item), DiffAllowedRun drain D l (ops ++ [.update keys mk]) →
      DiffAllowedRun drain D l ops ∧ ∀ D', D.run drain ops = some D' → DiffAllowed D' (ops.foldl diffSpec l) (.update keys mk) := by
    intro ops
    induction ops with
    | nil =>
      intro D l ha
      refine ⟨trivial, ?_⟩
      intro D' e
      cases e
      exact ha.1
    | cons op ops ih =>
      intro D l ha
      refine ⟨⟨ha.1, fun D' e => (ih D' _ (ha.2 D' e)).1⟩, ?_⟩
      intro D' e
      simp only [Diffed.run, Option.bind_eq_bind, Option.bind_eq_some_iff] at e
      obtain ⟨D1, e1, e2⟩ := e
      exact (ih D1 _ (ha.2 D1 e1)).2 D' e2
  obtain ⟨k1, k2⟩ := key ops _ _ ha
  obtain ⟨D', l'', h1, h2, h3⟩ := diffed_run hdr ops (l := []) (l' := []) (given := [])
    ⟨⟨⟨_, hg, fun _ h => h⟩, by simp⟩, List.Perm.refl _, rfl⟩ k1
  obtain ⟨D2, l2, e2, i2, o2⟩ := diffed_update hdr h2 (k2 D' h1)
  refine ⟨D', D2, h1, e2, ?_⟩
  rw [← o2 (h3 rfl hs)]
  have hsh := i2.1.shows
  constructor
  · rintro ⟨left, hl⟩
    exact (shows_unique i2.1.proper hsh hl i2.2.1.symm).symm
  · intro e
    exact ⟨_, e ▸ hsh⟩

theorem leftover_suffix (A : List Key) : ∀ (it : List Key), ∃ P0, it = P0 ++ leftover it A ∧ ∀ p ∈ P0, p ∈ A := by
  induction A with
  | nil => intro it; exact ⟨[], rfl, by simp⟩
  | cons k A ih =>
    intro it
    rw [leftover_cons]
    split
    · rename_i hh
      cases it with
      | nil => cases hh
      | cons a t =>
        simp only [List.head?_cons, Option.some.injEq] at hh
        subst hh
        obtain ⟨P0, h1, h2⟩ := ih t
        refine ⟨a :: P0, by rw [List.tail_cons, List.cons_append, ← h1], ?_⟩
        intro p hp
        rcases List.mem_cons.1 hp with rfl | hp
        · simp
        · exact List.mem_cons_of_mem _ (h2 p hp)
    · obtain ⟨P0, h1, h2⟩ := ih it
      exact ⟨P0, h1, fun p hp => List.mem_cons_of_mem _ (h2 p hp)⟩

theorem leftover_append (it A B : List Key) : leftover it (A ++ B) = leftover (leftover it A) B := by
  simp only [leftover, List.foldl_append]

theorem no_both_orders {p q : Key} {K : List Key} (hn : K.Nodup) (h1 : List.Sublist [p, q] K)
    (h2 : List.Sublist [q, p] K) : False := by
  induction K with
  | nil => cases h1
  | cons a K ih =>
    rw [List.nodup_cons] at hn
    cases h1 with
    | cons _ h1 =>
      cases h2 with
      | cons _ h2 => exact ih hn.2 h1 h2
      | cons_cons _ h2 => exact hn.1 (h1.subset (by simp))
    | cons_cons _ h1 =>
      cases h2 with
      | cons _ h2 => exact hn.1 (h2.subset (by simp))
      | cons_cons _ h2 => exact hn.1 (h1.subset (by simp))

/-- Updates that keep the order of the keys that stay are smooth, whatever they insert and remove. -/
theorem smooth_of_same_order {prev keys : List Key} (hp : prev.Nodup)
    (h : List.Sublist (keys.filter fun k => decide (k ∈ prev)) prev) : Smooth prev keys := by
  rintro A B e - ⟨p, hh, hpA⟩
  obtain ⟨A1, A2, rfl⟩ := List.append_of_mem hpA
  rw [leftover_append, leftover_cons] at hh
  obtain ⟨P1, hQ, -⟩ := leftover_suffix A1 prev
  generalize hq : leftover prev A1 = Q at hh hQ
  have hQn : Q.Nodup := by
    rw [hQ] at hp
    exact (List.nodup_append.1 hp).2.1
  split at hh
  · rename_i hQh
    obtain ⟨P0, h1, -⟩ := leftover_suffix A2 Q.tail
    have hm := List.mem_of_head? hh
    cases Q with
    | nil => cases hQh
    | cons a Q =>
      simp only [List.head?_cons, Option.some.injEq] at hQh
      subst hQh
      rw [List.nodup_cons] at hQn
      apply hQn.1
      rw [List.tail_cons] at h1 hm
      rw [h1]
      exact List.mem_append_right _ hm
  · rename_i hQh
    obtain ⟨P0, h1, h2⟩ := leftover_suffix A2 Q
    cases P0 with
    | nil =>
      rw [List.nil_append] at h1
      rw [← h1] at hh
      exact hQh hh
    | cons q P0 =>
      have hqA2 : q ∈ A2 := h2 q (by simp)
      have hpl : p ∈ leftover Q A2 := List.mem_of_head? hh
      have hsub1 : List.Sublist [q, p] prev := by
        refine List.Sublist.trans ?_ (hQ ▸ List.sublist_append_right _ _)
        rw [h1]
        exact List.Sublist.cons_cons _ ((List.singleton_sublist.2 hpl).trans (List.sublist_append_right _ _))
      have hsub2 : List.Sublist [p, q] keys := by
        rw [e, List.append_assoc]
        refine List.Sublist.trans ?_ (List.sublist_append_right _ _)
        exact List.Sublist.cons_cons _ ((List.singleton_sublist.2 hqA2).trans (List.sublist_append_left _ _))
      have hsub3 := hsub2.filter (fun k => decide (k ∈ prev))
      rw [List.filter_eq_self.2] at hsub3
      · exact no_both_orders hp (hsub3.trans h) hsub1
      · intro x hx
        simp only [List.mem_cons, List.not_mem_nil, or_false] at hx
        simp only [decide_eq_true_eq]
        rcases hx with rfl | rfl
        · exact hsub1.subset (by simp)
        · exact hsub1.subset (by simp)

/-! ## concrete histories -/

theorem within_run {sup : List NodeId} (ops : List Op) : ∀ {s s' : Sys} {as : List (Option Bool)}, Within sup s →
    (∀ op ∈ ops, opWithin sup op = true) → run s ops = some (s', as) → Within sup s' := by
  induction ops with
  | nil => intro s s' as hw _ h; cases h; exact hw
  | cons op ops ih =>
    intro s s' as hw ho h
    simp only [run, Option.bind_eq_bind, Option.bind_eq_some_iff, pure, Option.some.injEq] at h
    obtain ⟨⟨s1, a⟩, e1, ⟨s2, bs⟩, e2, h⟩ := h
    cases h
    exact ih (within_step hw (ho op (by simp)) e1) (fun o hm => ho o (by simp [hm])) e2

def demoMk (base : Nat) (k : Nat) : Nat × Nat := (base + 2 * k, base + 2 * k + 1)

/-- the keys `[1, 2, 3]` are shown, the list is rendered in node 200, then 3 is removed and 4 and 5
are inserted -/
def diffDemo : List DiffOp :=
  [.update [1, 2, 3] (demoMk 1000), .env (.render 200 none), .env (.content 2 [50]), .update [4, 1, 5, 2] (demoMk 2000)]

theorem diffDemo_smooth : SmoothRun [] diffDemo := by
  refine ⟨smooth_of_same_order (by decide) (by decide), smooth_of_same_order (by decide) (by decide), trivial⟩

/-- `DiffAllowed`, computed -/
def diffAllowedB (sup : List NodeId) (D : Diffed) (l : List Item) : DiffOp → Bool
  | .update keys mk => decide keys.Nodup && decide (keys.flatMap fun k => [(mk k).1, (mk k).2]).Nodup &&
      (keys.flatMap fun k => [(mk k).1, (mk k).2]).all (freshB sup D.sys.dom)
  | .env op => !op.isCall && allowedB sup D.sys l op && opWithin sup op

def diffAllowedRunB (sup : List NodeId) (drain : List Key → List Key) (D : Diffed) (l : List Item) : List DiffOp → Bool
  | [] => true
  | op :: ops => diffAllowedB sup D l op &&
      match D.step drain op with
      | none => true
      | some D' => diffAllowedRunB sup drain D' (diffSpec l op) ops

theorem diffLoop_within {sup : List NodeId} {mk : Key → NodeId × NodeId} (keys : List Key) : ∀ (set it : List Key),
    ∀ op ∈ (diffLoop mk set it keys).1, opWithin sup op = true := by
  induction keys with
  | nil => intro set it op hop; simp [diffLoop] at hop
  | cons k keys ih =>
    intro set it op hop
    simp only [diffLoop] at hop
    split at hop
    · split at hop
      · exact ih _ _ op hop
      · rcases List.mem_cons.1 hop with rfl | hop
        · rfl
        · exact ih _ _ op hop
    · rcases List.mem_cons.1 hop with rfl | hop
      · rfl
      · exact ih _ _ op hop

theorem diffAllowed_of {sup : List NodeId} {drain : List Key → List Key} (ops : List DiffOp) :
    ∀ {D : Diffed} {l : List Item}, Within sup D.sys → diffAllowedRunB sup drain D l ops = true →
    DiffAllowedRun drain D l ops := by
  induction ops with
  | nil => intro D l _ _; trivial
  | cons op ops ih =>
    intro D l hw h
    simp only [diffAllowedRunB, Bool.and_eq_true] at h
    obtain ⟨h1, h2⟩ := h
    refine ⟨?_, ?_⟩
    · cases op with
      | update keys mk =>
        simp only [diffAllowedB, Bool.and_eq_true, decide_eq_true_eq, List.all_eq_true] at h1
        exact ⟨h1.1.1, h1.1.2, fun n hn => fresh_of hw (h1.2 n hn)⟩
      | env op =>
        simp only [diffAllowedB, Bool.and_eq_true, Bool.not_eq_true'] at h1
        exact ⟨h1.1.1, allowed_of hw h1.1.2⟩
    · intro D' e
      rw [e] at h2
      refine ih ?_ h2
      cases op with
      | update keys mk =>
        simp only [Diffed.step, Diffed.update, Option.bind_eq_bind, Option.bind_eq_some_iff, pure, Option.some.injEq] at e
        obtain ⟨⟨s', as⟩, e1, e2⟩ := e
        subst e2
        refine within_run _ hw ?_ e1
        intro op hop
        rcases List.mem_append.1 hop with hop | hop
        · exact diffLoop_within _ _ _ op hop
        · obtain ⟨r, -, rfl⟩ := List.mem_map.1 hop
          rfl
      | env op =>
        simp only [Diffed.step, Option.map_eq_some_iff] at e
        obtain ⟨⟨s', as⟩, e1, e2⟩ := e
        subst e2
        simp only [diffAllowedB, Bool.and_eq_true] at h1
        exact within_step hw h1.2 e1

theorem diffDemo_allowed : DiffAllowedRun id ⟨fresh, []⟩ [] diffDemo :=
  diffAllowed_of diffDemo within_fresh (by decide)

/-- the hypotheses of `diffed_items` and `diffed_in_order_partial` are met -/
example : ∃ D', Diffed.run id ⟨fresh, []⟩ diffDemo = some D' ∧
    ShowsAmong D'.sys.dom D'.sys.list (diffDemo.foldl diffSpec []) (diffGiven diffDemo) := by
  obtain ⟨d0, L0, h, hr⟩ := diffed_in_order_partial (drain := id) (fun _ => List.Perm.refl _) (frag := 100) (ls := 1)
    (le := 2) proper_blank rfl (by decide) diffDemo diffDemo_smooth
  rw [new_blank] at h
  cases h
  exact hr diffDemo_allowed

example : diffDemo.foldl diffSpec [] =
    [⟨4, 2008, 2009, []⟩, ⟨1, 1002, 1003, []⟩, ⟨5, 2010, 2011, []⟩, ⟨2, 1004, 1005, [50]⟩] := by decide

/-- **The claim is false.** The keys `[1, 2, 3]` are shown, then `[2, 1, 3]` is asked for. The result
is `3, 2, 1`. -/
theorem diffed_wrong_order : ∃ D', Diffed.run id ⟨fresh, []⟩ [.update [1, 2, 3] (demoMk 1000), .update [2, 1, 3] (demoMk 2000)] = some D' ∧
    D'.sys.dom.kids 100 = [1, 1006, 1007, 1004, 1005, 1002, 1003, 2] ∧ ¬ Smooth [1, 2, 3] [2, 1, 3] := by
  refine ⟨_, rfl, by decide, ?_⟩
  intro h
  exact h [2, 1] [3] rfl (by decide) ⟨2, by decide, by decide⟩

/-- The documented example pushes Fibonacci numbers, starting with `vec![1, 1]`. Keys that are not
distinct are shown once only, and the next key goes to the wrong place: after `[1]`, `[1, 1]` and
`[1, 1, 2]` the list shows `2, 1`. (The history starts with `[1]` since the model gives one pair of
markers to each key of an update.) -/
theorem diffed_documented_example : ∃ D', Diffed.run id ⟨fresh, []⟩
      [.update [1] (demoMk 1000), .update [1, 1] (demoMk 2000), .update [1, 1, 2] (demoMk 3000)] = some D' ∧
    D'.sys.list.items = [(1, ⟨3002, 3003⟩), (2, ⟨3004, 3005⟩)] ∧
    D'.sys.dom.kids 100 = [1, 3004, 3005, 3002, 3003, 2] := by
  refine ⟨_, rfl, by decide, by decide⟩

end Verif.Lists
