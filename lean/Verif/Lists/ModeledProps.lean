import Verif.Lists.ModeledLemmas2
/-!
# C36: ModeledList mirrors its model

The claim is false for one edit: after `swap(i, i + 1)` the log makes `DynamicList` swap two
neighbours, which corrupts the list (`modeled_swap_neighbours`, see C33). Proved for all other
histories: `modeled_mirrors_partial`. Items whose keys are not removed are not re-created:
`modeled_keeps_items_partial`.
-/
namespace Verif.Lists
open Verif.Dom

/-- what the proof keeps -/
structure MInv (S : MSys) (T : MSpec) (l : List Item) (given : List NodeId) : Prop where
  tracks : Tracks S.view.sys l given
  keys : l.map Item.key = T.keys
  vecs : S.models.map Model.vec = T.vecs
  models : ∀ m ∈ S.models, m.changes.length ≤ m.version ∧ m.vec.Nodup
  shown : S.view.unique = T.shown
  bound : ∀ i, T.shown = some i → i < S.models.length
  covers : ∀ i m, T.shown = some i → S.models[i]? = some m → Covers m S.view.version T.keys T.dirty T.gone

theorem vecs_get {S : MSys} {T : MSpec} {l : List Item} {given : List NodeId} (h : MInv S T l given) (i : Nat) :
    T.vecs[i]? = (S.models[i]?).map Model.vec := by
  rw [← h.vecs, List.getElem?_map]

theorem mInv_add {S : MSys} {T : MSpec} {l : List Item} {given : List NodeId} (h : MInv S T l given) {v : List Key}
    (hv : v.Nodup) :
    MInv { S with models := S.models ++ [Model.fromVec v] } { T with vecs := T.vecs ++ [v] } l given := by
  refine ⟨h.tracks, h.keys, by simp [h.vecs, Model.fromVec], ?_, h.shown, ?_, ?_⟩
  · intro m hm
    rcases List.mem_append.1 hm with hm | hm
    · exact h.models m hm
    · rw [List.mem_singleton] at hm
      subst hm
      exact ⟨by simp [Model.fromVec], hv⟩
  · intro i hi
    have := h.bound i hi
    simp only [List.length_append]
    omega
  · intro i m hi hm
    refine h.covers i m hi ?_
    rwa [List.getElem?_append_left (h.bound i hi)] at hm

theorem mInv_edit {S : MSys} {T : MSpec} {l : List Item} {given : List NodeId} (h : MInv S T l given) {i : Nat}
    {e : Edit} {v : List Key} (hv : T.vecs[i]? = some v) (hok : EditOk v e) :
    ∃ S', S.step (.edit i e) = some S' ∧ MInv S' (mSpec T (.edit i e)) l given := by
  have hv' := hv
  rw [vecs_get h, Option.map_eq_some_iff] at hv'
  obtain ⟨m, hm, rfl⟩ := hv'
  obtain ⟨hlen, hnd⟩ := h.models m (List.mem_of_getElem? hm)
  obtain ⟨m', e1, v1, n1, l1⟩ := edit_ok hnd hok
  have hil := (List.getElem?_eq_some_iff.1 hm).1
  refine ⟨{ S with models := S.models.set i m' }, ?_, ?_⟩
  · simp only [MSys.step, hm, e1, bind, Option.bind, pure]
  · simp only [mSpec, hv]
    refine ⟨h.tracks, h.keys, ?_, ?_, h.shown, ?_, ?_⟩
    · simp only [← v1, ← h.vecs, List.map_set]
    · intro m2 hm2
      rcases List.mem_or_eq_of_mem_set hm2 with hm2 | rfl
      · exact h.models m2 hm2
      · exact ⟨(covers_edit (covers_self hlen hnd) n1 l1).len, n1⟩
    · intro j hj
      simp only [List.length_set]
      exact h.bound j hj
    · intro j m2 hj hm2
      simp only at hj hm2 ⊢
      by_cases hij : i = j
      · subst hij
        rw [List.getElem?_set_self hil, Option.some.injEq] at hm2
        subst hm2
        rw [if_pos hj, if_pos hj]
        exact covers_edit (h.covers i m hj hm) n1 l1
      · rw [List.getElem?_set_ne hij] at hm2
        have : T.shown ≠ some i := by rw [hj]; simp; exact fun e => hij e.symm
        rw [if_neg this, if_neg this]
        exact h.covers j m2 hj hm2

theorem calls_ok {S : MSys} {T : MSpec} {l : List Item} {given : List NodeId} (h : MInv S T l given) {i : Nat}
    {m : Model} (hm : S.models[i]? = some m) (hd : T.shown = some i → T.dirty = false) (nodes : Nat → NodeId × NodeId) :
    (S.view.calls i m nodes).foldl keyStep (l.map Item.key) = m.vec ∧
      KeysOk (l.map Item.key) (S.view.calls i m nodes) ∧
      (S.view.useLog i m = true →
        assertions (S.view.calls i m nodes) (answers l (S.view.calls i m nodes)) = true) ∧
      (∀ k ∈ l.map Item.key, k ∈ m.vec → (T.shown = some i → k ∉ T.gone) →
        ∀ op ∈ S.view.calls i m nodes, keepsKey k op = true) := by
  obtain ⟨hlen, hnd⟩ := h.models m (List.mem_of_getElem? hm)
  have hold : (S.view.sys.list.items.map Prod.fst).Perm (l.map Item.key) := by
    have := h.tracks.perm.map Prod.fst
    rwa [List.map_map] at this
  unfold Modeled.calls
  split
  · rename_i hu
    rw [Modeled.useLog, Bool.and_eq_true, beq_iff_eq, decide_eq_true_eq, h.shown] at hu
    have hc := h.covers i m hu.1 hm
    obtain ⟨k1, k2⟩ := logCalls_keys (mk := nodes) (m.since S.view.version) 0 (hc.ok hu.2)
    rw [← h.keys] at k1 k2
    refine ⟨k1.trans ?_, k2 ?_, fun _ => ?_, ?_⟩
    · rw [h.keys]; exact hc.apply hu.2
    · rw [h.keys]; exact hc.clean hu.2 (hd hu.1)
    · exact logCalls_assertions _ _ (by rw [h.keys]; exact hc.ok hu.2)
    · intro k hk _ hg op hop
      exact changes_keep _ (hc.ok hu.2) (h.keys ▸ hk) (fun hr => hg hu.1 (hc.gone hu.2 k hr)) 0 op hop
  · rename_i hu
    obtain ⟨k1, k2⟩ := rebuild_keys (mk := nodes) hnd h.tracks.keys hold
    exact ⟨k1, k2, fun h => absurd h hu, fun k hk hv _ => rebuild_keep hv (hold.mem_iff.2 hk)⟩

theorem mInv_update {S : MSys} {T : MSpec} {l : List Item} {given : List NodeId} (h : MInv S T l given) {i : Nat}
    {nodes : Nat → NodeId × NodeId} (ha : MAllowed S T l (.update i nodes)) :
    ∃ S', S.step (.update i nodes) = some S' ∧
      MInv S' (mSpec T (.update i nodes)) (mItems S l (.update i nodes)) given ∧
      (mSpec T (.update i nodes)).shown = some i ∧
      (∀ v, T.vecs[i]? = some v → ∀ x ∈ l, x.key ∈ v → (T.shown = some i → x.key ∉ T.gone) →
        x ∈ mItems S l (.update i nodes)) := by
  obtain ⟨m, hm, hn, hf, hd⟩ := ha
  have hv : T.vecs[i]? = some m.vec := by rw [vecs_get h, hm]; rfl
  obtain ⟨hlen, hnd⟩ := h.models m (List.mem_of_getElem? hm)
  obtain ⟨c1, c2, c3, c4⟩ := calls_ok h hm hd nodes
  obtain ⟨s', hrun, ht, -⟩ := run_calls _ h.tracks (callsOk_iff.2 c2) hn hf
  refine ⟨{ S with view := ⟨s', m.version, some i⟩ }, ?_, ?_, ?_, ?_⟩
  · simp only [MSys.step, hm, Modeled.update, hrun, bind, Option.bind, pure]
    rw [if_neg]
    intro hb
    rw [Bool.and_eq_true] at hb
    rw [c3 hb.1] at hb
    simp at hb
  · simp only [mSpec, hv, mItems, hm]
    refine ⟨ht, ?_, h.vecs, h.models, rfl, ?_, ?_⟩
    · rw [keys_run, c1]
    · intro j hj
      simp only [Option.some.injEq] at hj
      subst hj
      exact (List.getElem?_eq_some_iff.1 hm).1
    · intro j m2 hj hm2
      simp only [Option.some.injEq] at hj
      subst hj
      simp only [hm, Option.some.injEq] at hm2
      subst hm2
      exact covers_self hlen hnd
  · simp only [mSpec, hv]
  · intro v hv' x hx hxv hg
    rw [hv, Option.some.injEq] at hv'
    subst hv'
    simp only [mItems, hm]
    exact items_kept h.tracks (callsOk_iff.2 c2) hn hf hx (c4 _ (List.mem_map_of_mem hx) hxv hg)

theorem mInv_step {S : MSys} {T : MSpec} {l : List Item} {given : List NodeId} (h : MInv S T l given) {op : MOp}
    (ha : MAllowed S T l op) :
    ∃ S', S.step op = some S' ∧ MInv S' (mSpec T op) (mItems S l op) (mGiven [op] ++ given) := by
  cases op with
  | create v => exact ⟨_, rfl, mInv_add h ha⟩
  | clone i =>
    have hlt : i < S.models.length := by
      have : i < T.vecs.length := ha
      rwa [← h.vecs, List.length_map] at this
    obtain ⟨m, hm⟩ : ∃ m, S.models[i]? = some m := ⟨_, List.getElem?_eq_getElem hlt⟩
    have hv : T.vecs[i]? = some m.vec := by rw [vecs_get h, hm]; rfl
    refine ⟨{ S with models := S.models ++ [m.clone] }, by simp only [MSys.step, hm, bind, Option.bind, pure], ?_⟩
    simp only [mSpec, hv]
    exact mInv_add h (h.models m (List.mem_of_getElem? hm)).2
  | edit i e =>
    obtain ⟨v, hv, hok⟩ := ha
    exact mInv_edit h hv hok
  | update i nodes =>
    obtain ⟨S', h1, h2, -⟩ := mInv_update h ha
    exact ⟨S', h1, h2⟩
  | env op =>
    obtain ⟨hc, ha⟩ := ha
    obtain ⟨s', h1, h2⟩ := tracks_env h.tracks hc ha
    refine ⟨{ S with view := { S.view with sys := s' } }, by simp only [MSys.step, h1, bind, Option.bind, pure], ?_⟩
    refine ⟨tracks_mono h2 ?_, ?_, h.vecs, h.models, h.shown, h.bound, h.covers⟩
    · intro n hn
      rcases List.mem_append.1 hn with hn | hn
      · apply List.mem_append_left
        cases op with
        | content k ns => simpa [mGiven, givenBy] using hn
        | _ => cases hn
      · exact List.mem_append_right _ hn
    · simp only [mItems, mSpec, env_keys hc]
      exact h.keys

theorem mGiven_cons (op : MOp) (ops : List MOp) : mGiven (op :: ops) = mGiven [op] ++ mGiven ops := by
  cases op with
  | env op => cases op <;> simp [mGiven]
  | _ => rfl

/-- the items after a history -/
def mItemsRun (S : MSys) (l : List Item) : List MOp → List Item
  | [] => l
  | op :: ops => match S.step op with
    | some S' => mItemsRun S' (mItems S l op) ops
    | none => l

theorem mInv_run (ops : List MOp) : ∀ {S : MSys} {T : MSpec} {l : List Item} {given : List NodeId},
    MInv S T l given → MAllowedRun S T l ops →
    ∃ S', S.run ops = some S' ∧ MInv S' (ops.foldl mSpec T) (mItemsRun S l ops) (mGiven ops ++ given) := by
  induction ops with
  | nil => intro S T l given h _; exact ⟨S, rfl, h⟩
  | cons op ops ih =>
    intro S T l given h ha
    obtain ⟨S1, e1, h1⟩ := mInv_step h ha.1
    obtain ⟨S2, e2, h2⟩ := ih h1 (ha.2 S1 e1)
    refine ⟨S2, by simp only [MSys.run, e1, bind, Option.bind, e2], ?_⟩
    simp only [mItemsRun, e1, List.foldl_cons]
    refine ⟨tracks_mono h2.tracks ?_, h2.keys, h2.vecs, h2.models, h2.shown, h2.bound, h2.covers⟩
    intro n hn
    rw [mGiven_cons]
    simp only [List.mem_append] at hn ⊢
    grind

theorem mAllowedRun_append {ops ops' : List MOp} : ∀ {S : MSys} {T : MSpec} {l : List Item},
    MAllowedRun S T l (ops ++ ops') → MAllowedRun S T l ops ∧
      ∀ S', S.run ops = some S' → MAllowedRun S' (ops.foldl mSpec T) (mItemsRun S l ops) ops' := by
  induction ops with
  | nil => intro S T l h; exact ⟨trivial, fun S' e => by cases e; exact h⟩
  | cons op ops ih =>
    intro S T l h
    refine ⟨⟨h.1, fun S1 e1 => (ih (h.2 S1 e1)).1⟩, ?_⟩
    intro S' e
    simp only [MSys.run, Option.bind_eq_bind, Option.bind_eq_some_iff] at e
    obtain ⟨S1, e1, e2⟩ := e
    simp only [mItemsRun, e1, List.foldl_cons]
    exact (ih (h.2 S1 e1)).2 S' e2

theorem mInv_start {d0 : Dom} {L0 : DynList} (hg : Good ⟨d0, L0⟩ [] []) :
    MInv ⟨[], ⟨⟨d0, L0⟩, 0, none⟩⟩ MSpec.start [] [] :=
  ⟨⟨⟨_, hg, fun _ h => h⟩, by simp⟩, rfl, rfl, by simp, rfl, (fun i hi => by cases hi), (fun i m hi => by cases hi)⟩

/-- **C36, partial.** Start with a new list in any document and no models. Run any history of creating,
copying and editing models, updating the list from any of the models, and anything that the rest of the
program does; edits are in range and keep keys distinct, and a model in which two neighbours were
swapped since the last update from it is not used for an update (unless its log has been reset by
`modify_vec`). Nothing panics; the models contain what plain vectors would contain; the document shows
exactly the keys that the model of the last update contained at that time, in order.

Missing: updates after `swap(i, i + 1)`, for which the claim is false. -/
theorem modeled_mirrors_partial {d : Dom} {frag ls le : NodeId} (hd : Proper d) (hf : d.kids frag = [])
    (hne : ls ≠ le) (ops : List MOp) :
    ∃ d0 L0, new d frag ls le = some (d0, L0) ∧
      (MAllowedRun ⟨[], ⟨⟨d0, L0⟩, 0, none⟩⟩ MSpec.start [] ops →
        ∃ S' l, MSys.run ⟨[], ⟨⟨d0, L0⟩, 0, none⟩⟩ ops = some S' ∧
          S'.models.map Model.vec = (ops.foldl mSpec MSpec.start).vecs ∧
          l.map Item.key = (ops.foldl mSpec MSpec.start).keys ∧
          ShowsAmong S'.view.sys.dom S'.view.sys.list l (mGiven ops)) := by
  obtain ⟨d0, L0, h, hg⟩ := good_new hd hf hne
  refine ⟨d0, L0, h, fun ha => ?_⟩
  obtain ⟨S', e, hi⟩ := mInv_run ops (mInv_start hg) ha
  refine ⟨S', _, e, hi.vecs, hi.keys, ?_⟩
  have := hi.tracks.shows
  rwa [List.append_nil] at this

/-- **C36, items stay, partial.** In such a history followed by an update: every item shown before
whose key is in the model is still there, the same markers and the same content, unless its key was
removed from the model with `remove` or `pop` and put back since the last update. -/
theorem modeled_keeps_items_partial {d : Dom} {frag ls le : NodeId} (hd : Proper d) (hf : d.kids frag = [])
    (hne : ls ≠ le) (ops : List MOp) (i : Nat) (nodes : Nat → NodeId × NodeId) :
    ∃ d0 L0, new d frag ls le = some (d0, L0) ∧
      (MAllowedRun ⟨[], ⟨⟨d0, L0⟩, 0, none⟩⟩ MSpec.start [] (ops ++ [.update i nodes]) →
        ∃ S1 S2 l1 l2, MSys.run ⟨[], ⟨⟨d0, L0⟩, 0, none⟩⟩ ops = some S1 ∧ S1.step (.update i nodes) = some S2 ∧
          ShowsAmong S1.view.sys.dom S1.view.sys.list l1 (mGiven ops) ∧
          ShowsAmong S2.view.sys.dom S2.view.sys.list l2 (mGiven ops) ∧
          ∀ v, (ops.foldl mSpec MSpec.start).vecs[i]? = some v → l2.map Item.key = v ∧
            ∀ x ∈ l1, x.key ∈ v →
              ((ops.foldl mSpec MSpec.start).shown = some i → x.key ∉ (ops.foldl mSpec MSpec.start).gone) →
              x ∈ l2) := by
  obtain ⟨d0, L0, h, hg⟩ := good_new hd hf hne
  refine ⟨d0, L0, h, fun ha => ?_⟩
  obtain ⟨ha1, ha2⟩ := mAllowedRun_append ha
  obtain ⟨S1, e1, h1⟩ := mInv_run ops (mInv_start hg) ha1
  obtain ⟨ha3, -⟩ := ha2 S1 e1
  obtain ⟨S2, e2, h2, -, h4⟩ := mInv_update h1 ha3
  have s1 := h1.tracks.shows
  have s2 := h2.tracks.shows
  rw [List.append_nil] at s1 s2
  refine ⟨S1, S2, _, _, e1, e2, s1, s2, ?_⟩
  intro v hv
  refine ⟨?_, h4 v hv⟩
  rw [h2.keys]
  simp only [mSpec, hv]

/-! ## concrete histories -/

def seqMk (base : Nat) (i : Nat) : Nat × Nat := (base + 2 * i, base + 2 * i + 1)

/-- `MAllowed`, computed -/
def mAllowedB (sup : List NodeId) (S : MSys) (T : MSpec) (l : List Item) : MOp → Bool
  | .create vec => decide vec.Nodup
  | .clone i => decide (i < T.vecs.length)
  | .edit i e => match T.vecs[i]? with
    | some v => decide (EditOk v e)
    | none => false
  | .update i nodes => match S.models[i]? with
    | some m => decide ((S.view.calls i m nodes).flatMap madeBy).Nodup &&
        ((S.view.calls i m nodes).flatMap madeBy).all (freshB sup S.view.sys.dom) &&
        (S.view.calls i m nodes).all (opWithin sup) && (T.shown != some i || !T.dirty)
    | none => false
  | .env op => !op.isCall && allowedB sup S.view.sys l op && opWithin sup op

def mAllowedRunB (sup : List NodeId) (S : MSys) (T : MSpec) (l : List Item) : List MOp → Bool
  | [] => true
  | op :: ops => mAllowedB sup S T l op &&
      match S.step op with
      | none => true
      | some S' => mAllowedRunB sup S' (mSpec T op) (mItems S l op) ops

theorem mAllowed_of {sup : List NodeId} {S : MSys} {T : MSpec} {l : List Item} {op : MOp} (hw : Within sup S.view.sys)
    (h : mAllowedB sup S T l op = true) :
    MAllowed S T l op ∧ ∀ S', S.step op = some S' → Within sup S'.view.sys := by
  cases op with
  | create v =>
    refine ⟨(of_decide_eq_true h : v.Nodup), ?_⟩
    intro S' e
    cases e
    exact hw
  | clone i =>
    refine ⟨(of_decide_eq_true h : i < T.vecs.length), ?_⟩
    intro S' e
    simp only [MSys.step, Option.bind_eq_bind, Option.bind_eq_some_iff, pure, Option.some.injEq] at e
    obtain ⟨m, -, e⟩ := e
    subst e
    exact hw
  | edit i e =>
    simp only [mAllowedB] at h
    split at h
    · rename_i v hv
      refine ⟨⟨v, hv, by simpa using h⟩, ?_⟩
      intro S' e
      simp only [MSys.step, Option.bind_eq_bind, Option.bind_eq_some_iff, pure, Option.some.injEq] at e
      obtain ⟨m, -, m', -, e⟩ := e
      subst e
      exact hw
    · cases h
  | update i nodes =>
    simp only [mAllowedB] at h
    split at h
    · rename_i m hm
      simp only [Bool.and_eq_true, decide_eq_true_eq, List.all_eq_true] at h
      obtain ⟨⟨⟨h1, h2⟩, h3⟩, h4⟩ := h
      refine ⟨⟨m, hm, h1, fun n hn => fresh_of hw (h2 n hn), ?_⟩, ?_⟩
      · intro hs
        simpa [hs] using h4
      · intro S' e
        simp only [MSys.step, hm, Modeled.update, Option.bind_eq_bind, Option.bind_eq_some_iff, pure,
          Option.some.injEq] at e
        obtain ⟨m', rfl, V, ⟨⟨s', as⟩, e1, e2⟩, e3⟩ := e
        split at e2
        · cases e2
        · simp only [Option.some.injEq] at e2
          subst e2 e3
          exact within_run _ hw h3 e1
    · cases h
  | env op =>
    simp only [mAllowedB, Bool.and_eq_true, Bool.not_eq_true'] at h
    refine ⟨⟨h.1.1, allowed_of hw h.1.2⟩, ?_⟩
    intro S' e
    simp only [MSys.step, Option.bind_eq_bind, Option.bind_eq_some_iff, pure, Option.some.injEq] at e
    obtain ⟨⟨s', a⟩, e1, e2⟩ := e
    subst e2
    exact within_step hw h.2 e1

theorem mAllowedRun_of {sup : List NodeId} (ops : List MOp) : ∀ {S : MSys} {T : MSpec} {l : List Item},
    Within sup S.view.sys → mAllowedRunB sup S T l ops = true → MAllowedRun S T l ops := by
  induction ops with
  | nil => intro S T l _ _; trivial
  | cons op ops ih =>
    intro S T l hw h
    simp only [mAllowedRunB, Bool.and_eq_true] at h
    obtain ⟨ha, hn⟩ := mAllowed_of hw h.1
    refine ⟨ha, ?_⟩
    intro S' e
    have h2 := h.2
    rw [e] at h2
    exact ih (hn S' e) h2

/-- A model is shown and rendered; after three logged edits the log is used; a copy is edited until its
log is cut and shown instead; finally the first model is shown again after a swap of neighbours. -/
def modeledDemo : List MOp :=
  [.create [1, 2, 3, 4, 5, 6], .update 0 (seqMk 1000), .env (.render 200 none), .env (.content 2 [50]),
    .edit 0 (.swap 1 3), .edit 0 (.push 7), .edit 0 (.moveItem 0 2), .update 0 (seqMk 2000),
    .clone 0, .edit 1 (.remove 0), .edit 1 (.insert 2 9), .edit 1 .pop, .edit 1 (.swap 0 2), .edit 0 (.swap 0 1),
    .update 1 (seqMk 3000), .update 0 (seqMk 4000)]

theorem modeledDemo_allowed : MAllowedRun ⟨[], ⟨fresh, 0, none⟩⟩ MSpec.start [] modeledDemo :=
  mAllowedRun_of modeledDemo within_fresh (by decide +kernel)

/-- the hypotheses of `modeled_mirrors_partial` are met -/
example : ∃ S' l, MSys.run ⟨[], ⟨fresh, 0, none⟩⟩ modeledDemo = some S' ∧
    l.map Item.key = [3, 4, 1, 2, 5, 6, 7] ∧ ShowsAmong S'.view.sys.dom S'.view.sys.list l (mGiven modeledDemo) := by
  obtain ⟨d0, L0, h, hr⟩ := modeled_mirrors_partial (frag := 100) (ls := 1) (le := 2) proper_blank rfl (by decide) modeledDemo
  rw [new_blank] at h
  cases h
  obtain ⟨S', l, h1, -, h3, h4⟩ := hr modeledDemo_allowed
  exact ⟨S', l, h1, h3.trans (by decide), h4⟩

/-- **The claim is false.** The model `[1, 2]` is shown, its two keys are swapped and the list is
updated. The list still shows 1 before 2, and the markers of the item 2 have changed places. -/
theorem modeled_swap_neighbours : ∃ S', MSys.run ⟨[], ⟨fresh, 0, none⟩⟩
      [.create [1, 2], .update 0 (seqMk 1000), .edit 0 (.swap 0 1), .update 0 (seqMk 2000)] = some S' ∧
    S'.models.map Model.vec = [[2, 1]] ∧
    S'.view.sys.list.items = [(1, ⟨1000, 1001⟩), (2, ⟨1002, 1003⟩)] ∧
    S'.view.sys.dom.kids 100 = [1, 1000, 1001, 1003, 1002, 2] := by
  refine ⟨_, rfl, by decide, by decide, by decide⟩

end Verif.Lists
