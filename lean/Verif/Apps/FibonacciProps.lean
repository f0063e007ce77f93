import Verif.Apps.Fibonacci
/-! # C81: the rows are the Fibonacci numbers, as long as they fit -/
namespace Verif.Apps.Fibonacci
open Verif.Lists Verif.Dom

variable {debug : Bool} {S S' : MSys} {l : List Item} {n : Nat}

/-! ## The numbers -/

theorem size_pos : 0 < size := by decide

theorem rows_succ (n : Nat) : rows (n + 1) = rows n ++ [Nat.pair (n + 1) (Nat.fib (n + 1) % size)] := by
  simp [rows, List.range_succ]

theorem rows_length (n : Nat) : (rows n).length = n := by simp [rows]

theorem rows_nodup (n : Nat) : (rows n).Nodup := by
  refine List.Nodup.map ?_ List.nodup_range
  intro a b h
  have := congrArg (fun k => k.unpair.1) h
  simpa using this

theorem row_new (n x : Nat) : Nat.pair (n + 1) x ∉ rows n := by
  intro h
  obtain ⟨i, hi, h⟩ := List.mem_map.1 h
  have := congrArg (fun k => k.unpair.1) h
  simp only [Nat.unpair_pair] at this
  rw [List.mem_range] at hi
  omega

theorem fib_fits {n : Nat} (h : n ≤ 93) : Nat.fib n < size :=
  lt_of_le_of_lt (Nat.fib_mono h) (by norm_num [size])

theorem add_release (a b : Nat) : add false a b = some ((a + b) % size) := by
  unfold add
  split
  · rename_i h; rw [Nat.mod_eq_of_lt h]
  · rfl

theorem next_rows (n : Nat) : next debug (rows (n + 2)) =
    ((add debug (Nat.fib (n + 2) % size) (Nat.fib (n + 1) % size)).map fun s => Nat.pair (n + 3) s) := by
  have h0 : add debug 0 (Nat.fib (n + 2) % size) = some (Nat.fib (n + 2) % size) := by
    rw [add, Nat.zero_add, if_pos (Nat.mod_lt _ size_pos)]
  simp [next, rows_succ, rows_length, List.foldlM, h0]

theorem next_wraps (n : Nat) : next false (rows (n + 2)) = some (Nat.pair (n + 3) (Nat.fib (n + 3) % size)) := by
  rw [next_rows, add_release, ← Nat.add_mod, Nat.add_comm (Nat.fib (n + 2)), ← Nat.fib_add_two]
  rfl

theorem next_fits (h : n ≤ 90) : next debug (rows (n + 2)) = some (Nat.pair (n + 3) (Nat.fib (n + 3) % size)) := by
  have h3 := fib_fits (show n + 3 ≤ 93 by omega)
  have e : Nat.fib (n + 2) + Nat.fib (n + 1) = Nat.fib (n + 3) := by
    rw [Nat.add_comm]; exact (Nat.fib_add_two (n := n + 1)).symm
  rw [next_rows, Nat.mod_eq_of_lt (fib_fits (by omega)), Nat.mod_eq_of_lt (fib_fits (by omega)), add, e, if_pos h3,
    Nat.mod_eq_of_lt h3]
  rfl

theorem next_panics : next true (rows 93) = none := by
  rw [next_rows]
  norm_num [add, size]

/-! ## The list -/

/-- The state between two seconds. -/
structure FInv (S : MSys) (l : List Item) (n : Nat) (given : List NodeId) : Prop where
  inv : MInv S ⟨[rows n], some 0, rows n, false, []⟩ l given
  synced : ∀ m, S.models[0]? = some m → S.view.version = m.version
  two : 2 ≤ n

theorem model_of {given : List NodeId} (h : FInv S l n given) : ∃ m, S.models = [m] ∧ m.vec = rows n := by
  have := h.inv.vecs
  match hm : S.models with
  | [] => rw [hm] at this; cases this
  | [m] => rw [hm] at this; exact ⟨m, rfl, by simpa using this⟩
  | a :: b :: c => rw [hm] at this; simp at this

/-- `update` after a `push` makes one call. -/
theorem push_calls {M : Modeled} {m : Model} {k : Key} {mk : Nat → NodeId × NodeId} (hu : M.unique = some 0)
    (hv : M.version = m.version) (hl : m.changes.length ≤ m.version) (h2 : 2 ≤ m.vec.length) :
    M.calls 0 (m.push k) mk = [.insert k none (mk 0).1 (mk 0).2] := by
  have key : ∃ cs, (m.push k).changes = cs ++ [.insert k none] := by
    simp only [Model.push, Model.addChange]
    split
    · rename_i hgt
      cases hc : m.changes with
      | nil => rw [hc] at hgt; simp at hgt; omega
      | cons c cs => exact ⟨cs, by simp⟩
    · exact ⟨_, rfl⟩
  have hle : (m.push k).changes.length ≤ m.version + 1 := by
    simp only [Model.push, Model.addChange]
    split <;> simp <;> omega
  have hver : (m.push k).version = m.version + 1 := rfl
  obtain ⟨cs, hcs⟩ := key
  rw [hcs, List.length_append, List.length_singleton] at hle
  have hs : (m.push k).logStart = m.version - cs.length := by
    rw [Model.logStart, hver, hcs, List.length_append, List.length_singleton]; omega
  have hul : M.useLog 0 (m.push k) = true := by
    rw [Modeled.useLog, hu, hv, hs]; simp
  rw [Modeled.calls, if_pos hul, hs, hv, hcs, show m.version - (m.version - cs.length) = cs.length by omega,
    List.drop_left]
  rfl

theorem item_keys {given : List NodeId} (h : FInv S l n given) : ∀ x ∈ l, x.key ∈ rows n := by
  intro x hx
  have : x.key ∈ l.map Item.key := List.mem_map_of_mem hx
  rwa [h.inv.keys] at this

theorem tick_inv {given : List NodeId} (h : FInv S l n given) {mk : Nat → NodeId × NodeId}
    (hmk : NewPair S.view.sys.dom (mk 0)) {m : Model} (hm : S.models[0]? = some m)
    (hk : next debug m.vec = some (Nat.pair (n + 1) (Nat.fib (n + 1) % size))) :
    ∃ S', step debug S (.tick mk) = some S' ∧ FInv S' (items n l (.tick mk)) (n + 1) given := by
  obtain ⟨m', hm', hvec⟩ := model_of h
  obtain rfl : m' = m := by rw [hm'] at hm; simpa using hm
  obtain ⟨hlen, -⟩ := h.inv.models m' (List.mem_of_getElem? hm)
  set k := Nat.pair (n + 1) (Nat.fib (n + 1) % size) with hkdef
  obtain ⟨S1, e1, h1⟩ := mInv_edit h.inv (i := 0) (e := .push k) (v := rows n) rfl (row_new n _)
  have hS1 : S1 = { S with models := [m'.push k] } := by
    have e1' : S.step (.edit 0 (.push k)) = some { S with models := [m'.push k] } := by
      simp only [MSys.step, hm', List.getElem?_cons_zero, Option.bind_eq_bind, Option.bind_some, Model.edit,
        List.set_cons_zero]
      rfl
    rw [e1'] at e1
    exact (Option.some.inj e1).symm
  have hcalls : S1.view.calls 0 (m'.push k) mk = [.insert k none (mk 0).1 (mk 0).2] := by
    rw [hS1]
    exact push_calls h.inv.shown (h.synced m' hm) hlen (by rw [hvec, rows_length]; exact h.two)
  have hm1 : S1.models[0]? = some (m'.push k) := by rw [hS1]; rfl
  have hal : MAllowed S1 (mSpec ⟨[rows n], some 0, rows n, false, []⟩ (.edit 0 (.push k))) l (.update 0 mk) := by
    refine ⟨_, hm1, ?_, ?_, fun _ => rfl⟩
    · rw [hcalls]; simpa [madeBy] using hmk.2.2
    · rw [hcalls, hS1]
      intro x hx
      simp only [List.flatMap_cons, List.flatMap_nil, List.append_nil, madeBy, List.mem_cons, List.not_mem_nil,
        or_false] at hx
      rcases hx with rfl | rfl
      · exact hmk.1
      · exact hmk.2.1
  obtain ⟨S2, e2, h2, -⟩ := mInv_update h1 hal
  have hit : mItems S1 l (.update 0 mk) = items n l (.tick mk) := by
    simp only [mItems, hm1, hcalls, List.foldl_cons, List.foldl_nil, specStep, items]
    have hw : without k l = l := without_eq fun y hy he => row_new n _ (he ▸ item_keys h y hy)
    rw [specInsert, if_neg (by simp), hw]
    rfl
  refine ⟨S2, ?_, ?_, ?_, by have := h.two; omega⟩
  · simp only [step, hm, hk, bind, Option.bind, e1, e2]
  · rw [hit] at h2
    have hT : mSpec (mSpec ⟨[rows n], some 0, rows n, false, []⟩ (.edit 0 (.push k))) (.update 0 mk) =
        ⟨[rows (n + 1)], some 0, rows (n + 1), false, []⟩ := by
      rw [rows_succ]; rfl
    rwa [hT] at h2
  · intro m2 hm2
    simp only [MSys.step, hm1, Modeled.update, Option.bind_eq_bind, Option.bind_eq_some_iff, pure,
      Option.some.injEq] at e2
    obtain ⟨m3, rfl, V, ⟨⟨s', as⟩, -, e4⟩, e5⟩ := e2
    split at e4
    · cases e4
    · simp only [Option.some.injEq] at e4
      subst e4 e5
      rw [hm1, Option.some.injEq] at hm2
      rw [← hm2]

theorem given_cons (e : Ev) (es : List Ev) : given (e :: es) = given [e] ++ given es := by
  cases e with
  | tick mk => rfl
  | env op => cases op <;> simp [given]

theorem env_inv {g : List NodeId} (h : FInv S l n g) {op : Lists.Op} (ha : Allowed S l (.env op)) :
    ∃ S', step debug S (.env op) = some S' ∧ FInv S' (items n l (.env op)) n (given [.env op] ++ g) := by
  obtain ⟨S', e, h1⟩ := mInv_step h.inv (op := .env op) ha
  have hg : mGiven [.env op] = given [.env op] := by cases op <;> rfl
  rw [hg] at h1
  refine ⟨S', e, h1, ?_, h.two⟩
  simp only [MSys.step, Option.bind_eq_bind, Option.bind_eq_some_iff, pure, Option.some.injEq] at e
  obtain ⟨⟨s', a⟩, -, rfl⟩ := e
  exact h.synced

theorem run_inv (es : List Ev) : ∀ {S : MSys} {l : List Item} {n : Nat} {g : List NodeId}, FInv S l n g →
    AllowedRun debug S n l es → (debug = true → n + ticks es ≤ 93) →
    ∃ S' g', run debug S es = some S' ∧ FInv S' (itemsRun n l es) (n + ticks es) g' ∧ ∀ x ∈ g', x ∈ given es ++ g := by
  induction es with
  | nil => intro S l n g h _ _; exact ⟨S, g, rfl, h, fun x hx => hx⟩
  | cons e es ih =>
    intro S l n g h ha hd
    have key : ∃ S1, step debug S e = some S1 ∧ FInv S1 (items n l e) (after n e) (given [e] ++ g) := by
      cases e with
      | tick mk =>
        obtain ⟨m, hm, hv⟩ := model_of h
        have hm0 : S.models[0]? = some m := by rw [hm]; rfl
        have htwo := h.two
        obtain ⟨k, rfl⟩ : ∃ k, n = k + 2 := ⟨n - 2, by omega⟩
        refine tick_inv h ha.1 hm0 ?_
        rw [hv]
        cases debug with
        | false => exact next_wraps k
        | true =>
          refine next_fits ?_
          have := hd rfl
          simp only [ticks, List.countP_cons, if_true] at this
          omega
      | env op => exact env_inv h ha.1
    obtain ⟨S1, e1, h1⟩ := key
    have hn : n + ticks (e :: es) = after n e + ticks es := by
      cases e <;> simp [ticks, after]; omega
    rw [hn] at hd ⊢
    obtain ⟨S2, g', e2, h2, h3⟩ := ih h1 (ha.2 S1 e1) hd
    refine ⟨S2, g', by simp only [run, e1, Option.bind_some, e2], h2, fun x hx => ?_⟩
    have := h3 x hx
    rw [given_cons]
    simp only [List.mem_append] at this ⊢
    tauto

/-- The first two rows. -/
def firstItems (mk : Nat → NodeId × NodeId) : List Item :=
  [⟨Nat.pair 1 1, (mk 0).1, (mk 0).2, []⟩, ⟨Nat.pair 2 1, (mk 1).1, (mk 1).2, []⟩]

/-- The comments of the first two rows are new. -/
def NewTwo (d : Dom) (mk : Nat → NodeId × NodeId) : Prop :=
  [(mk 0).1, (mk 0).2, (mk 1).1, (mk 1).2].Nodup ∧ ∀ x ∈ [(mk 0).1, (mk 0).2, (mk 1).1, (mk 1).2], Fresh d x

theorem start_inv {d0 : Dom} {L0 : DynList} (hg : Good ⟨d0, L0⟩ [] []) {mk : Nat → NodeId × NodeId} (hmk : NewTwo d0 mk) :
    ∃ S0, start ⟨d0, L0⟩ mk = some S0 ∧ FInv S0 (firstItems mk) 2 [] := by
  have h0 := mInv_start hg
  have h1 := mInv_add h0 (v := [Nat.pair 1 1, Nat.pair 2 1]) (by simp [Nat.pair])
  have hempty : L0.items = [] := by
    have := h0.tracks.perm
    simpa using this
  have hcalls : (⟨⟨d0, L0⟩, 0, none⟩ : Modeled).calls 0 (Model.fromVec [Nat.pair 1 1, Nat.pair 2 1]) mk =
      [.retain (· ∈ [Nat.pair 1 1, Nat.pair 2 1]), .insert (Nat.pair 1 1) none (mk 0).1 (mk 0).2,
        .insert (Nat.pair 2 1) none (mk 1).1 (mk 1).2] := by
    simp [Modeled.calls, Modeled.useLog, rebuildCalls, hempty, Model.fromVec, newCalls, moveCalls]
  have hal : MAllowed ⟨[Model.fromVec [Nat.pair 1 1, Nat.pair 2 1]], ⟨⟨d0, L0⟩, 0, none⟩⟩
      { MSpec.start with vecs := [[Nat.pair 1 1, Nat.pair 2 1]] } [] (.update 0 mk) := by
    refine ⟨_, rfl, ?_, ?_, fun h => by cases h⟩
    · simp only [hcalls]; simpa [madeBy] using hmk.1
    · simp only [hcalls]; simpa [madeBy] using hmk.2
  obtain ⟨S2, e2, h2, -⟩ := mInv_update h1 hal
  have hr : rows 2 = [Nat.pair 1 1, Nat.pair 2 1] := by decide
  have hit : mItems ⟨[Model.fromVec [Nat.pair 1 1, Nat.pair 2 1]], ⟨⟨d0, L0⟩, 0, none⟩⟩ [] (.update 0 mk) =
      firstItems mk := by
    simp only [mItems, List.getElem?_cons_zero, hcalls, List.foldl_cons, List.foldl_nil, specStep, List.filter_nil]
    rfl
  refine ⟨S2, ?_, ⟨?_, ?_, le_rfl⟩⟩
  · show (MSys.step _ (.update 0 mk)).bind (fun S => some S) = some S2
    rw [show MSys.step _ (.update 0 mk) = some S2 from e2]
    rfl
  · have h2' : MInv S2 _ (mItems ⟨[Model.fromVec [Nat.pair 1 1, Nat.pair 2 1]], ⟨⟨d0, L0⟩, 0, none⟩⟩ [] (.update 0 mk)) [] := h2
    rw [hit] at h2'
    rw [hr]
    exact h2'
  · intro m2 hm2
    have hm1 : ([Model.fromVec [Nat.pair 1 1, Nat.pair 2 1]] : List Model)[0]? = some (Model.fromVec [Nat.pair 1 1, Nat.pair 2 1]) := rfl
    simp only [MSys.step, List.nil_append, hm1, Modeled.update, Option.bind_eq_bind, Option.bind_eq_some_iff, pure,
      Option.some.injEq] at e2
    obtain ⟨m3, rfl, V, ⟨⟨s', as⟩, -, e4⟩, e5⟩ := e2
    split at e4
    · cases e4
    · simp only [Option.some.injEq] at e4
      subst e4 e5
      rw [hm1, Option.some.injEq] at hm2
      rw [← hm2]

/-! ## The theorems -/

/-- **C81, partial.** A new list in any document, then any history of seconds and of what the rest of the program does. If the
program was built without debug assertions, it never panics, and after k seconds the list shows the rows 1 to k + 2 in order, row
n with the n-th Fibonacci number modulo 2^64. Built with debug assertions it does so for the first 91 seconds. Every second
adds one row at the end and leaves the other rows alone (`itemsRun`).

Missing: what comes after 91 seconds, where the numbers do not fit into `u64` any more. -/
theorem fibonacci_rows_partial {d : Dom} {frag ls le : NodeId} (hd : Proper d) (hf : d.kids frag = []) (hne : ls ≠ le)
    (mk : Nat → NodeId × NodeId) (es : List Ev) :
    ∃ d0 L0, new d frag ls le = some (d0, L0) ∧ (NewTwo d0 mk → ∃ S0, start ⟨d0, L0⟩ mk = some S0 ∧
      (AllowedRun debug S0 2 (firstItems mk) es → (debug = true → ticks es ≤ 91) →
        ∃ S, run debug S0 es = some S ∧
          (itemsRun 2 (firstItems mk) es).map (fun x => x.key.unpair) =
            (List.range (ticks es + 2)).map (fun i => (i + 1, Nat.fib (i + 1) % 2 ^ 64)) ∧
          ShowsAmong S.view.sys.dom S.view.sys.list (itemsRun 2 (firstItems mk) es) (given es))) := by
  obtain ⟨d0, L0, h, hg⟩ := good_new hd hf hne
  refine ⟨d0, L0, h, fun hmk => ?_⟩
  obtain ⟨S0, e0, h0⟩ := start_inv hg hmk
  refine ⟨S0, e0, fun ha hdb => ?_⟩
  obtain ⟨S, g, e, h1, h2⟩ := run_inv es h0 ha (fun h => by have := hdb h; omega)
  refine ⟨S, e, ?_, (tracks_mono h1.inv.tracks fun x hx => by simpa using h2 x hx).shows⟩
  have hk : (itemsRun 2 (firstItems mk) es).map Item.key = rows (2 + ticks es) := h1.inv.keys
  rw [show (fun x : Item => x.key.unpair) = Nat.unpair ∘ Item.key from rfl, ← List.map_map, hk, rows, List.map_map,
    Nat.add_comm 2]
  refine List.map_congr_left fun i _ => ?_
  simp [size]

/-- **C81, the numbers fit.** During the first 91 seconds the numbers are the Fibonacci numbers themselves. -/
theorem fibonacci_fits {n : Nat} (h : n ≤ 93) : Nat.fib n % 2 ^ 64 = Nat.fib n := Nat.mod_eq_of_lt (fib_fits h)

/-- **C81 is false after that.** The 94th number is larger than any `u64`. After 92 seconds the program either panics, or, built
without debug assertions, shows 1293530146158671551 as the 94th Fibonacci number. -/
theorem fibonacci_overflows {d : Dom} {frag ls le : NodeId} (hd : Proper d) (hf : d.kids frag = []) (hne : ls ≠ le)
    (mk : Nat → NodeId × NodeId) (es : List Ev) (hes : ticks es = 91) :
    ∃ d0 L0, new d frag ls le = some (d0, L0) ∧ (NewTwo d0 mk → ∃ S0, start ⟨d0, L0⟩ mk = some S0 ∧
      (AllowedRun debug S0 2 (firstItems mk) es → ∃ S, run debug S0 es = some S ∧
        ∀ mk', (debug = true → step debug S (.tick mk') = none) ∧
          (debug = false → NewPair S.view.sys.dom (mk' 0) → ∃ S' m, step debug S (.tick mk') = some S' ∧
            S'.models = [m] ∧ m.vec.getLast?.map Nat.unpair = some (94, 1293530146158671551)))) := by
  obtain ⟨d0, L0, h, hg⟩ := good_new hd hf hne
  refine ⟨d0, L0, h, fun hmk => ?_⟩
  obtain ⟨S0, e0, h0⟩ := start_inv hg hmk
  refine ⟨S0, e0, fun ha => ?_⟩
  obtain ⟨S, g, e, h1, -⟩ := run_inv es h0 ha (fun _ => by omega)
  refine ⟨S, e, fun mk' => ⟨?_, ?_⟩⟩
  · rintro rfl
    obtain ⟨m, hm, hv⟩ := model_of h1
    have hp : next true m.vec = none := by rw [hv, hes]; exact next_panics
    simp only [step, hm, List.getElem?_cons_zero, hp, Option.bind_eq_bind, Option.bind_some, Option.bind_none]
  · rintro rfl hn
    obtain ⟨m, hm, hv⟩ := model_of h1
    obtain ⟨S', e', h'⟩ := tick_inv (debug := false) h1 hn (m := m) (by rw [hm]; rfl) (by rw [hv, hes]; exact next_wraps 91)
    obtain ⟨m', hm', hv'⟩ := model_of h'
    refine ⟨S', m', e', hm', ?_⟩
    rw [hv', hes, rows_succ]
    norm_num [size]

/-! ## An example -/

/-- `Allowed`, computed. -/
def allowedB (sup : List NodeId) (debug : Bool) (S : MSys) (l : List Item) : Ev → Bool
  | .tick mk => freshB sup S.view.sys.dom (mk 0).1 && freshB sup S.view.sys.dom (mk 0).2 && (mk 0).1 != (mk 0).2 &&
      match S.models[0]? with
      | none => true
      | some m => match next debug m.vec with
        | none => true
        | some k => (S.view.calls 0 (m.push k) mk).all (opWithin sup)
  | .env op => !op.isCall && Verif.Lists.allowedB sup S.view.sys l op && opWithin sup op

def allowedRunB (sup : List NodeId) (debug : Bool) (S : MSys) (n : Nat) (l : List Item) : List Ev → Bool
  | [] => true
  | e :: es => allowedB sup debug S l e &&
      match step debug S e with
      | none => true
      | some S' => allowedRunB sup debug S' (after n e) (items n l e) es

theorem allowed_of' {sup : List NodeId} {e : Ev} (hw : Within sup S.view.sys) (h : allowedB sup debug S l e = true) :
    Allowed S l e ∧ ∀ S', step debug S e = some S' → Within sup S'.view.sys := by
  cases e with
  | env op =>
    simp only [allowedB, Bool.and_eq_true, Bool.not_eq_true'] at h
    refine ⟨⟨h.1.1, allowed_of hw h.1.2⟩, fun S' e => ?_⟩
    simp only [step, MSys.step, Option.bind_eq_bind, Option.bind_eq_some_iff, pure, Option.some.injEq] at e
    obtain ⟨⟨s', a⟩, e1, e2⟩ := e
    subst e2
    exact within_step hw h.2 e1
  | tick mk =>
    simp only [allowedB, Bool.and_eq_true, bne_iff_ne] at h
    obtain ⟨⟨⟨h1, h2⟩, h3⟩, h4⟩ := h
    refine ⟨⟨fresh_of hw h1, fresh_of hw h2, h3⟩, fun S' e => ?_⟩
    simp only [step, Option.bind_eq_bind, Option.bind_eq_some_iff] at e
    obtain ⟨m, hm, k, hk, S1, e1, e2⟩ := e
    simp only [hm, hk, List.all_eq_true] at h4
    simp only [MSys.step, hm, Model.edit, Option.bind_eq_bind, Option.bind_some, pure, Option.some.injEq] at e1
    subst e1
    have hm1 : (S.models.set 0 (m.push k))[0]? = some (m.push k) := by
      cases hS : S.models with
      | nil => rw [hS] at hm; cases hm
      | cons a b => rfl
    simp only [MSys.step, hm1, Modeled.update, Option.bind_eq_bind, Option.bind_eq_some_iff, pure, Option.some.injEq] at e2
    obtain ⟨m3, rfl, V, ⟨⟨s', as⟩, e3, e4⟩, e5⟩ := e2
    split at e4
    · cases e4
    · simp only [Option.some.injEq] at e4
      subst e4 e5
      exact within_run _ hw h4 e3

theorem allowedRun_of {sup : List NodeId} (es : List Ev) : ∀ {S : MSys} {n : Nat} {l : List Item}, Within sup S.view.sys →
    allowedRunB sup debug S n l es = true → AllowedRun debug S n l es := by
  induction es with
  | nil => intro S n l _ _; trivial
  | cons e es ih =>
    intro S n l hw h
    simp only [allowedRunB, Bool.and_eq_true] at h
    obtain ⟨ha, hn⟩ := allowed_of' hw h.1
    refine ⟨ha, fun S' e => ?_⟩
    have h2 := h.2
    rw [e] at h2
    exact ih (hn S' e) h2

/-- The list is rendered, the first two rows come, a second passes and the third row comes, another second passes. -/
def demo : List Ev :=
  [.env (.render 200 none), .env (.content (Nat.pair 1 1) [50]), .env (.content (Nat.pair 2 1) [51]), .tick (seqMk 2000),
    .env (.content (Nat.pair 3 2) [52]), .tick (seqMk 3000)]

/-- The hypotheses of `fibonacci_rows_partial` are met. -/
example : NewTwo fresh.dom (seqMk 1000) ∧ ∃ S0, start fresh (seqMk 1000) = some S0 ∧
    AllowedRun true S0 2 (firstItems (seqMk 1000)) demo ∧ ticks demo = 2 := by
  have hw := mAllowed_of (S := ⟨[Model.fromVec [Nat.pair 1 1, Nat.pair 2 1]], ⟨fresh, 0, none⟩⟩)
    (T := { MSpec.start with vecs := [[Nat.pair 1 1, Nat.pair 2 1]] }) (l := []) (op := .update 0 (seqMk 1000)) within_fresh
    (by decide +kernel)
  have hs : ∃ S0, start fresh (seqMk 1000) = some S0 := Option.isSome_iff_exists.1 (by decide +kernel)
  obtain ⟨S0, e0⟩ := hs
  refine ⟨⟨by decide, fun x hx => fresh_of within_fresh ?_⟩, S0, e0, ?_, by decide⟩
  · have : ∀ x ∈ [(seqMk 1000 0).1, (seqMk 1000 0).2, (seqMk 1000 1).1, (seqMk 1000 1).2],
        freshB [100, 200] fresh.dom x = true := by decide
    exact this x hx
  · have e1 : MSys.step ⟨[Model.fromVec [Nat.pair 1 1, Nat.pair 2 1]], ⟨fresh, 0, none⟩⟩ (.update 0 (seqMk 1000)) = some S0 := by
      have : (MSys.step ⟨[Model.fromVec [Nat.pair 1 1, Nat.pair 2 1]], ⟨fresh, 0, none⟩⟩ (.update 0 (seqMk 1000))).bind
        (fun S => some S) = some S0 := e0
      simpa using this
    refine allowedRun_of demo (hw.2 S0 e1) ?_
    have : (start fresh (seqMk 1000)).map (fun S => allowedRunB [100, 200] true S 2 (firstItems (seqMk 1000)) demo) =
      some true := by decide +kernel
    rw [e0] at this
    simpa using this

end Verif.Apps.Fibonacci
