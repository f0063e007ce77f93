import Verif.Lists.WorkLemmas
/-!
# C59: the lists do the documented amount of work

The documentation of the lists states time complexities. `Verif.Lists.Work` counts elementary operations.
The bounds hold for every list that is reached by an allowed history: `dynamic_work` (a constant for
`insert`, `remove` and `contains_key`; the nodes that are moved for `move_before` and `swap`),
`diffed_update_work` (linear in the old and new keys), `modeled_update_work` (linear in the number of edits
since the last update, also when the log has been cut and the list is rebuilt), `modeled_modified_work` and
`modeled_other_work` (linear in the old and new keys after `modify_vec` or for another model). The counted functions do what the
functions of the model do (`stepW_same` and the results in the theorems).
-/
namespace Verif.Lists
open Verif.Dom

/-! ## what the documentation promises -/

/-- The number of nodes of the item with the key, with its two markers. -/
def nodesOf (k : Key) (l : List Item) : Nat := ((find k l).map fun x => x.nodes.length).getD 0

/-- The operations that a call may take: dynamic_list.rs 121, 165, 208 and 234. `retain` goes through the
map. -/
def callBound (l : List Item) : Op → Nat
  | .insert _ _ _ _ => 10
  | .remove _ => 4
  | .moveBefore k _ => 2 + 3 * nodesOf k l
  | .swap a b => 3 + 3 * nodesOf a l + 3 * nodesOf b l
  | .retain _ => 4 * l.length
  | _ => 0

/-- Is this an edit of the model `i`? -/
def MOp.edits (i : Nat) : MOp → Bool
  | .edit j _ => i == j
  | _ => false

/-- Is this a `modify_vec` of the model `i`? -/
def MOp.modifies (i : Nat) : MOp → Bool
  | .edit j (.modifyVec _) => i == j
  | _ => false

def MOp.isUpdate : MOp → Bool
  | .update _ _ => true
  | _ => false

/-! ## the counted functions are those of the model -/

theorem counts_map {α β : Type} {x : W α} {o : Option α} {k : Nat} (f : α → β) (h : Counts x o k) :
    Counts (x >>= fun a => pure (f a)) (o.map f) k := by
  have := counts_bind h (fun a _ => counts_pure (f a))
  rw [show o.map f = o.bind fun a => some (f a) by cases o <;> rfl]
  exact this

theorem stepW_counts (s : Sys) (op : Op) : ∃ k, Counts (stepW s op) (step s op) k := by
  cases op with
  | insert k b x y => exact ⟨_, counts_map _ (counts_insert _ _ _ _ _ _)⟩
  | remove k => exact ⟨_, counts_map _ (counts_remove _ _ _)⟩
  | retain p => exact ⟨_, counts_map _ (counts_retain _ _ _)⟩
  | moveBefore k b =>
    refine ⟨1 + (0 + (1 + (0 + 3 * ((s.dom.kids s.list.container).length + 1)))), counts_map _ ?_⟩
    exact counts_then (counts_bind (counts_free _) fun r _ => counts_then (counts_bind (counts_free _) fun y _ =>
      counts_moveLoop _ _ _ _ _ _ _))
  | swap a b =>
    have : ∃ k, Counts (swapW s.dom s.list a b) (swap s.dom s.list a b) k := by
      cases hx : s.list.get a with
      | none =>
        refine ⟨_, Counts.mono (k' := 1 + (0 + 0)) (counts_then (counts_bind (counts_free _) fun x h => ?_)) (Nat.le_refl _)⟩
        rw [hx] at h; cases h
      | some x =>
        cases hy : s.list.get b with
        | none =>
          refine ⟨_, Counts.mono (k' := 1 + (0 + (1 + (0 + 0)))) (counts_then (counts_bind (counts_free _) fun x' h =>
            counts_then (counts_bind (counts_free _) fun y' h' => ?_))) (Nat.le_refl _)⟩
          rw [hy] at h'; cases h'
        | some y =>
          by_cases hab : a = b
          · refine ⟨_, Counts.mono (k' := 1 + (0 + (1 + (0 + 0)))) (counts_then (counts_bind (counts_free _) fun x' h =>
              counts_then (counts_bind (counts_free _) fun y' h' => ?_))) (Nat.le_refl _)⟩
            rw [if_pos hab, if_pos hab]
            exact counts_pure _
          · cases hm : moveNodes s.dom s.list.container s.list.container x.start x.stop (some y.start) with
            | none =>
              refine ⟨_, Counts.mono (k' := 1 + (0 + (1 + (0 + (1 + (3 * ((s.dom.kids s.list.container).length + 1) + 0))))))
                (counts_then (counts_bind (counts_free _) fun x' h =>
                counts_then (counts_bind (counts_free _) fun y' h' => ?_))) (Nat.le_refl _)⟩
              rw [hx] at h; cases h
              rw [hy] at h'; cases h'
              rw [if_neg hab, if_neg hab]
              refine counts_then (counts_bind (counts_moveLoop _ _ _ _ _ _ _) fun d1 h1 => ?_)
              have : moveNodes s.dom s.list.container s.list.container x.start x.stop (some y.start) = some d1 := h1
              rw [hm] at this; cases this
            | some d2 =>
              refine ⟨_, Counts.mono (k' := 1 + (0 + (1 + (0 + (1 + (3 * ((s.dom.kids s.list.container).length + 1) +
                3 * ((d2.kids s.list.container).length + 1)))))))
                (counts_then (counts_bind (counts_free _) fun x' h =>
                counts_then (counts_bind (counts_free _) fun y' h' => ?_))) (Nat.le_refl _)⟩
              rw [hx] at h; cases h
              rw [hy] at h'; cases h'
              rw [if_neg hab, if_neg hab]
              refine counts_then (counts_bind (counts_moveLoop _ _ _ _ _ _ _) fun d1 h1 => ?_)
              have : moveNodes s.dom s.list.container s.list.container x.start x.stop (some y.start) = some d1 := h1
              rw [hm] at this; cases this
              exact counts_moveLoop _ _ _ _ _ _ _
    obtain ⟨k, h⟩ := this
    exact ⟨k, counts_map _ h⟩
  | _ => exact ⟨0, counts_free _⟩

/-- Without the counter, a counted call is the call of the model, in every state. -/
theorem stepW_same (s : Sys) (op : Op) (n : Nat) : (stepW s op n).map Prod.fst = step s op := by
  obtain ⟨k, h⟩ := stepW_counts s op
  cases hs : step s op with
  | none => rw [(h n).1 hs]; rfl
  | some a =>
    obtain ⟨c, -, e⟩ := (h n).2 a hs
    rw [e]; rfl

/-! ## DynamicList -/

theorem nodesOf_eq {l : List Item} (hn : (l.map Item.key).Nodup) {x : Item} (hx : x ∈ l) :
    nodesOf x.key l = x.nodes.length := by
  obtain ⟨I1, y, I2, rfl, hk, h1, h2⟩ := has_split ⟨x, hx, rfl⟩ hn
  have : x = y := by
    rcases List.mem_append.1 hx with h | h
    · exact absurd rfl (h1 x h)
    · rcases List.mem_cons.1 h with h | h
      · exact h
      · exact absurd rfl (h2 x h)
  subst this
  unfold nodesOf
  rw [find_split rfl h1]
  rfl

/-- **C59, DynamicList.** After any allowed history of a new list, an allowed call does no more elementary
operations than documented: a constant number for `insert`, `remove` and `contains_key`, however long the
list is; three for every node that is moved and a constant for `move_before` and `swap`. -/
theorem dynamic_work {d : Dom} {frag ls le : NodeId} (hd : Proper d) (hf : d.kids frag = []) (hne : ls ≠ le)
    (ops : List Op) :
    ∃ d0 L0, new d frag ls le = some (d0, L0) ∧
      (AllowedRun ⟨d0, L0⟩ [] ops →
        ∃ s, run ⟨d0, L0⟩ ops = some (s, (specRun [] [] ops).2.2) ∧
          (∀ op, op.isCall = true → Allowed s (specRun [] [] ops).1 op →
            ∃ r c, step s op = some r ∧ stepW s op 0 = some (r, c) ∧ c ≤ callBound (specRun [] [] ops).1 op) ∧
          ∀ k, s.list.containsKeyW k 0 = some (s.list.containsKey k, 1)) := by
  obtain ⟨d0, L0, h, hg0⟩ := good_new hd hf hne
  refine ⟨d0, L0, h, fun ha => ?_⟩
  obtain ⟨s, e, hg⟩ := good_run ops hg0 ha
  refine ⟨s, e, ?_, fun k => rfl⟩
  intro op hc hal
  obtain ⟨s', h1, -⟩ := good_step hg hal
  generalize hl : (specRun [] [] ops).1 = l at *
  have main : Counts (stepW s op) (step s op) (callBound l op) := by
    cases op with
    | insert k b x y => exact counts_map _ (counts_insert _ _ _ _ _ _)
    | remove k => exact counts_map _ (counts_remove _ _ _)
    | moveBefore k b =>
      obtain ⟨⟨x, hx, rfl⟩, h2⟩ := hal
      refine counts_map _ ((counts_move hg hx h2).mono ?_)
      simp only [callBound, nodesOf_eq hg.keys hx]
      omega
    | swap a b =>
      obtain ⟨⟨x, hx, rfl⟩, ⟨y, hy, rfl⟩, h3⟩ := hal
      refine counts_map _ ((counts_swap hg hx hy h3).mono ?_)
      simp only [callBound, nodesOf_eq hg.keys hx, nodesOf_eq hg.keys hy]
      omega
    | retain p =>
      refine counts_map _ ((counts_retain _ _ _).mono ?_)
      have := hg.perm.length_eq
      rw [List.length_map] at this
      simp only [callBound]
      omega
    | _ => cases hc
  obtain ⟨c, hcb, ec⟩ := (main 0).2 _ h1
  exact ⟨_, 0 + c, h1, ec, by omega⟩

/-! ## DiffedList -/

theorem callsCost_le {b k : Nat} {ops : List Op} (h : ∀ op ∈ ops, ∀ n, 1 + callCost b n op ≤ k) :
    ∀ (l : List Item), callsCost b l ops ≤ ops.length * k := by
  induction ops with
  | nil => intro l; simp [callsCost]
  | cons op ops ih =>
    intro l
    have h1 := h op (by simp) l.length
    have h2 := ih (fun o ho => h o (by simp [ho])) (specStep l op)
    simp only [callsCost, List.length_cons, Nat.add_mul, Nat.one_mul]
    omega

theorem callsCost_append (b : Nat) (ops ops' : List Op) : ∀ (l : List Item),
    callsCost b l (ops ++ ops') = callsCost b l ops + callsCost b (ops.foldl specStep l) ops' := by
  induction ops with
  | nil => intro l; simp [callsCost]
  | cons op ops ih => intro l; simp only [List.cons_append, callsCost, ih, List.foldl_cons]; omega

theorem diffLoop_length (mk : Key → NodeId × NodeId) (keys : List Key) : ∀ (set it : List Key),
    (diffLoop mk set it keys).1.length ≤ keys.length ∧ (diffLoop mk set it keys).2.length ≤ set.length ∧
      ∀ op ∈ (diffLoop mk set it keys).1, (∃ k b, op = .moveBefore k b) ∨ ∃ k b x y, op = .insert k b x y := by
  induction keys with
  | nil => intro set it; simp [diffLoop]
  | cons k ks ih =>
    intro set it
    simp only [diffLoop]
    split
    · have hfl : (set.filter (· != k)).length ≤ set.length := List.length_filter_le _ _
      split
      · obtain ⟨h1, h2, h3⟩ := ih (set.filter (· != k)) it.tail
        exact ⟨by simp only [List.length_cons]; omega, by omega, h3⟩
      · obtain ⟨h1, h2, h3⟩ := ih (set.filter (· != k)) it
        refine ⟨by simp only [List.length_cons]; omega, by simp only; omega, ?_⟩
        intro op hop
        rcases List.mem_cons.1 hop with rfl | hop
        · exact Or.inl ⟨_, _, rfl⟩
        · exact h3 op hop
    · obtain ⟨h1, h2, h3⟩ := ih set it
      refine ⟨by simp only [List.length_cons]; omega, h2, ?_⟩
      intro op hop
      rcases List.mem_cons.1 hop with rfl | hop
      · exact Or.inr ⟨_, _, _, _, rfl⟩
      · exact h3 op hop

theorem fewNodes_exists (l : List Item) : ∃ b, 2 ≤ b ∧ FewNodes b l := by
  induction l with
  | nil => exact ⟨2, Nat.le_refl _, fun x hx => by cases hx⟩
  | cons y l ih =>
    obtain ⟨b, h2, hb⟩ := ih
    refine ⟨b + y.nodes.length, by omega, fun x hx => ?_⟩
    rcases List.mem_cons.1 hx with rfl | hx
    · omega
    · have := hb x hx
      omega

theorem diffed_counts {drain : List Key → List Key} (hdr : ∀ l, (drain l).Perm l) {D : Diffed}
    {l l' : List Item} {given : List NodeId} (h : DInv D l l' given) {keys : List Key}
    {mk : Key → NodeId × NodeId} (ha : DiffAllowed D l (.update keys mk)) {b : Nat} (h2 : 2 ≤ b) (hb : FewNodes b l') :
    Counts (D.updateW drain keys mk) (D.update drain keys mk) (7 * D.prev.length + (15 + 3 * b) * keys.length) := by
  obtain ⟨ht, hp, hprev⟩ := h
  obtain ⟨hkn, hfn, hff⟩ := ha
  have hKp : (l'.map Item.key).Perm D.prev := hprev ▸ hp.map _
  obtain ⟨hok1, -, hrest⟩ := diffLoop_perm (mk := mk) keys D.prev D.prev (l'.map Item.key) [] ht.keys
    (by simpa using hKp) hkn (by simp) (by simp)
  obtain ⟨hl1, hl2, hl3⟩ := diffLoop_length mk keys D.prev D.prev
  have hsub := diffLoop_made (mk := mk) keys D.prev D.prev
  unfold Diffed.updateW Diffed.update
  generalize hops : diffLoop mk D.prev D.prev keys = R at *
  obtain ⟨ops, rest⟩ := R
  simp only at *
  have hall : CallsOk l' (ops ++ (drain rest).map .remove) :=
    callsOk_iff.2 (keysOk_append.2 ⟨hok1, removes_ok _ _⟩)
  have hmade : (ops ++ (drain rest).map Op.remove).flatMap madeBy = ops.flatMap madeBy := by
    rw [List.flatMap_append, removes_made, List.append_nil]
  have hnd : ((ops ++ (drain rest).map Op.remove).flatMap madeBy).Nodup := by
    rw [hmade]; exact hfn.sublist hsub
  have hfr : ∀ n ∈ (ops ++ (drain rest).map Op.remove).flatMap madeBy, Fresh D.sys.dom n := by
    rw [hmade]; exact fun n hn => hff n (hsub.subset hn)
  have hc := counts_run h2 _ ht hall hnd hfr hb
  have hcost : callsCost b l' (ops ++ (drain rest).map .remove) ≤ keys.length * (11 + 3 * b) + D.prev.length * 5 := by
    rw [callsCost_append]
    have c1 := callsCost_le (b := b) (k := 11 + 3 * b) (ops := ops) (by
      intro op hop n
      rcases hl3 op hop with ⟨k, c, rfl⟩ | ⟨k, c, x, y, rfl⟩ <;> simp only [callCost] <;> omega) l'
    have c2 := callsCost_le (b := b) (k := 5) (ops := (drain rest).map .remove) (by
      intro op hop n
      obtain ⟨k, -, rfl⟩ := List.mem_map.1 hop
      simp only [callCost]; omega) (ops.foldl specStep l')
    rw [List.length_map, (hdr rest).length_eq] at c2
    have := Nat.mul_le_mul_right (11 + 3 * b) hl1
    omega
  refine Counts.mono (counts_then (counts_then (counts_then (counts_bind hc fun r _ => counts_pure _)))) ?_
  · have e1 : (15 + 3 * b) * keys.length = 4 * keys.length + keys.length * (11 + 3 * b) := by
      rw [Nat.mul_comm keys.length, ← Nat.add_mul]; congr 1; omega
    omega

/-- **C59, DiffedList.** After any allowed history, an update takes at most `7·p + (15 + 3·b)·k` elementary
operations, if there were `p` keys and are `k`, and no item has more than `b` nodes. -/
theorem diffed_update_work {drain : List Key → List Key} (hdr : ∀ l, (drain l).Perm l) {d : Dom}
    {frag ls le : NodeId} (hd : Proper d) (hf : d.kids frag = []) (hne : ls ≠ le) (ops : List DiffOp)
    (keys : List Key) (mk : Key → NodeId × NodeId) :
    ∃ d0 L0, new d frag ls le = some (d0, L0) ∧
      (DiffAllowedRun drain ⟨⟨d0, L0⟩, []⟩ [] (ops ++ [.update keys mk]) →
        ∃ D1 D2 l c, Diffed.run drain ⟨⟨d0, L0⟩, []⟩ ops = some D1 ∧ D1.step drain (.update keys mk) = some D2 ∧
          ShowsAmong D1.sys.dom D1.sys.list l (diffGiven ops) ∧
          D1.updateW drain keys mk 0 = some (D2, c) ∧
          ∀ b, 2 ≤ b → FewNodes b l → c ≤ 7 * l.length + (15 + 3 * b) * keys.length) := by
  obtain ⟨d0, L0, h, hg⟩ := good_new hd hf hne
  refine ⟨d0, L0, h, fun ha => ?_⟩
  have hsplit : ∀ (ops : List DiffOp) (D : Diffed) (l : List Item),
      DiffAllowedRun drain D l (ops ++ [.update keys mk]) → DiffAllowedRun drain D l ops ∧
        ∀ D', D.run drain ops = some D' → DiffAllowed D' (ops.foldl diffSpec l) (.update keys mk) := by
    intro ops
    induction ops with
    | nil => intro D l h; exact ⟨trivial, fun D' e => by cases e; exact h.1⟩
    | cons op ops ih =>
      intro D l h
      refine ⟨⟨h.1, fun D1 e1 => (ih D1 _ (h.2 D1 e1)).1⟩, ?_⟩
      intro D' e
      simp only [Diffed.run, Option.bind_eq_bind, Option.bind_eq_some_iff] at e
      obtain ⟨D1, e1, e2⟩ := e
      exact (ih D1 _ (h.2 D1 e1)).2 D' e2
  obtain ⟨ha1, ha2⟩ := hsplit ops _ _ ha
  have h0 : DInv ⟨⟨d0, L0⟩, []⟩ [] [] [] := ⟨⟨⟨_, hg, fun _ h => h⟩, by simp⟩, List.Perm.refl _, rfl⟩
  obtain ⟨D1, l, e1, hi, -⟩ := diffed_run hdr ops h0 ha1
  obtain ⟨D2, l2, e2, -, -⟩ := diffed_update hdr hi (ha2 D1 e1)
  have hlen : D1.prev.length = l.length := by rw [← hi.2.2, List.length_map, hi.2.1.length_eq]
  -- a bound that exists anyway gives the value of the counter
  obtain ⟨b0, hb0, hs0⟩ := fewNodes_exists l
  obtain ⟨c, -, ec⟩ := (diffed_counts hdr hi (ha2 D1 e1) hb0 hs0 0).2 D2 e2
  have hsh := hi.1.shows
  rw [List.append_nil] at hsh
  refine ⟨D1, D2, l, 0 + c, e1, e2, hsh, ec, ?_⟩
  intro b h2 hb
  obtain ⟨c', hc', ec'⟩ := (diffed_counts hdr hi (ha2 D1 e1) h2 hb 0).2 D2 e2
  rw [ec] at ec'
  simp only [Option.some.injEq, Prod.mk.injEq, true_and] at ec'
  rw [hlen] at hc'
  omega

/-! ## ModeledList -/

theorem logCalls_length (mk : Nat → NodeId × NodeId) (cs : List Change) : ∀ i, (logCalls mk i cs).length = cs.length := by
  induction cs with
  | nil => intro i; rfl
  | cons c cs ih => intro i; simp only [logCalls, List.length_cons, ih]

theorem logCalls_call (mk : Nat → NodeId × NodeId) (cs : List Change) : ∀ i, ∀ op ∈ logCalls mk i cs,
    ∀ b n, 2 ≤ b → 1 + callCost b n op ≤ 4 + 6 * b := by
  induction cs with
  | nil => intro i op h; cases h
  | cons c cs ih =>
    intro i op h b n hb
    rcases List.mem_cons.1 h with rfl | h
    · cases c <;> simp only [Change.call, callCost] <;> omega
    · exact ih _ op h b n hb

theorem newCalls_cost (mk : Nat → NodeId × NodeId) (ks : List Key) : ∀ i, (newCalls mk i ks).length = ks.length ∧
    ∀ op ∈ newCalls mk i ks, ∀ b n, 1 + callCost b n op ≤ 11 := by
  induction ks with
  | nil => intro i; exact ⟨rfl, fun op h => by cases h⟩
  | cons k ks ih =>
    intro i
    refine ⟨by simp only [newCalls, List.length_cons, (ih (i + 1)).1], ?_⟩
    intro op h b n
    rcases List.mem_cons.1 h with rfl | h
    · simp only [callCost]; omega
    · exact (ih (i + 1)).2 op h b n

theorem moveCalls_cost (ret ks : List Key) : ∀ last, (moveCalls ret last ks).length ≤ ks.length ∧
    ∀ op ∈ moveCalls ret last ks, ∀ b n, 1 + callCost b n op ≤ 3 + 3 * b := by
  induction ks with
  | nil => intro i; exact ⟨Nat.le_refl _, fun op h => by cases h⟩
  | cons k ks ih =>
    intro last
    obtain ⟨h1, h2⟩ := ih (some k)
    simp only [moveCalls]
    split
    · refine ⟨by simp only [List.cons_append, List.nil_append, List.length_cons]; omega, ?_⟩
      intro op h b n
      rcases List.mem_cons.1 h with rfl | h
      · simp only [callCost]; omega
      · exact h2 op h b n
    · refine ⟨by simp only [List.nil_append, List.length_cons]; omega, h2⟩

/-- the cost of an update -/
def updateCost (b : Nat) (M : Modeled) (i : Nat) (m : Model) (n : Nat) : Nat :=
  if M.useLog i m then (5 + 6 * b) * (m.version - M.version)
  else 1 + 6 * n + (19 + 3 * b) * m.vec.length

theorem modeled_counts {S : MSys} {T : MSpec} {l : List Item} {given : List NodeId} (h : MInv S T l given) {i : Nat}
    {mk : Nat → NodeId × NodeId} (ha : MAllowed S T l (.update i mk)) {m : Model} (hm : S.models[i]? = some m)
    {b : Nat} (h2 : 2 ≤ b) (hb : FewNodes b l) :
    Counts (S.view.updateW i m mk) (S.view.update i m mk) (updateCost b S.view i m l.length) := by
  obtain ⟨m', hm', hn, hf, hd⟩ := ha
  rw [hm] at hm'
  cases hm'
  obtain ⟨hlen, -⟩ := h.models m (List.mem_of_getElem? hm)
  obtain ⟨c1, c2, c3, c4⟩ := calls_ok h hm hd mk
  have hc := counts_run h2 _ h.tracks (callsOk_iff.2 c2) hn hf hb
  have hil : S.view.sys.list.items.length = l.length := by
    have := h.tracks.perm.length_eq
    rwa [List.length_map] at this
  have hcost : S.view.visits i m + callsCost b l (S.view.calls i m mk) ≤ updateCost b S.view i m l.length := by
    unfold Modeled.visits Modeled.calls updateCost
    split
    · rename_i hu
      have hu' := hu
      rw [Modeled.useLog, Bool.and_eq_true, beq_iff_eq, decide_eq_true_eq] at hu'
      have hdl : (m.changes.drop (S.view.version - m.logStart)).length = m.version - S.view.version := by
        rw [List.length_drop]
        have := hu'.2
        unfold Model.logStart at this ⊢
        omega
      have k1 := callsCost_le (b := b) (fun op hop n => logCalls_call mk _ 0 op hop b n h2) l
        (ops := logCalls mk 0 (m.changes.drop (S.view.version - m.logStart)))
      rw [logCalls_length, hdl] at k1
      rw [hdl]
      have : (5 + 6 * b) * (m.version - S.view.version) =
          (m.version - S.view.version) + (m.version - S.view.version) * (4 + 6 * b) := by
        rw [Nat.mul_comm, show 5 + 6 * b = 1 + (4 + 6 * b) by omega, Nat.mul_add, Nat.mul_one]
      omega
    · simp only [rebuildCalls, callsCost_append]
      generalize hret : (S.view.sys.list.items.map Prod.fst).filter (fun x => decide (x ∈ m.vec)) = ret
      obtain ⟨n1, n2⟩ := newCalls_cost mk (m.vec.filter (fun x => decide (x ∉ ret))) 0
      obtain ⟨v1, v2⟩ := moveCalls_cost ret m.vec.reverse none
      have k1 : ∀ l', callsCost b l' (newCalls mk 0 (m.vec.filter (fun x => decide (x ∉ ret)))) ≤ m.vec.length * 11 := by
        intro l'
        refine Nat.le_trans (callsCost_le (fun op hop n => n2 op hop b n) l') (Nat.mul_le_mul_right 11 ?_)
        rw [n1]
        exact List.length_filter_le _ _
      have k2 : ∀ l', callsCost b l' (moveCalls ret none m.vec.reverse) ≤ m.vec.length * (3 + 3 * b) := by
        intro l'
        refine Nat.le_trans (callsCost_le (fun op hop n => v2 op hop b n) l') (Nat.mul_le_mul_right _ ?_)
        rwa [List.length_reverse] at v1
      have k3 : callsCost b l [.retain fun x => decide (x ∈ m.vec)] = 1 + 4 * l.length := by
        simp only [callsCost, callCost]; omega
      rw [k3, hil]
      have e1 := k1 ([Op.retain fun x => decide (x ∈ m.vec)].foldl specStep l)
      have e2 := k2 (([Op.retain fun x => decide (x ∈ m.vec)] ++
        newCalls mk 0 (m.vec.filter (fun x => decide (x ∉ ret)))).foldl specStep l)
      have e3 : (19 + 3 * b) * m.vec.length = 5 * m.vec.length + m.vec.length * 11 + m.vec.length * (3 + 3 * b) := by
        rw [Nat.mul_comm m.vec.length 11, Nat.mul_comm m.vec.length (3 + 3 * b), ← Nat.add_mul, ← Nat.add_mul]
        congr 1
        omega
      omega
  refine Counts.mono (k := S.view.visits i m + (callsCost b l (S.view.calls i m mk) + 0)) ?_ (by omega)
  unfold Modeled.updateW Modeled.update
  refine counts_then (counts_bind hc fun r _ => ?_)
  obtain ⟨s', as⟩ := r
  simp only
  split
  · exact counts_free none
  · exact counts_pure _

theorem vecEdit_length {v : List Key} {e : Edit} (hok : EditOk v e) (hm : ∀ w, e ≠ .modifyVec w) :
    (vecEdit v e).length ≤ v.length + 1 ∧ v.length ≤ (vecEdit v e).length + 1 := by
  cases e with
  | insert i k =>
    have hi : i ≤ v.length := hok.1
    simp only [vecEdit, List.length_insertIdx, if_pos hi]; omega
  | remove i =>
    have hi : i < v.length := hok
    simp only [vecEdit, List.length_eraseIdx, if_pos hi]; omega
  | pop => simp only [vecEdit, List.length_dropLast]; omega
  | push k => simp only [vecEdit, List.length_append, List.length_singleton]; omega
  | swap a b =>
    simp only [vecEdit]
    split
    · simp only [List.length_set]; omega
    · omega
  | moveItem i j =>
    simp only [vecEdit]
    split
    · simp only [List.length_insertIdx, List.length_eraseIdx]
      split <;> split <;> omega
    · omega
  | modifyVec w => exact absurd rfl (hm w)

/-- what is known of a model some edits after the version `V`, when it had `n` keys -/
structure Since (V n C : Nat) (m : Model) : Prop where
  ge : V ≤ m.version
  le : m.version ≤ V + C
  more : m.vec.length ≤ n + C
  less : n ≤ m.vec.length + C
  log : m.logStart ≤ V ∨ m.vec.length ≤ 2 * C

theorem since_edit {V n C : Nat} {m m' : Model} {e : Edit} (h : Since V n C m) (hlen : m.changes.length ≤ m.version)
    (hok : EditOk m.vec e) (hv : m'.vec = vecEdit m.vec e) (hl : Logs m e m') (hm : ∀ w, e ≠ .modifyVec w) :
    Since V n (C + 1) m' := by
  obtain ⟨g1, g2, g3, g4, g5⟩ := h
  obtain ⟨w1, w2⟩ := vecEdit_length hok hm
  rw [← hv] at w1 w2
  cases hl with
  | cleared _ _ h3 => obtain ⟨w, rfl⟩ := h3; exact absurd rfl (hm w)
  | nothing h1 _ _ =>
    subst h1
    exact ⟨g1, by omega, by omega, by omega, g5.imp id (fun g => by omega)⟩
  | logged c k h1 h2 h3 =>
    refine ⟨by omega, by omega, by omega, by omega, ?_⟩
    rcases g5 with g | g
    · by_cases hcut : (m.changes ++ [c]).length > k / 2
      · rw [if_pos hcut] at h1
        have hl' : m'.changes.length = m.changes.length := by rw [h1]; simp
        rw [List.length_append, List.length_singleton] at hcut
        unfold Model.logStart at g ⊢
        rw [hl', h2]
        by_cases hq : m.version + 1 - m.changes.length ≤ V
        · exact Or.inl hq
        · right
          rcases h3 with h3 | h3 <;> omega
      · rw [if_neg hcut] at h1
        have hl' : m'.changes.length = m.changes.length + 1 := by rw [h1]; simp
        left
        unfold Model.logStart at g ⊢
        rw [hl', h2]
        omega
    · exact Or.inr (by omega)

/-- the log has been reset -/
theorem reset_edit {V : Nat} {m m' : Model} {e : Edit} (h : V < m.logStart) (hlen : m.changes.length ≤ m.version)
    (hl : Logs m e m') : V < m'.logStart := by
  cases hl with
  | cleared h1 h2 _ =>
    unfold Model.logStart at h ⊢
    rw [h1, h2, List.length_nil]; omega
  | nothing h1 _ _ => subst h1; exact h
  | logged c k h1 h2 h3 =>
    have hl' : m'.changes.length ≤ m.changes.length + 1 := by
      rw [h1]; split <;> simp
    unfold Model.logStart at h ⊢
    omega

/-- what happens between two updates -/
theorem between (i V n : Nat) (ops : List MOp) : ∀ {S : MSys} {T : MSpec} {l : List Item} {given : List NodeId} {C : Nat}
    {m : Model}, MInv S T l given → MAllowedRun S T l ops → (∀ op ∈ ops, op.isUpdate = false) →
    S.models[i]? = some m → V ≤ m.version →
    ∃ S' m', S.run ops = some S' ∧ S'.models[i]? = some m' ∧ S'.view.version = S.view.version ∧
      S'.view.unique = S.view.unique ∧ m.version ≤ m'.version ∧
      ((∀ op ∈ ops, op.modifies i = false) → Since V n C m → Since V n (C + ops.countP (MOp.edits i)) m') ∧
      ((∃ op ∈ ops, op.modifies i = true) ∨ V < m.logStart → V < m'.logStart) := by
  induction ops with
  | nil =>
    intro S T l given C m h _ _ hm hV
    refine ⟨S, m, rfl, hm, rfl, rfl, Nat.le_refl _, fun _ h => by simpa using h, ?_⟩
    rintro (⟨op, h, -⟩ | h)
    · cases h
    · exact h
  | cons op ops ih =>
    intro S T l given C m h ha hu hm hV
    obtain ⟨S1, e1, h1⟩ := mInv_step h ha.1
    have hu1 := hu op (by simp)
    have key : ∃ m1, S1.models[i]? = some m1 ∧ S1.view.version = S.view.version ∧ S1.view.unique = S.view.unique ∧
        m.version ≤ m1.version ∧
        (op.modifies i = false → Since V n C m → Since V n (C + if op.edits i then 1 else 0) m1) ∧
        (op.modifies i = true ∨ V < m.logStart → V < m1.logStart) := by
      have same : ∀ {m1 : Model}, m1 = m → op.edits i = false → op.modifies i = false →
          m.version ≤ m1.version ∧
          (op.modifies i = false → Since V n C m → Since V n (C + if op.edits i then 1 else 0) m1) ∧
          (op.modifies i = true ∨ V < m.logStart → V < m1.logStart) := by
        intro m1 e he hmo
        subst e
        refine ⟨Nat.le_refl _, fun _ h => by rw [he]; simpa using h, ?_⟩
        rw [hmo]
        rintro (h | h)
        · cases h
        · exact h
      have hil := (List.getElem?_eq_some_iff.1 hm).1
      cases op with
      | create vec =>
        cases e1
        exact ⟨m, by rw [List.getElem?_append_left hil]; exact hm, rfl, rfl, same rfl rfl rfl⟩
      | clone j =>
        simp only [MSys.step, Option.bind_eq_bind, Option.bind_eq_some_iff, pure, Option.some.injEq] at e1
        obtain ⟨mj, -, rfl⟩ := e1
        exact ⟨m, by rw [List.getElem?_append_left hil]; exact hm, rfl, rfl, same rfl rfl rfl⟩
      | edit j e =>
        obtain ⟨v, hv, hok⟩ := ha.1
        simp only [MSys.step, Option.bind_eq_bind, Option.bind_eq_some_iff, pure, Option.some.injEq] at e1
        obtain ⟨mj, hj, mj', ej, rfl⟩ := e1
        by_cases hij : i = j
        · subst hij
          rw [hm] at hj
          cases hj
          rw [vecs_get h, hm] at hv
          cases hv
          obtain ⟨hlen, hnd⟩ := h.models m (List.mem_of_getElem? hm)
          obtain ⟨m1, e2, v1, n1, l1⟩ := edit_ok hnd hok
          rw [ej] at e2
          cases e2
          refine ⟨mj', by simp only [List.getElem?_set_self hil], rfl, rfl, ?_, ?_, ?_⟩
          · cases l1 with
            | cleared _ h2 _ => omega
            | nothing h1 => rw [h1]; exact Nat.le_refl _
            | logged _ _ _ h2 => omega
          · intro hmo hs
            have : ∀ w, e ≠ .modifyVec w := by
              rintro w rfl
              simp [MOp.modifies] at hmo
            simp only [MOp.edits, beq_self_eq_true, if_true]
            exact since_edit hs hlen hok v1 l1 this
          · rintro (hmo | hlt)
            · have : ∃ w, e = .modifyVec w := by
                cases e <;> first | exact ⟨_, rfl⟩ | (simp [MOp.modifies] at hmo)
              obtain ⟨w, rfl⟩ := this
              cases l1 with
              | cleared h1 h2 _ =>
                unfold Model.logStart
                rw [h1, h2, List.length_nil]; omega
              | nothing _ h2 _ => cases h2
              | logged _ _ _ _ _ _ _ _ _ h8 => exact absurd rfl (h8 w)
            · exact reset_edit hlt hlen l1
        · refine ⟨m, by rw [List.getElem?_set_ne (fun e => hij e.symm)]; exact hm, rfl, rfl, same rfl ?_ ?_⟩
          · simp only [MOp.edits, beq_eq_false_iff_ne, ne_eq, hij, not_false_eq_true]
          · cases e <;> simp [MOp.modifies, hij]
      | update j mk => cases hu1
      | env op =>
        simp only [MSys.step, Option.bind_eq_bind, Option.bind_eq_some_iff, pure, Option.some.injEq] at e1
        obtain ⟨⟨s', a⟩, -, rfl⟩ := e1
        exact ⟨m, hm, rfl, rfl, same rfl rfl rfl⟩
    obtain ⟨m1, hm1, v1, u1, le1, k1, k2⟩ := key
    obtain ⟨S2, m2, e2, hm2, v2, u2, le2, k3, k4⟩ := ih (C := C + if op.edits i then 1 else 0) h1 (ha.2 S1 e1)
      (fun o ho => hu o (by simp [ho])) hm1 (by omega)
    refine ⟨S2, m2, by simp only [MSys.run, e1, bind, Option.bind, e2], hm2, by rw [v2, v1], by rw [u2, u1], by omega, ?_, ?_⟩
    · intro hmo hs
      have := k3 (fun o ho => hmo o (by simp [ho])) (k1 (hmo op (by simp)) hs)
      rw [List.countP_cons, Nat.add_comm (ops.countP _), ← Nat.add_assoc]
      exact this
    · rintro (⟨o, ho, hom⟩ | hlt)
      · rcases List.mem_cons.1 ho with rfl | ho
        · exact k4 (Or.inr (k2 (Or.inl hom)))
        · exact k4 (Or.inl ⟨o, ho, hom⟩)
      · exact k4 (Or.inr (k2 (Or.inr hlt)))

/-- the value of the counter -/
theorem modeled_counted {S : MSys} {T : MSpec} {l : List Item} {given : List NodeId} (h : MInv S T l given) {i : Nat}
    {mk : Nat → NodeId × NodeId} (ha : MAllowed S T l (.update i mk)) {m : Model} (hm : S.models[i]? = some m) :
    ∃ S' c, S.step (.update i mk) = some S' ∧ S.view.updateW i m mk 0 = some (S'.view, c) ∧
      S'.view.unique = some i ∧ S'.view.version = m.version ∧ S'.models = S.models ∧
      ∀ b, 2 ≤ b → FewNodes b l → c ≤ updateCost b S.view i m l.length := by
  obtain ⟨S', e, -, -, -⟩ := mInv_update h ha
  have e' := e
  simp only [MSys.step, hm, Option.bind_eq_bind, Option.bind_some, Option.bind_eq_some_iff, pure, Option.some.injEq] at e'
  obtain ⟨M, hM, rfl⟩ := e'
  obtain ⟨b0, h0, hb0⟩ := fewNodes_exists l
  obtain ⟨c, -, ec⟩ := (modeled_counts h ha hm h0 hb0 0).2 _ hM
  have hM' := hM
  simp only [Modeled.update, Option.bind_eq_bind, Option.bind_eq_some_iff] at hM'
  obtain ⟨⟨sys, as⟩, -, hM'⟩ := hM'
  simp only at hM'
  split at hM'
  · cases hM'
  · cases hM'
    refine ⟨_, 0 + c, e, ec, rfl, rfl, rfl, ?_⟩
    intro b h2 hb
    obtain ⟨c', hc', ec'⟩ := (modeled_counts h ha hm h2 hb 0).2 _ hM
    rw [ec] at ec'
    simp only [Option.some.injEq, Prod.mk.injEq, true_and] at ec'
    omega

theorem keys_between {ops : List MOp} (hu : ∀ op ∈ ops, op.isUpdate = false) : ∀ (T : MSpec),
    (ops.foldl mSpec T).keys = T.keys ∧ (ops.foldl mSpec T).shown = T.shown := by
  induction ops with
  | nil => intro T; exact ⟨rfl, rfl⟩
  | cons op ops ih =>
    intro T
    obtain ⟨h1, h2⟩ := ih (fun o ho => hu o (by simp [ho])) (mSpec T op)
    rw [List.foldl_cons, h1, h2]
    have := hu op (by simp)
    cases op with
    | create => exact ⟨rfl, rfl⟩
    | clone i => simp only [mSpec]; split <;> exact ⟨rfl, rfl⟩
    | edit i e => simp only [mSpec]; split <;> exact ⟨rfl, rfl⟩
    | update => cases this
    | env => exact ⟨rfl, rfl⟩

theorem run_append {ops ops' : List MOp} : ∀ {S S1 : MSys}, S.run ops = some S1 → S.run (ops ++ ops') = S1.run ops' := by
  induction ops with
  | nil => intro S S1 h; cases h; rfl
  | cons op ops ih =>
    intro S S1 h
    simp only [MSys.run, Option.bind_eq_bind, Option.bind_eq_some_iff] at h
    obtain ⟨S2, e, h⟩ := h
    simp only [List.cons_append, MSys.run, e, Option.bind_eq_bind, Option.bind_some]
    exact ih h

/-- two updates from the same model, and what is known before the second -/
theorem two_updates {S0 : MSys} {T0 : MSpec} {l0 : List Item} {g0 : List NodeId} (h0 : MInv S0 T0 l0 g0)
    {ops1 ops2 : List MOp} {i : Nat} {mk1 mk2 : Nat → NodeId × NodeId}
    (ha : MAllowedRun S0 T0 l0 (ops1 ++ .update i mk1 :: ops2 ++ [.update i mk2]))
    (hu : ∀ op ∈ ops2, op.isUpdate = false) :
    ∃ (S1 S2 : MSys) (l : List Item) (m m0 : Model) (c : Nat), S0.run (ops1 ++ .update i mk1 :: ops2) = some S1 ∧ S1.step (.update i mk2) = some S2 ∧
      S1.models[i]? = some m ∧ l.length = m0.vec.length ∧
      ShowsAmong S1.view.sys.dom S1.view.sys.list l (mGiven (ops1 ++ .update i mk1 :: ops2) ++ g0) ∧
      S1.view.updateW i m mk2 0 = some (S2.view, c) ∧
      S1.view.version = m0.version ∧ S1.view.unique = some i ∧ m0.version ≤ m.version ∧
      ((∀ op ∈ ops2, op.modifies i = false) →
        Since m0.version m0.vec.length (ops2.countP (MOp.edits i)) m) ∧
      ((∃ op ∈ ops2, op.modifies i = true) → m0.version < m.logStart) ∧
      ∀ b, 2 ≤ b → FewNodes b l → c ≤ updateCost b S1.view i m l.length := by
  obtain ⟨hb1, hb2⟩ := mAllowedRun_append ha
  obtain ⟨S1, r1, i1⟩ := mInv_run _ h0 hb1
  obtain ⟨hc1, hc2⟩ := mAllowedRun_append hb1
  obtain ⟨Sa, ra, ia⟩ := mInv_run _ h0 hc1
  obtain ⟨hd1, hd2⟩ := hc2 Sa ra
  have hd3 := hd1
  obtain ⟨m0, hm0, -⟩ := hd3
  obtain ⟨Sb, -, eb, -, ub, vb, mb, -⟩ := modeled_counted ia hd1 hm0
  obtain ⟨Sb', eb', ib⟩ := mInv_step ia hd1
  rw [eb] at eb'
  cases eb'
  have hmb : Sb.models[i]? = some m0 := by rw [mb]; exact hm0
  obtain ⟨Sc, m, rc, hmc, vc, uc, lec, k1, k2⟩ := between i m0.version m0.vec.length ops2 (C := 0) ib (hd2 Sb eb) hu hmb
    (Nat.le_refl _)
  have hS1 : Sc = S1 := by
    rw [run_append ra] at r1
    simp only [MSys.run, eb, Option.bind_eq_bind, Option.bind_some] at r1
    rw [rc] at r1
    exact Option.some.inj r1
  subst hS1
  obtain ⟨S2, c, e2, ec, -, -, -, hbound⟩ := modeled_counted i1 (hb2 _ r1).1 hmc
  refine ⟨Sc, S2, _, m, m0, c, r1, e2, hmc, ?_, i1.tracks.shows, ec, by rw [vc, vb], by rw [uc, ub], lec, ?_, ?_, hbound⟩
  · have hk := congrArg List.length i1.keys
    rw [List.length_map] at hk
    rw [hk, List.foldl_append, List.foldl_cons, (keys_between hu _).1]
    have hv : (ops1.foldl mSpec T0).vecs[i]? = some m0.vec := by rw [vecs_get ia, hm0]; rfl
    simp only [mSpec, hv]
  · intro hmo
    have := k1 hmo ⟨Nat.le_refl _, by omega, by omega, by omega, Or.inl (Nat.sub_le _ _)⟩
    rwa [Nat.zero_add] at this
  · intro hmo
    exact k2 (Or.inl hmo)

/-- **C59, ModeledList.** Two updates from the same model, no other update and no `modify_vec` of this model
in between: the second takes at most `57 + 6·b` elementary operations for each of the edits of the model in
between, if no item has more than `b` nodes. This holds however long the list is, also if the log has been
cut and the list is rebuilt. -/
theorem modeled_update_work {d : Dom} {frag ls le : NodeId} (hd : Proper d) (hf : d.kids frag = []) (hne : ls ≠ le)
    (ops1 ops2 : List MOp) (i : Nat) (mk1 mk2 : Nat → NodeId × NodeId)
    (hu : ∀ op ∈ ops2, op.isUpdate = false) (hmo : ∀ op ∈ ops2, op.modifies i = false) :
    ∃ d0 L0, new d frag ls le = some (d0, L0) ∧
      (MAllowedRun ⟨[], ⟨⟨d0, L0⟩, 0, none⟩⟩ MSpec.start [] (ops1 ++ .update i mk1 :: ops2 ++ [.update i mk2]) →
        ∃ S1 S2 l m c, MSys.run ⟨[], ⟨⟨d0, L0⟩, 0, none⟩⟩ (ops1 ++ .update i mk1 :: ops2) = some S1 ∧
          S1.step (.update i mk2) = some S2 ∧ S1.models[i]? = some m ∧
          ShowsAmong S1.view.sys.dom S1.view.sys.list l (mGiven (ops1 ++ .update i mk1 :: ops2)) ∧
          S1.view.updateW i m mk2 0 = some (S2.view, c) ∧
          ∀ b, 2 ≤ b → FewNodes b l → c ≤ (57 + 6 * b) * ops2.countP (MOp.edits i)) := by
  obtain ⟨d0, L0, h, hg⟩ := good_new hd hf hne
  refine ⟨d0, L0, h, fun ha => ?_⟩
  obtain ⟨S1, S2, l, m, m0, c, r1, e2, hm, hl, hsh, ec, hV, hU, hge, hsi, -, hb⟩ := two_updates (mInv_start hg) ha hu
  rw [List.append_nil] at hsh
  refine ⟨S1, S2, l, m, c, r1, e2, hm, hsh, ec, ?_⟩
  intro b h2 hs
  refine Nat.le_trans (hb b h2 hs) ?_
  obtain ⟨g1, g2, g3, g4, g5⟩ := hsi hmo
  generalize ops2.countP (MOp.edits i) = C at *
  unfold updateCost
  split
  · rw [hV]
    refine Nat.le_trans (Nat.mul_le_mul_left _ (show m.version - m0.version ≤ C by omega)) (Nat.mul_le_mul_right _ (by omega))
  · rename_i hlog
    rw [Modeled.useLog, hU, hV] at hlog
    simp only [beq_self_eq_true, Bool.true_and, decide_eq_true_eq, ge_iff_le] at hlog
    have hv : m.vec.length ≤ 2 * C := by
      rcases g5 with g | g
      · exact absurd g hlog
      · exact g
    have hC : 1 ≤ C := by
      have : m.logStart ≤ m.version := Nat.sub_le _ _
      omega
    have h1 : (19 + 3 * b) * m.vec.length ≤ (19 + 3 * b) * (2 * C) := Nat.mul_le_mul_left _ hv
    have h3 : (57 + 6 * b) * C = C + 18 * C + (19 + 3 * b) * (2 * C) := by
      rw [← Nat.mul_assoc, show C + 18 * C = 19 * C by omega, ← Nat.add_mul]
      congr 1
      omega
    omega

/-- **C59, rebuilding after `modify_vec`.** Two updates from the same model, no other update but a
`modify_vec` in between: the second takes at most `1 + 6·n + (19 + 3·b)·k` elementary operations, if `n` keys
are shown, the model has `k` keys, and no item has more than `b` nodes. -/
theorem modeled_modified_work {d : Dom} {frag ls le : NodeId} (hd : Proper d) (hf : d.kids frag = []) (hne : ls ≠ le)
    (ops1 ops2 : List MOp) (i : Nat) (mk1 mk2 : Nat → NodeId × NodeId)
    (hu : ∀ op ∈ ops2, op.isUpdate = false) (hmo : ∃ op ∈ ops2, op.modifies i = true) :
    ∃ d0 L0, new d frag ls le = some (d0, L0) ∧
      (MAllowedRun ⟨[], ⟨⟨d0, L0⟩, 0, none⟩⟩ MSpec.start [] (ops1 ++ .update i mk1 :: ops2 ++ [.update i mk2]) →
        ∃ S1 S2 l m c, MSys.run ⟨[], ⟨⟨d0, L0⟩, 0, none⟩⟩ (ops1 ++ .update i mk1 :: ops2) = some S1 ∧
          S1.step (.update i mk2) = some S2 ∧ S1.models[i]? = some m ∧
          ShowsAmong S1.view.sys.dom S1.view.sys.list l (mGiven (ops1 ++ .update i mk1 :: ops2)) ∧
          S1.view.updateW i m mk2 0 = some (S2.view, c) ∧
          ∀ b, 2 ≤ b → FewNodes b l → c ≤ 1 + 6 * l.length + (19 + 3 * b) * m.vec.length) := by
  obtain ⟨d0, L0, h, hg⟩ := good_new hd hf hne
  refine ⟨d0, L0, h, fun ha => ?_⟩
  obtain ⟨S1, S2, l, m, m0, c, r1, e2, hm, hl, hsh, ec, hV, hU, hge, -, hsi, hb⟩ := two_updates (mInv_start hg) ha hu
  rw [List.append_nil] at hsh
  refine ⟨S1, S2, l, m, c, r1, e2, hm, hsh, ec, ?_⟩
  intro b h2 hs
  refine Nat.le_trans (hb b h2 hs) ?_
  unfold updateCost
  rw [if_neg]
  · exact Nat.le_refl _
  · rw [Modeled.useLog, hU, hV]
    have := hsi hmo
    simp only [beq_self_eq_true, Bool.true_and, decide_eq_true_eq, ge_iff_le]
    omega

/-- **C59, another model.** The first update, and an update from another model than the last one, take at
most `1 + 6·n + (19 + 3·b)·k` elementary operations, if `n` keys are shown, the model has `k` keys, and no
item has more than `b` nodes. -/
theorem modeled_other_work {d : Dom} {frag ls le : NodeId} (hd : Proper d) (hf : d.kids frag = []) (hne : ls ≠ le)
    (ops : List MOp) (i : Nat) (mk : Nat → NodeId × NodeId) (ho : (ops.foldl mSpec MSpec.start).shown ≠ some i) :
    ∃ d0 L0, new d frag ls le = some (d0, L0) ∧
      (MAllowedRun ⟨[], ⟨⟨d0, L0⟩, 0, none⟩⟩ MSpec.start [] (ops ++ [.update i mk]) →
        ∃ S1 S2 l m c, MSys.run ⟨[], ⟨⟨d0, L0⟩, 0, none⟩⟩ ops = some S1 ∧
          S1.step (.update i mk) = some S2 ∧ S1.models[i]? = some m ∧
          ShowsAmong S1.view.sys.dom S1.view.sys.list l (mGiven ops) ∧
          S1.view.updateW i m mk 0 = some (S2.view, c) ∧
          ∀ b, 2 ≤ b → FewNodes b l → c ≤ 1 + 6 * l.length + (19 + 3 * b) * m.vec.length) := by
  obtain ⟨d0, L0, h, hg⟩ := good_new hd hf hne
  refine ⟨d0, L0, h, fun ha => ?_⟩
  obtain ⟨ha1, ha2⟩ := mAllowedRun_append ha
  obtain ⟨S1, r1, i1⟩ := mInv_run _ (mInv_start hg) ha1
  obtain ⟨ha3, -⟩ := ha2 S1 r1
  have ha4 := ha3
  obtain ⟨m, hm, -⟩ := ha4
  obtain ⟨S2, c, e2, ec, -, -, -, hb⟩ := modeled_counted i1 ha3 hm
  have hsh := i1.tracks.shows
  rw [List.append_nil] at hsh
  refine ⟨S1, S2, _, m, c, r1, e2, hm, hsh, ec, ?_⟩
  intro b h2 hs
  refine Nat.le_trans (hb b h2 hs) ?_
  unfold updateCost
  rw [if_neg]
  · exact Nat.le_refl _
  · rw [Modeled.useLog, i1.shown, Bool.and_eq_true, beq_iff_eq]
    exact fun hh => ho hh.1

/-- **C59, in every state.** Also when the document is wrong: `insert`, `remove` and `contains_key` take a
constant number of operations, and `retain` four for every item. -/
theorem dynamic_work_any {s s' : Sys} {op : Op} {a : Option Bool} (h : step s op = some (s', a)) :
    ∃ c, stepW s op 0 = some ((s', a), c) ∧
      (∀ k b x y, op = .insert k b x y → c ≤ 10) ∧ (∀ k, op = .remove k → c ≤ 4) ∧
      (∀ p, op = .retain p → c ≤ 4 * s.list.items.length) := by
  obtain ⟨⟨r, c⟩, e, er⟩ : ∃ r, stepW s op 0 = some r ∧ r.1 = (s', a) := by
    have := stepW_same s op 0
    rw [h] at this
    exact Option.map_eq_some_iff.1 this
  cases er
  refine ⟨c, e, ?_, ?_, ?_⟩
  · rintro k b x y rfl
    obtain ⟨c', hc, e'⟩ := (counts_map _ (counts_insert s.dom s.list k b x y) 0).2 _ h
    rw [show stepW s (.insert k b x y) 0 = _ from e'] at e
    cases e
    omega
  · rintro k rfl
    obtain ⟨c', hc, e'⟩ := (counts_map _ (counts_remove s.dom s.list k) 0).2 _ h
    rw [show stepW s (.remove k) 0 = _ from e'] at e
    cases e
    omega
  · rintro p rfl
    obtain ⟨c', hc, e'⟩ := (counts_map _ (counts_retain s.dom s.list p) 0).2 _ h
    rw [show stepW s (.retain p) 0 = _ from e'] at e
    cases e
    omega

/-! ## concrete histories -/

/-- the operations of a call after a history -/
def callWork (ops : List Op) (op : Op) : Option Nat :=
  (run fresh ops).bind fun r => (stepW r.1 op 0).map Prod.snd

def threeItems : List Op :=
  [.insert 7 none 11 12, .insert 8 none 13 14, .insert 9 none 15 16, .content 7 [50, 51]]

/-- an item of four nodes and one of two are swapped -/
example : callWork threeItems (.swap 7 9) = some 21 := by decide +kernel
example : callWork threeItems (.insert 10 (some 8) 17 18) = some 7 := by decide +kernel
/-- the key is there, the item is replaced -/
example : callWork threeItems (.insert 7 (some 8) 17 18) = some 10 := by decide +kernel
example : callWork threeItems (.remove 7) = some 4 := by decide +kernel

/-- after the swap of neighbours, which makes the document wrong, too -/
example : callWork (threeItems ++ [.swap 7 8]) (.insert 10 (some 8) 17 18) = some 7 ∧
    callWork (threeItems ++ [.swap 7 8]) (.retain (· == 9)) = some 10 := by decide +kernel

/-- the hypotheses of `dynamic_work` are met -/
example : ∃ s, run fresh sample = some (s, (specRun [] [] sample).2.2) ∧
    ∃ r c, stepW s (.moveBefore 9 (some 8)) 0 = some (r, c) ∧ c ≤ 8 := by
  obtain ⟨d0, L0, h, hr⟩ := dynamic_work (frag := 100) (ls := 1) (le := 2) proper_blank rfl (by decide) sample
  rw [new_blank] at h
  cases h
  obtain ⟨s, h1, h2, -⟩ := hr sample_allowed
  have hn : nodesOf 9 (specRun [] [] sample).1 = 2 := by decide
  obtain ⟨r, c, -, e, hc⟩ := h2 (.moveBefore 9 (some 8)) rfl (by
    rw [sample_spec]
    refine ⟨⟨⟨9, 15, 16, []⟩, by simp, rfl⟩, ?_⟩
    intro k hk
    cases hk
    exact ⟨⟨⟨8, 17, 18, []⟩, by simp, rfl⟩, by decide⟩)
  refine ⟨s, h1, r, c, e, ?_⟩
  simp only [callBound, hn] at hc
  omega

/-- the hypotheses of `diffed_update_work` are met -/
example : ∃ D1 D2 l c, Diffed.run id ⟨fresh, []⟩ (diffDemo.take 3) = some D1 ∧
    ShowsAmong D1.sys.dom D1.sys.list l [50] ∧
    D1.updateW id [4, 1, 5, 2] (demoMk 2000) 0 = some (D2, c) ∧
    ∀ b, 2 ≤ b → FewNodes b l → c ≤ 7 * l.length + (15 + 3 * b) * 4 := by
  obtain ⟨d0, L0, h, hr⟩ := diffed_update_work (drain := id) (fun _ => List.Perm.refl _) (frag := 100) (ls := 1)
    (le := 2) proper_blank rfl (by decide) (diffDemo.take 3) [4, 1, 5, 2] (demoMk 2000)
  rw [new_blank] at h
  cases h
  obtain ⟨D1, D2, l, c, h1, -, h3, h4, h5⟩ := hr diffDemo_allowed
  exact ⟨D1, D2, l, c, h1, h3, h4, h5⟩

example : ((Diffed.run id ⟨fresh, []⟩ (diffDemo.take 3)).bind fun D =>
    (D.updateW id [4, 1, 5, 2] (demoMk 2000) 0).map Prod.snd) = some 41 := by decide +kernel

/-- the operations of an update after a history -/
def updateWork (ops : List MOp) (i : Nat) : Option Nat :=
  (MSys.run ⟨[], ⟨fresh, 0, none⟩⟩ ops).bind fun S => S.models[i]?.bind fun m =>
    (S.view.updateW i m (seqMk 9000) 0).map Prod.snd

/-- a model of many keys that is shown; then a push and a swap -/
def workDemo (n : Nat) : List MOp :=
  [.create (List.range n), .update 0 (seqMk 1000), .env (.render 200 none), .edit 0 (.push 99), .edit 0 (.swap 3 9)]

/-- the log is used, and the length of the list does not matter -/
example : updateWork (workDemo 12) 0 = some 26 ∧ updateWork (workDemo 24) 0 = some 26 := by decide +kernel

/-- more edits than half of the keys -/
def cutDemo : List MOp := [.edit 0 (.push 4), .edit 0 (.push 5), .edit 0 (.remove 0)]

/-- after more edits than half of the keys the list is rebuilt -/
example : updateWork ([.create [1, 2, 3], .update 0 (seqMk 1000)] ++ cutDemo) 0 = some 69 := by decide +kernel

/-- the hypotheses of `modeled_update_work` are met, with the log … -/
example : ∃ S1 S2 l m c, MSys.run ⟨[], ⟨fresh, 0, none⟩⟩ (modeledDemo.take 7) = some S1 ∧
    S1.step (.update 0 (seqMk 2000)) = some S2 ∧ S1.models[0]? = some m ∧
    ShowsAmong S1.view.sys.dom S1.view.sys.list l [50] ∧ S1.view.updateW 0 m (seqMk 2000) 0 = some (S2.view, c) ∧
    ∀ b, 2 ≤ b → FewNodes b l → c ≤ (57 + 6 * b) * 3 := by
  obtain ⟨d0, L0, h, hr⟩ := modeled_update_work (frag := 100) (ls := 1) (le := 2) proper_blank rfl (by decide)
    [.create [1, 2, 3, 4, 5, 6]] ((modeledDemo.drop 2).take 5) 0 (seqMk 1000) (seqMk 2000) (by simp [modeledDemo, MOp.isUpdate])
    (by simp [modeledDemo, MOp.modifies])
  rw [new_blank] at h
  cases h
  obtain ⟨S1, S2, l, m, c, h1, h2, h3, h4, h5, h6⟩ :=
    hr (mAllowedRun_of (modeledDemo.take 8) within_fresh (by decide +kernel))
  exact ⟨S1, S2, l, m, c, h1, h2, h3, h4, h5, h6⟩

/-- … and with a rebuild -/
example : ∃ S1 S2 l m c, MSys.run ⟨[], ⟨fresh, 0, none⟩⟩ ([.create [1, 2, 3]] ++ .update 0 (seqMk 1000) :: cutDemo) = some S1 ∧
    S1.step (.update 0 (seqMk 2000)) = some S2 ∧ S1.models[0]? = some m ∧
    ShowsAmong S1.view.sys.dom S1.view.sys.list l [] ∧ S1.view.updateW 0 m (seqMk 2000) 0 = some (S2.view, c) ∧
    ∀ b, 2 ≤ b → FewNodes b l → c ≤ (57 + 6 * b) * 3 := by
  obtain ⟨d0, L0, h, hr⟩ := modeled_update_work (frag := 100) (ls := 1) (le := 2) proper_blank rfl (by decide)
    [.create [1, 2, 3]] cutDemo 0 (seqMk 1000) (seqMk 2000) (by simp [cutDemo, MOp.isUpdate])
    (by simp [cutDemo, MOp.modifies])
  rw [new_blank] at h
  cases h
  obtain ⟨S1, S2, l, m, c, h1, h2, h3, h4, h5, h6⟩ := hr (mAllowedRun_of _ within_fresh (by decide +kernel))
  exact ⟨S1, S2, l, m, c, h1, h2, h3, h4, h5, h6⟩

/-- the hypotheses of `modeled_modified_work` are met -/
def resetDemo : List MOp := [.edit 0 (.modifyVec [3, 1, 7]), .edit 0 (.push 9)]

example : ∃ S1 S2 l m c, MSys.run ⟨[], ⟨fresh, 0, none⟩⟩ ([.create [1, 2, 3]] ++ .update 0 (seqMk 1000) :: resetDemo) = some S1 ∧
    S1.step (.update 0 (seqMk 2000)) = some S2 ∧ S1.models[0]? = some m ∧
    ShowsAmong S1.view.sys.dom S1.view.sys.list l [] ∧ S1.view.updateW 0 m (seqMk 2000) 0 = some (S2.view, c) ∧
    ∀ b, 2 ≤ b → FewNodes b l → c ≤ 1 + 6 * l.length + (19 + 3 * b) * m.vec.length := by
  obtain ⟨d0, L0, h, hr⟩ := modeled_modified_work (frag := 100) (ls := 1) (le := 2) proper_blank rfl (by decide)
    [.create [1, 2, 3]] resetDemo 0 (seqMk 1000) (seqMk 2000) (by simp [resetDemo, MOp.isUpdate])
    ⟨_, by simp only [resetDemo]; exact List.mem_cons_self, rfl⟩
  rw [new_blank] at h
  cases h
  exact hr (mAllowedRun_of _ within_fresh (by decide +kernel))

/-- the hypotheses of `modeled_other_work` are met -/
example : ∃ S1 S2 l m c, MSys.run ⟨[], ⟨fresh, 0, none⟩⟩ (modeledDemo.take 14) = some S1 ∧
    S1.step (.update 1 (seqMk 3000)) = some S2 ∧ S1.models[1]? = some m ∧
    ShowsAmong S1.view.sys.dom S1.view.sys.list l [50] ∧ S1.view.updateW 1 m (seqMk 3000) 0 = some (S2.view, c) ∧
    ∀ b, 2 ≤ b → FewNodes b l → c ≤ 1 + 6 * l.length + (19 + 3 * b) * m.vec.length := by
  obtain ⟨d0, L0, h, hr⟩ := modeled_other_work (frag := 100) (ls := 1) (le := 2) proper_blank rfl (by decide)
    (modeledDemo.take 14) 1 (seqMk 3000) (by decide)
  rw [new_blank] at h
  cases h
  exact hr (mAllowedRun_of (modeledDemo.take 15) within_fresh (by decide +kernel))

end Verif.Lists
