import Verif.XBow.BytesProps
import Verif.XBow.Props
import Mathlib.Data.Nat.Pairing
/-!
# C47, continued: listeners on typed paths

C26 and C27 are about an arbitrary function from paths to hashes. Here the hash of a path is the digest
of the bytes that the path writes. `seg` numbers the layers, to get the paths of `XBow/Hash`.
-/
namespace Verif.XBow.Data

/-- `hash` is the digest of what a path into a store of type `t` writes. -/
def DigestOf (w : Nat) (enc : Nat → List Nat) (skip : Ty → Nat → Nat → Bool) (t : Ty)
    (digest : List Nat → BitVec 64) (seg : Layer → Seg) (hash : Path → BitVec 64) : Prop :=
  ∀ p, Valid w skip t p → hash (p.map seg) = digest (bytes w enc skip t p)

/-- All changes are changes of places of the store. -/
def Typed (w : Nat) (skip : Ty → Nat → Nat → Bool) (t : Ty) (seg : Layer → Seg)
    (mid : List (Op × Out)) : Prop :=
  ∀ p o, (.change p, o) ∈ mid → ∃ p', p = p'.map seg ∧ Valid w skip t p'

/-- The byte strings that matter to a listener on `q`: those of `q`, of the changed places, and of the
places around them. -/
def Involved (w : Nat) (enc : Nat → List Nat) (skip : Ty → Nat → Nat → Bool) (t : Ty) (seg : Layer → Seg)
    (q : List Layer) (mid : List (Op × Out)) (b : List Nat) : Prop :=
  ∃ x y, x <+: y ∧ (y = q ∨ ∃ o, (.change (y.map seg), o) ∈ mid) ∧ b = bytes w enc skip t x

/-- The digest is free of collisions on the set `S` of byte strings: digests of different strings differ
in the upper 56 bits, and no regular key is a bubbling key. -/
structure NoCollision (digest : List Nat → BitVec 64) (S : List Nat → Prop) : Prop where
  regular : ∀ a b, S a → S b → (digest a &&& ~~~(0xFF#64)) = (digest b &&& ~~~(0xFF#64)) → a = b
  bubbling : ∀ a b d, S a → S b → regularFrom (digest a) d ≠ bubblingFrom (digest b)

theorem Valid.prefix {w : Nat} {skip : Ty → Nat → Nat → Bool} {t : Ty} {p q : List Layer}
    (h : p <+: q) (hq : Valid w skip t q) : Valid w skip t p := by
  induction p generalizing t q with
  | nil => trivial
  | cons l p ih =>
    cases q with
    | nil => simp at h
    | cons m q =>
      obtain ⟨rfl, h2⟩ := List.cons_prefix_cons.1 h
      obtain ⟨h1, u, ho, hq⟩ := hq
      exact ⟨h1, u, ho, ih h2 hq⟩

theorem prefix_map {seg : Layer → Seg} {x : Path} {q : List Layer} (h : x <+: q.map seg) :
    ∃ q', x = q'.map seg ∧ q' <+: q :=
  ⟨q.take x.length, by rw [List.map_take]; exact List.prefix_iff_eq_take.1 h, List.take_prefix _ _⟩

theorem map_inj {seg : Layer → Seg} (hs : ∀ a b, seg a = seg b → a = b) :
    ∀ {p q : List Layer}, p.map seg = q.map seg → p = q
  | [], [], _ => rfl
  | [], _ :: _, h => by simp at h
  | _ :: _, [], h => by simp at h
  | a :: p, b :: q, h => by
    simp only [List.map_cons, List.cons.injEq] at h
    rw [hs _ _ h.1, map_inj hs h.2]

theorem map_prefix_iff {seg : Layer → Seg} (hs : ∀ a b, seg a = seg b → a = b) {p q : List Layer} :
    p.map seg <+: q.map seg ↔ p <+: q := by
  constructor
  · intro h
    obtain ⟨q', e, h'⟩ := prefix_map h
    rwa [map_inj hs e]
  · exact fun h => h.map _

theorem regularFrom_upper (x : BitVec 64) (e : BitVec 8) :
    regularFrom x e &&& ~~~(0xFF#64) = x &&& ~~~(0xFF#64) := by
  apply BitVec.eq_of_getLsbD_eq
  intro i hi
  simp only [regularFrom, BitVec.getLsbD_and, BitVec.getLsbD_or, BitVec.getLsbD_setWidth]
  by_cases h8 : i < 8
  · have : (~~~(0xFF#64)).getLsbD i = false := by
      have : ∀ i : Fin 8, (~~~(0xFF#64)).getLsbD i = false := by decide
      exact this ⟨i, h8⟩
    simp only [this, Bool.and_false]
  · simp [BitVec.getLsbD_of_ge e i (by omega)]

theorem regularFrom_mask {a b : BitVec 64} {d d' : BitVec 8} (h : regularFrom a d = regularFrom b d') :
    (a &&& ~~~(0xFF#64)) = (b &&& ~~~(0xFF#64)) := by
  rw [← regularFrom_upper a d, ← regularFrom_upper b d', h]

section
variable {w : Nat} {enc : Nat → List Nat} {skip : Ty → Nat → Nat → Bool} {t : Ty}
  {digest : List Nat → BitVec 64} {seg : Layer → Seg} {hash : Path → BitVec 64}

/-- **C47, listeners.** With a hasher without collisions, a listener on a place of a store is ready
exactly if that place or one around it was changed. -/
theorem typed_ready_iff {q : List Layer} {i : Nat} {wk wk' : Waker} {mid : List (Op × Out)}
    {s s' : Sys} {o : Out} (hw : 0 < w) (henc : KeysTellApart enc)
    (hd : NoCollision digest (Involved w enc skip t seg q mid))
    (hh : DigestOf w enc skip t digest seg hash)
    (hq : Valid w skip t q) (h : Watch hash (.listen (q.map seg)) i wk mid s)
    (hm : Typed w skip t seg mid) (hp : step hash s (.poll i wk') = some (s', o)) :
    ∃ b, o = .polled b ∧
      (b = true ↔ ∃ p o, (.change (p.map seg), o) ∈ mid ∧ p <+: q) := by
  have hn : ∀ p o, (.change p, o) ∈ mid → NoClash hash (q.map seg) p := by
    intro p o he
    obtain ⟨p, rfl, hvp⟩ := hm p o he
    constructor
    · intro x hx hk
      obtain ⟨q', rfl, hq'⟩ := prefix_map hx
      have hvq := hq.prefix hq'
      simp only [regularKey, hh _ hvq, hh _ hvp] at hk
      rw [bytes_inj hw henc hvq hvp (hd.regular _ _ ⟨_, _, hq', .inl rfl, rfl⟩
        ⟨_, _, List.prefix_refl _, .inr ⟨o, he⟩, rfl⟩ (regularFrom_mask hk))]
    · intro x y hx hy
      obtain ⟨q', rfl, hq'⟩ := prefix_map hx
      obtain ⟨p', rfl, hp'⟩ := prefix_map hy
      simp only [regularKey, bubblingKey, hh _ (hq.prefix hq'), hh _ (hvp.prefix hp')]
      exact hd.bubbling _ _ _ ⟨_, _, hq', .inl rfl, rfl⟩ ⟨_, _, hp', .inr ⟨o, he⟩, rfl⟩
  obtain ⟨b, e, hb⟩ := ready_iff_enclosing_changed h hn hp
  refine ⟨b, e, hb.trans ⟨?_, ?_⟩⟩
  · rintro ⟨p, o, he, hpq⟩
    obtain ⟨p', rfl, hpq'⟩ := prefix_map hpq
    exact ⟨p', o, he, hpq'⟩
  · rintro ⟨p, o, he, hpq⟩
    exact ⟨_, o, he, hpq.map _⟩

/-- **C47, bubbling listeners.** -/
theorem typed_bubbling_ready_iff {q : List Layer} {i : Nat} {wk wk' : Waker} {mid : List (Op × Out)}
    {s s' : Sys} {o : Out} (hw : 0 < w) (henc : KeysTellApart enc)
    (hd : NoCollision digest (Involved w enc skip t seg q mid))
    (hseg : ∀ a b, seg a = seg b → a = b) (hh : DigestOf w enc skip t digest seg hash)
    (hq : Valid w skip t q) (h : Watch hash (.listenBubbling (q.map seg)) i wk mid s)
    (hm : Typed w skip t seg mid) (hp : step hash s (.poll i wk') = some (s', o)) :
    ∃ b, o = .polled b ∧
      (b = true ↔ ∃ p o, (.change (p.map seg), o) ∈ mid ∧ q <+: p) := by
  have hn : ∀ p o, (.change p, o) ∈ mid → NoClashBubbling hash (q.map seg) p := by
    intro p o he
    obtain ⟨p, rfl, hvp⟩ := hm p o he
    constructor
    · intro y hy hk
      obtain ⟨p', rfl, hp'⟩ := prefix_map hy
      have hv := hvp.prefix hp'
      simp only [bubblingKey, bubblingFrom, hh _ hq, hh _ hv] at hk
      have := (BitVec.xor_left_inj _).1 hk
      rw [bytes_inj hw henc hq hv (hd.regular _ _ ⟨_, _, List.prefix_refl _, .inl rfl, rfl⟩
        ⟨_, _, hp', .inr ⟨o, he⟩, rfl⟩ (by rw [this]))]
    · simp only [regularKey, bubblingKey, hh _ hq, hh _ hvp]
      exact fun h => hd.bubbling _ _ _ ⟨_, _, List.prefix_refl _, .inr ⟨o, he⟩, rfl⟩
        ⟨_, _, List.prefix_refl _, .inl rfl, rfl⟩ h.symm
  obtain ⟨b, e, hb⟩ := ready_iff_inside_changed h hn hp
  refine ⟨b, e, hb.trans ⟨?_, ?_⟩⟩
  · rintro ⟨p, o, he, hpq⟩
    obtain ⟨p', rfl, -⟩ := hm p o he
    exact ⟨p', o, he, (map_prefix_iff hseg).1 hpq⟩
  · rintro ⟨p, o, he, hpq⟩
    exact ⟨_, o, he, hpq.map _⟩

/-- **C47 fails for keys that write nothing**: whatever the digest, a bubbling listener on an entry of the
map is ready after a change of the whole map. -/
theorem unit_key_false_ready {p : List Layer} {v : Ty} {k i : Nat} {wk wk' : Waker}
    {mid : List (Op × Out)} {s s' : Sys} {o o' : Out} (hk : enc k = [])
    (hh : DigestOf w enc skip t digest seg hash) (ho : outTy p t = some (.map v))
    (hv : Valid w skip t p) (hv' : Valid w skip t (p ++ [.key k]))
    (h : Watch hash (.listenBubbling ((p ++ [Layer.key k]).map seg)) i wk mid s)
    (hm : (.change (p.map seg), o') ∈ mid) (hp : step hash s (.poll i wk') = some (s', o)) :
    o = .polled true ∧ ¬ (p ++ [Layer.key k]) <+: p := by
  obtain ⟨b, rfl, hb⟩ := ready_iff_key h (.inr ⟨_, rfl⟩) hp
  refine ⟨?_, fun hc => absurd hc.length_le (by simp)⟩
  rw [hb.2 ⟨_, hm, bubblingKey hash (p.map seg), ?_, ?_⟩]
  · simp only [createKeys, List.mem_singleton, bubblingKey, hh _ hv, hh _ hv',
      unit_key_same_bytes w enc skip k hk p t v ho]
  · simp only [Op.keys, List.mem_append, List.mem_map]
    exact .inl ⟨_, mem_visited.2 (List.prefix_refl _), rfl⟩
end

/-! A case that meets all hypotheses of `typed_ready_iff`. -/

def exSeg : Layer → Seg
  | .field i => 6 * i
  | .index i => 6 * i + 1
  | .key k => 6 * k + 2
  | .deref => 3
  | .rcContent => 4
  | .variant tag i => 6 * Nat.pair tag i + 5

def exUnseg (n : Seg) : Layer :=
  match n % 6 with
  | 0 => .field (n / 6)
  | 1 => .index (n / 6)
  | 2 => .key (n / 6)
  | 3 => .deref
  | 4 => .rcContent
  | _ => .variant (Nat.unpair (n / 6)).1 (Nat.unpair (n / 6)).2

theorem exUnseg_exSeg (l : Layer) : exUnseg (exSeg l) = l := by
  cases l with
  | field i => simp [exSeg, exUnseg]
  | index i =>
    have h1 : (6 * i + 1) % 6 = 1 := by omega
    have h2 : (6 * i + 1) / 6 = i := by omega
    simp [exSeg, exUnseg, h1, h2]
  | key i =>
    have h1 : (6 * i + 2) % 6 = 2 := by omega
    have h2 : (6 * i + 2) / 6 = i := by omega
    simp [exSeg, exUnseg, h1, h2]
  | deref => rfl
  | rcContent => rfl
  | variant a b =>
    have h1 : (6 * Nat.pair a b + 5) % 6 = 5 := by omega
    have h2 : (6 * Nat.pair a b + 5) / 6 = Nat.pair a b := by omega
    simp [exSeg, exUnseg, h1, h2]

theorem exSeg_inj (a b : Layer) (h : exSeg a = exSeg b) : a = b := by
  rw [← exUnseg_exSeg a, h, exUnseg_exSeg]

/-- Not a good hash function, but one that tells apart the few places of the example. -/
def exDigest (b : List Nat) : BitVec 64 := BitVec.ofNat 64 (b.foldl (fun n x => 7 * n + x) 1 * 256)

def exHash (x : Path) : BitVec 64 := exDigest (bytes 4 exEnc exSkip exTy (x.map exUnseg))

theorem exHash_ok : DigestOf 4 exEnc exSkip exTy exDigest exSeg exHash := by
  intro p _
  have : (p.map exSeg).map exUnseg = p := by
    rw [List.map_map, show exUnseg ∘ exSeg = id from funext exUnseg_exSeg, List.map_id]
  rw [exHash, this]

def exQ : List Layer := [.field 2, .key 2]

def exMid : List (Op × Out) := [(.change ([.field 1].map exSeg), .woken []),
  (.change ([.field 2].map exSeg), .woken [some 7])]

theorem exMid_typed : Typed 4 exSkip exTy exSeg exMid := by
  intro p o h
  simp only [exMid, List.mem_cons, Prod.mk.injEq, Op.change.injEq, List.not_mem_nil, or_false] at h
  rcases h with ⟨rfl, -⟩ | ⟨rfl, -⟩
  · exact ⟨_, rfl, by simp [Valid, Exists1, slots, exTy, exSkip, out1, List.range, List.range.loop]⟩
  · exact ⟨_, rfl, by simp [Valid, Exists1, slots, exTy, exSkip, out1, List.range, List.range.loop]⟩

def exStrings : List (List Nat) :=
  [[], bytes 4 exEnc exSkip exTy [.field 1], bytes 4 exEnc exSkip exTy [.field 2],
    bytes 4 exEnc exSkip exTy exQ]

theorem exInvolved {b : List Nat} (h : Involved 4 exEnc exSkip exTy exSeg exQ exMid b) : b ∈ exStrings := by
  obtain ⟨x, y, hx, hy, rfl⟩ := h
  have hy : y = exQ ∨ y = [.field 1] ∨ y = [.field 2] := by
    rcases hy with hy | ⟨o, hy⟩
    · exact .inl hy
    · simp only [exMid, List.mem_cons, Prod.mk.injEq, Op.change.injEq, List.not_mem_nil, or_false] at hy
      rcases hy with ⟨h, -⟩ | ⟨h, -⟩
      · exact .inr (.inl (map_inj exSeg_inj h))
      · exact .inr (.inr (map_inj exSeg_inj h))
  rcases hy with rfl | rfl | rfl
  · simp only [exQ, List.prefix_cons_iff, List.prefix_nil] at hx
    rcases hx with rfl | ⟨_, rfl, rfl | ⟨_, rfl, rfl⟩⟩ <;> simp [exStrings, exQ, bytes]
  · simp only [List.prefix_cons_iff, List.prefix_nil] at hx
    rcases hx with rfl | ⟨_, rfl, rfl⟩ <;> simp [exStrings, bytes]
  · simp only [List.prefix_cons_iff, List.prefix_nil] at hx
    rcases hx with rfl | ⟨_, rfl, rfl⟩ <;> simp [exStrings, bytes]

theorem exNoCollision : NoCollision exDigest (Involved 4 exEnc exSkip exTy exSeg exQ exMid) := by
  constructor
  · intro a b ha hb
    have h : ∀ a ∈ exStrings, ∀ b ∈ exStrings,
        (exDigest a &&& ~~~(0xFF#64)) = (exDigest b &&& ~~~(0xFF#64)) → a = b := by decide +kernel
    exact h a (exInvolved ha) b (exInvolved hb)
  · intro a b d ha hb e
    have h : ∀ a ∈ exStrings, ∀ b ∈ exStrings,
        (exDigest a &&& ~~~(0xFF#64)) ≠ (bubblingFrom (exDigest b) &&& ~~~(0xFF#64)) := by decide +kernel
    apply h a (exInvolved ha) b (exInvolved hb)
    rw [← e, regularFrom_upper]

example : ∃ s s' : Sys, Watch exHash (.listen (exQ.map exSeg)) 0 (some 7) exMid s ∧
    step exHash s (.poll 0 none) = some (s', .polled true) ∧ Valid 4 exSkip exTy exQ := by
  obtain ⟨s, h⟩ : ∃ s, Run exHash init ([(.listen (exQ.map exSeg), .unit),
      (.poll 0 (some 7), .polled false)] ++ exMid ++ [(.poll 0 none, .polled true)]) s :=
    run_of_outs (ops := [.listen (exQ.map exSeg), .poll 0 (some 7), .change ([.field 1].map exSeg),
      .change ([.field 2].map exSeg), .poll 0 none]) (by rfl)
  rcases h with _ | ⟨h1, h⟩
  rcases h with _ | ⟨h2, h⟩
  rcases h with _ | ⟨h3, h⟩
  rcases h with _ | ⟨h4, h⟩
  rcases h with _ | ⟨h5, h⟩
  cases h
  refine ⟨_, _, ⟨[], [], _, _, _, _, _, _, .nil _, rfl, h1, .nil _, h2, .cons h3 (.cons h4 (.nil _)), ?_⟩, h5, ?_⟩
  · simp [exMid, Op.touches]
  · simp [Valid, Exists1, slots, exQ, exTy, exSkip, out1, List.range, List.range.loop]

/-- A case for `unit_key_false_ready`: a map with one key that writes nothing. -/
def exHashUnit (x : Path) : BitVec 64 :=
  exDigest (bytes 4 (fun _ => []) exSkip (.map .leaf) (x.map exUnseg))

example : DigestOf 4 (fun _ => []) exSkip (.map .leaf) exDigest exSeg exHashUnit ∧
    Valid 4 exSkip (.map .leaf) ([] ++ [.key 0]) ∧
    ∃ s s' : Sys, Watch exHashUnit (.listenBubbling (([] ++ [Layer.key 0]).map exSeg)) 0 (some 7)
      [(.change (([] : List Layer).map exSeg), .woken [some 7])] s ∧
    step exHashUnit s (.poll 0 none) = some (s', .polled true) := by
  refine ⟨?_, by simp [Valid, Exists1, out1], ?_⟩
  · intro p _
    have : (p.map exSeg).map exUnseg = p := by
      rw [List.map_map, show exUnseg ∘ exSeg = id from funext exUnseg_exSeg, List.map_id]
    rw [exHashUnit, this]
  · obtain ⟨s, h⟩ : ∃ s, Run exHashUnit init [(.listenBubbling (([] ++ [Layer.key 0]).map exSeg), .unit),
        (.poll 0 (some 7), .polled false), (.change (([] : List Layer).map exSeg), .woken [some 7]),
        (.poll 0 none, .polled true)] s :=
      run_of_outs (ops := [.listenBubbling (([] ++ [Layer.key 0]).map exSeg), .poll 0 (some 7),
        .change (([] : List Layer).map exSeg), .poll 0 none]) (by rfl)
    rcases h with _ | ⟨h1, h⟩
    rcases h with _ | ⟨h2, h⟩
    rcases h with _ | ⟨h3, h⟩
    rcases h with _ | ⟨h4, h⟩
    cases h
    exact ⟨_, _, ⟨[], [], _, _, _, _, _, _, .nil _, rfl, h1, .nil _, h2, .cons h3 (.nil _),
      by simp [Op.touches]⟩, h4⟩

end Verif.XBow.Data
