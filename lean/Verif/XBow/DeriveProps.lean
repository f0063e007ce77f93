import Verif.XBow.DeriveSpec
import Verif.XBow.Bytes
/-!
# `#[derive(Trackable)]`: one accessor for every tracked field
-/
namespace Verif.XBow.Derive
open Verif.XBow.Data

/-! ## Attributes -/

theorem fromAttributes_eq (as : List Attr) (dflt : Mode) :
    fromAttributes as dflt = match firstTrack as with | some a => reads a | none => some dflt := by
  induction as with
  | nil => rfl
  | cons a as ih =>
    cases a with
    | other => simpa [fromAttributes, firstTrack] using ih
    | track x =>
      cases x with
      | none => rfl
      | some x =>
        simp only [fromAttributes, firstTrack, List.findSome?_cons, reads]
        by_cases h1 : x = "shallow".toList
        · subst h1; decide
        · by_cases h2 : x = "deep".toList
          · subst h2; decide
          · by_cases h3 : x = "skip".toList
            · subst h3; decide
            · simp only [h1, h2, h3, if_false]

theorem mode_eq {it : Item} {dflt : Mode} (h : fromAttributes it.attrs .shallow = some dflt) (f : Field) :
    fromAttributes f.attrs dflt = modeOf it f := by
  rw [fromAttributes_eq] at h ⊢
  unfold modeOf
  cases h1 : firstTrack f.attrs with
  | some a => simp only
  | none =>
    cases h2 : firstTrack it.attrs with
    | some a => rw [h2] at h; simp only at h ⊢; exact h.symm
    | none => rw [h2] at h; simp only at h ⊢; exact h.symm

/-! ## The fields that are collected -/

/-- What is collected for one field. -/
def pick (mk : Field → Nat → Bool → ToGen) (dflt : Mode) (p : Field × Nat) : Option ToGen :=
  match fromAttributes p.1.attrs dflt with
  | some .deep => some (mk p.1 p.2 true)
  | some .shallow => some (mk p.1 p.2 false)
  | _ => none

theorem collect_some {mk : Field → Nat → Bool → ToGen} {dflt : Mode} {fs : List Field} {i : Nat} {gs : List ToGen}
    (h : collect mk dflt i fs = some gs) :
    gs = (fs.zipIdx i).filterMap (pick mk dflt) ∧ ∀ f ∈ fs, fromAttributes f.attrs dflt ≠ none := by
  induction fs generalizing i gs with
  | nil => simp only [collect, Option.some.injEq] at h; subst h; simp
  | cons f fs ih =>
    cases hm : fromAttributes f.attrs dflt with
    | none => simp [collect, hm] at h
    | some m =>
      cases m <;> simp only [collect, hm, Option.map_eq_some_iff] at h
      · obtain ⟨r, hr, rfl⟩ := h
        obtain ⟨h1, h2⟩ := ih hr
        refine ⟨by simp [List.zipIdx_cons, pick, hm, ← h1], ?_⟩
        intro f' hf'
        rcases List.mem_cons.1 hf' with rfl | hf'
        · simp [hm]
        · exact h2 _ hf'
      · obtain ⟨r, hr, rfl⟩ := h
        obtain ⟨h1, h2⟩ := ih hr
        refine ⟨by simp [List.zipIdx_cons, pick, hm, ← h1], ?_⟩
        intro f' hf'
        rcases List.mem_cons.1 hf' with rfl | hf'
        · simp [hm]
        · exact h2 _ hf'
      · obtain ⟨h1, h2⟩ := ih h
        refine ⟨by simp [List.zipIdx_cons, pick, hm, ← h1], ?_⟩
        intro f' hf'
        rcases List.mem_cons.1 hf' with rfl | hf'
        · simp [hm]
        · exact h2 _ hf'

theorem collect_none {mk : Field → Nat → Bool → ToGen} {dflt : Mode} {fs : List Field} {i : Nat} :
    collect mk dflt i fs = none ↔ ∃ f ∈ fs, fromAttributes f.attrs dflt = none := by
  induction fs generalizing i with
  | nil => simp [collect]
  | cons f fs ih =>
    cases hm : fromAttributes f.attrs dflt with
    | none => simp [collect, hm]
    | some m => cases m <;> simp [collect, hm, ih]

theorem collectVariants_some {dflt : Mode} {vs : List Variant} {gs : List ToGen} (n : Nat)
    (h : collectVariants dflt vs = some gs) :
    gs = (vs.zipIdx n).flatMap (fun q => q.1.fields.zipIdx.filterMap (pick (.enum q.1) dflt)) ∧
      ∀ v ∈ vs, ∀ f ∈ v.fields, fromAttributes f.attrs dflt ≠ none := by
  induction vs generalizing gs n with
  | nil => simp only [collectVariants, Option.some.injEq] at h; subst h; simp
  | cons v vs ih =>
    cases hc : collect (.enum v) dflt 0 v.fields with
    | none => simp [collectVariants, hc] at h
    | some g =>
      simp only [collectVariants, hc, Option.map_eq_some_iff] at h
      obtain ⟨r, hr, rfl⟩ := h
      obtain ⟨h1, h2⟩ := ih (n + 1) hr
      obtain ⟨h3, h4⟩ := collect_some hc
      refine ⟨by rw [List.zipIdx_cons, List.flatMap_cons, ← h1, ← h3], ?_⟩
      intro v' hv'
      rcases List.mem_cons.1 hv' with rfl | hv'
      · exact h4
      · exact h2 _ hv'

theorem collectVariants_none {dflt : Mode} {vs : List Variant} :
    collectVariants dflt vs = none ↔ ∃ v ∈ vs, ∃ f ∈ v.fields, fromAttributes f.attrs dflt = none := by
  induction vs with
  | nil => simp [collectVariants]
  | cons v vs ih =>
    cases hc : collect (.enum v) dflt 0 v.fields with
    | none => simp [collectVariants, hc, collect_none.1 hc]
    | some g =>
      have : ¬ ∃ f ∈ v.fields, fromAttributes f.attrs dflt = none := by rw [← collect_none (mk := .enum v) (i := 0), hc]; simp
      simp only [collectVariants, hc, Option.map_eq_none_iff, ih, List.mem_cons, exists_eq_or_imp, this, false_or]

/-! ## Names are resolved to the fields they come from -/

theorem resolve_ok {fs : List Field} (h : FieldsOk fs) {f : Field} {i : Nat} (hi : fs[i]? = some f) :
    (getFieldMember f.name i).resolve fs = some i := by
  obtain ⟨hlt, hget⟩ := List.getElem?_eq_some_iff.1 hi
  cases hn : f.name with
  | none => simp [getFieldMember, Member.resolve, hlt]
  | some n =>
    simp only [getFieldMember, Member.resolve]
    rcases h with h | ⟨-, h⟩
    · have := h f (List.mem_of_getElem? hi); rw [hn] at this; cases this
    · rw [List.findIdx?_eq_some_iff_getElem]
      refine ⟨hlt, by simp [hget, hn], ?_⟩
      intro j hj
      simp only [decide_eq_true_eq]
      intro hjn
      have h1 : (fs.map Field.name)[j]? = some (some n) := by
        rw [List.getElem?_map, List.getElem?_eq_getElem (by omega)]; simp [hjn]
      have h2 : (fs.map Field.name)[i]? = some (some n) := by simp [List.getElem?_map, hi, hn]
      have := (List.getElem?_inj (i := j) (j := i) (by simp; omega) h).1 (h1.trans h2.symm)
      omega

theorem variant_ok {vs : List Variant} (h : (vs.map Variant.name).Nodup) {v : Variant} {t : Nat} (ht : vs[t]? = some v) :
    (vs.findIdx? fun w => w.name = v.name) = some t := by
  obtain ⟨hlt, hget⟩ := List.getElem?_eq_some_iff.1 ht
  rw [List.findIdx?_eq_some_iff_getElem]
  refine ⟨hlt, by simp [hget], ?_⟩
  intro j hj
  simp only [decide_eq_true_eq]
  intro hjn
  have h1 : (vs.map Variant.name)[j]? = some v.name := by
    rw [List.getElem?_map, List.getElem?_eq_getElem (by omega)]; simp [hjn]
  have h2 : (vs.map Variant.name)[t]? = some v.name := by simp [List.getElem?_map, ht]
  have := (List.getElem?_inj (i := j) (j := t) (by simp; omega) h).1 (h1.trans h2.symm)
  omega

/-! ## The accessors -/

/-- What the accessor of the `k`-th tracked field should be. -/
def Place.expected (it : Item) (p : Place) (k : Nat) : Accessor where
  name := p.accessor
  mapper := "Mapper_".toList ++ it.remote ++ '_' :: p.accessor
  number := k
  layer := some p.layer
  deep := modeOf it p.field = some .deep
  guaranteed := p.variant.isNone
  isPub := p.variant.isSome || p.field.isPub

theorem accessorsFrom_eq (it : Item) (gs : List ToGen) (k : Nat) :
    accessorsFrom it k gs = (gs.zipIdx k).map fun q => accessorOf it q.2 q.1 := by
  induction gs generalizing k with
  | nil => rfl
  | cons g gs ih => simp [accessorsFrom, List.zipIdx_cons, ih]

theorem struct_accessor {it : Item} {fs : List Field} (hb : it.body = .struct fs) (hl : FieldsOk fs) {f : Field} {i : Nat}
    (hi : fs[i]? = some f) (k : Nat) (d : Bool) (hd : d = decide (modeOf it f = some .deep)) :
    accessorOf it k (.struct f i d) = Place.expected it ⟨0, none, i, f⟩ k := by
  have hr := resolve_ok hl hi
  have hn : ∀ d : Bool, (ToGen.struct f i d).toName = (⟨0, none, i, f⟩ : Place).accessor := by
    intro d
    cases h : f.name <;> simp [ToGen.toName, Place.accessor, Place.label, h]
  have hs : it.isStruct = true := by simp [Item.isStruct, hb]
  simp only [accessorOf, Place.expected, hn, hs, ToGen.access, hb, hr, Option.map_some, Place.layer, ToGen.isDeep, hd,
    ToGen.field, Option.isNone_none, Option.isSome_none, Bool.false_or, if_true]

theorem enum_accessor {it : Item} {vs : List Variant} (hb : it.body = .enum vs) (hn : (vs.map Variant.name).Nodup)
    {v : Variant} {t : Nat} (ht : vs[t]? = some v) (hl : FieldsOk v.fields) {f : Field} {i : Nat}
    (hi : v.fields[i]? = some f) (k : Nat) (d : Bool) (hd : d = decide (modeOf it f = some .deep)) :
    accessorOf it k (.enum v f i d) = Place.expected it ⟨t, some v.name, i, f⟩ k := by
  have hr := resolve_ok hl hi
  have hv := variant_ok hn ht
  have hname : ∀ d : Bool, (ToGen.enum v f i d).toName = (⟨t, some v.name, i, f⟩ : Place).accessor := by
    intro d
    cases h : f.name <;> simp [ToGen.toName, Place.accessor, Place.label, h]
  have hs : it.isStruct = false := by simp [Item.isStruct, hb]
  have ha : ∀ d : Bool, (ToGen.enum v f i d).access it.body = some (.variant t i) := by
    intro d
    cases h : f.name with
    | none =>
      simp only [getFieldMember, h] at hr
      simp only [ToGen.access, hb, hv, Option.bind_some, h, ht, Option.map_some, Option.getD_some, List.length_replicate, hr]
    | some n =>
      simp only [getFieldMember, h] at hr
      simp only [ToGen.access, hb, hv, Option.bind_some, h, ht, Option.map_some, Option.getD_some, hr]
  simp only [accessorOf, Place.expected, hname, hs, ha, Place.layer, ToGen.isDeep, hd, ToGen.field, Option.isNone_some,
    Option.isSome_some, Bool.true_or, Bool.false_eq_true, if_false]

theorem filterMap_zip_aux {α β γ : Type} (l : List α) (pickA : α → Option β) (keep : α → Bool) (F : β → Nat → γ)
    (G : α → Nat → γ) (h1 : ∀ a ∈ l, keep a = false → pickA a = none)
    (h2 : ∀ a ∈ l, keep a = true → ∃ b, pickA a = some b ∧ ∀ k, F b k = G a k) (k : Nat) :
    ((l.filterMap pickA).zipIdx k).map (fun q => F q.1 q.2) = ((l.filter keep).zipIdx k).map (fun q => G q.1 q.2) := by
  induction l generalizing k with
  | nil => rfl
  | cons a l ih =>
    have ih' := ih (fun b hb => h1 b (List.mem_cons_of_mem _ hb)) (fun b hb => h2 b (List.mem_cons_of_mem _ hb))
    cases hk : keep a with
    | false =>
      rw [List.filterMap_cons_none (h1 a List.mem_cons_self hk), List.filter_cons_of_neg (by simp [hk])]
      exact ih' k
    | true =>
      obtain ⟨b, hb, hF⟩ := h2 a List.mem_cons_self hk
      rw [List.filterMap_cons_some hb, List.filter_cons_of_pos hk, List.zipIdx_cons, List.zipIdx_cons, List.map_cons,
        List.map_cons, ih', hF]

/-- The whole output: an accessor for every tracked field, in the order of the declaration. -/
theorem generate_some {it : Item} {o : Output} (hl : Legal it) (h : generate it = some o) :
    o.builder = it.name ++ "PathBuilder".toList ∧
      o.accessors = (tracked it).zipIdx.map fun q => Place.expected it q.1 q.2 := by
  unfold generate at h
  cases hf : filteredFields it with
  | none => simp [hf] at h
  | some gs =>
    simp only [hf, Option.some.injEq] at h
    subst h
    refine ⟨rfl, ?_⟩
    show accessorsFrom it 0 gs = _
    rw [accessorsFrom_eq]
    unfold filteredFields at hf
    cases hd : fromAttributes it.attrs .shallow with
    | none => simp [hd] at hf
    | some dflt =>
      simp only [hd] at hf
      cases hb : it.body with
      | union => simp [hb] at hf
      | struct fs =>
        simp only [hb] at hf
        obtain ⟨rfl, hok⟩ := collect_some hf
        simp only [tracked, declared, hb]
        rw [List.filter_map, List.zipIdx_map, List.map_map]
        unfold Legal at hl
        simp only [hb] at hl
        refine (filterMap_zip_aux _ _ _ (fun b k => accessorOf it k b)
          (fun (a : Field × Nat) k => Place.expected it ⟨0, none, a.2, a.1⟩ k) ?_ ?_ 0).trans (by rfl)
        · intro a _ hk
          simp only [Function.comp, decide_eq_false_iff_not, Decidable.not_not] at hk
          simp [pick, mode_eq hd, hk]
        · intro a ha hk
          simp only [Function.comp, decide_eq_true_eq] at hk
          have hget := List.mem_zipIdx_iff_getElem?.1 ha
          have hm := hok a.1 (List.mem_of_getElem? hget)
          rw [mode_eq hd] at hm
          cases hmm : modeOf it a.1 with
          | none => exact absurd hmm hm
          | some m =>
            cases m with
            | skip => exact absurd hmm hk
            | deep =>
              exact ⟨.struct a.1 a.2 true, by simp [pick, mode_eq hd, hmm], fun k => struct_accessor hb hl hget k _ (by simp [hmm])⟩
            | shallow =>
              exact ⟨.struct a.1 a.2 false, by simp [pick, mode_eq hd, hmm], fun k => struct_accessor hb hl hget k _ (by simp [hmm])⟩
      | enum vs =>
        simp only [hb] at hf
        obtain ⟨rfl, hok⟩ := collectVariants_some 0 hf
        unfold Legal at hl
        simp only [hb] at hl
        have e : (vs.zipIdx.flatMap fun q => q.1.fields.zipIdx.filterMap (pick (.enum q.1) dflt)) =
            (vs.zipIdx.flatMap fun q => q.1.fields.zipIdx.map fun p => (q, p)).filterMap
              (fun r => pick (.enum r.1.1) dflt r.2) := by
          rw [List.filterMap_flatMap]
          congr 1; funext q
          rw [List.filterMap_map]; rfl
        have e2 : declared it = (vs.zipIdx.flatMap fun q => q.1.fields.zipIdx.map fun p => (q, p)).map
            (fun r => (⟨r.1.2, some r.1.1.name, r.2.2, r.2.1⟩ : Place)) := by
          simp only [declared, hb, List.map_flatMap, List.map_map]; rfl
        rw [e]
        simp only [tracked, e2]
        rw [List.filter_map, List.zipIdx_map, List.map_map]
        refine (filterMap_zip_aux _ _ _ (fun b k => accessorOf it k b)
          (fun (a : (Variant × Nat) × (Field × Nat)) k => Place.expected it ⟨a.1.2, some a.1.1.name, a.2.2, a.2.1⟩ k) ?_ ?_ 0).trans (by rfl)
        · intro a _ hk
          simp only [Function.comp, decide_eq_false_iff_not, Decidable.not_not] at hk
          simp [pick, mode_eq hd, hk]
        · intro a ha hk
          simp only [Function.comp, decide_eq_true_eq] at hk
          obtain ⟨q, hq, ha⟩ := List.mem_flatMap.1 ha
          obtain ⟨p, hp, rfl⟩ := List.mem_map.1 ha
          have hqg := List.mem_zipIdx_iff_getElem?.1 hq
          have hpg := List.mem_zipIdx_iff_getElem?.1 hp
          have hm := hok q.1 (List.mem_of_getElem? hqg) p.1 (List.mem_of_getElem? hpg)
          rw [mode_eq hd] at hm
          have hlv := hl.2 q.1 (List.mem_of_getElem? hqg)
          simp only at hk ⊢
          cases hmm : modeOf it p.1 with
          | none => exact absurd hmm hm
          | some m =>
            cases m with
            | skip => exact absurd hmm hk
            | deep =>
              exact ⟨.enum q.1 p.1 p.2 true, by simp [pick, mode_eq hd, hmm],
                fun k => enum_accessor hb hl.1 hqg hlv hpg k _ (by simp [hmm])⟩
            | shallow =>
              exact ⟨.enum q.1 p.1 p.2 false, by simp [pick, mode_eq hd, hmm],
                fun k => enum_accessor hb hl.1 hqg hlv hpg k _ (by simp [hmm])⟩

end Verif.XBow.Derive
