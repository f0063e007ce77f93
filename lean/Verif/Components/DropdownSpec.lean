import Verif.Components.Dropdown
import Verif.Lists.DiffedSpec

/-!
# What a Dropdown should do (C39)
-/

namespace Verif.Dropdown

/-- The options last given and the option selected. -/
structure Want where
  opts : List (Key × Text) := []
  sel : Option Key := none
deriving DecidableEq, Repr

/-- The keys of the options. -/
def Want.keys (v : Want) : List Key := v.opts.map Prod.fst

/-- `set_value` and the user change the selection; an option that is no longer there is no longer
selected. -/
def Want.next (v : Want) : Op → Want
  | .setValue k => { v with sel := k.filter (· ∈ v.keys) }
  | .update opts => { opts := opts, sel := v.sel.filter (· ∈ opts.map Prod.fst) }
  | .choose i =>
      match v.keys[i]? with
      | some k => { v with sel := some k }
      | none => v

/-- What the dropdown should show and select after the `Op`s. -/
def want (ops : List Op) : Want := ops.foldl Want.next {}

/-- What the code remembers in addition: the last value successfully set by `set_value`, or
`value()` at the last `update_options`. -/
structure View extends Want where
  memory : Option Key := none
deriving DecidableEq, Repr

/-- What the code makes of the `Op`s: `update_options` selects the remembered value if nothing else is
selected. -/
def View.next (v : View) : Op → View
  | .setValue none => { v with sel := none }
  | .setValue (some k) =>
      if k ∈ v.keys then { v with sel := some k, memory := some k } else { v with sel := none }
  | .update opts =>
      { opts := opts
        sel := (v.sel.or v.memory).filter (· ∈ opts.map Prod.fst)
        memory := v.sel.or v.memory }
  | .choose i =>
      match v.keys[i]? with
      | some k => { v with sel := some k }
      | none => v

/-- The same after several. -/
def view (ops : List Op) : View := ops.foldl View.next {}

/-- The options given in one update are distinct. -/
def Distinct : List Op → Prop
  | [] => True
  | .update opts :: ops => (opts.map Prod.fst).Nodup ∧ Distinct ops
  | _ :: ops => Distinct ops

/-- Nothing that is selected ever stops being selected without something else being selected
instead: neither `set_value(None)` nor an update without the selected option. -/
def Kept : Want → List Op → Prop
  | _, [] => True
  | v, op :: ops => (v.sel ≠ none → (v.next op).sel ≠ none) ∧ Kept (v.next op) ops

/-- The options given are distinct and their texts are not empty. -/
def Fine : List Op → Prop
  | [] => True
  | .update opts :: ops => (opts.map Prod.fst).Nodup ∧ (∀ o ∈ opts, blank o.2 = false) ∧ Fine ops
  | _ :: ops => Fine ops

/-- Every update is smooth (see `Verif.Lists.Smooth`) after the one before. -/
def SmoothRun : List Key → List Op → Prop
  | _, [] => True
  | prev, .update opts :: ops =>
      Verif.Lists.Smooth prev (opts.map Prod.fst) ∧ SmoothRun (opts.map Prod.fst) ops
  | prev, _ :: ops => SmoothRun prev ops

end Verif.Dropdown
