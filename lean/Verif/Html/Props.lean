import Verif.Html.Spec
/-!
# C74: the wrappers of elements, events and input types are what their names and types say, with some exceptions
-/
namespace Verif.Html

/-- An interface and those that it inherits from, directly or not. -/
def supers : Nat → String → List String
  | 0, i => [i]
  | n + 1, i => i :: match parent i with
    | some j => supers n j
    | none => []

theorem is_of_mem {n : Nat} {i j : String} (h : j ∈ supers n i) : Is i j := by
  induction n generalizing i with
  | zero => simp only [supers, List.mem_singleton] at h; subst h; exact .refl _
  | succ n ih =>
    simp only [supers, List.mem_cons] at h
    rcases h with rfl | h
    · exact .refl _
    · split at h
      · next hp => exact .up hp (ih h)
      · simp at h

/-- Nothing is above the end of the chain. -/
theorem mem_of_is {i j : String} (h : Is i j) : ∀ n, (supers n i).length ≤ n → j ∈ supers n i := by
  induction h with
  | refl i => intro n _; cases n <;> simp [supers]
  | @up i j k hp _ ih =>
    intro n hn
    cases n with
    | zero => simp [supers] at hn
    | succ n =>
      simp only [supers, hp, List.length_cons, List.mem_cons] at hn ⊢
      exact .inr (ih n (by omega))

/-- **C74, elements.** Exactly the element wrappers other than `Bold` and `Italic` create an element that has the interface
of the wrapper: what such a wrapper can be asked to do, its element can do. -/
theorem element_typed_iff : ∀ c ∈ components,
    Is (interfaceOf c.new.tag) c.iface ↔ c.name ≠ "Bold" ∧ c.name ≠ "Italic" := by
  have h1 : ∀ c ∈ components, (supers 9 (interfaceOf c.new.tag)).length ≤ 9 ∧
      (c.iface ∈ supers 9 (interfaceOf c.new.tag) ↔ c.name ≠ "Bold" ∧ c.name ≠ "Italic") := by decide
  intro c hc
  obtain ⟨h2, h3⟩ := h1 c hc
  exact ⟨fun h => h3.1 (mem_of_is h 9 h2), fun h => is_of_mem (h3.2 h)⟩

/-- `Bold` takes its `<b>` for a line break and `Italic` its `<i>` for an image. -/
theorem bold_and_italic : ⟨"Bold", "b", "HtmlBrElement", true⟩ ∈ components ∧ ¬ Is (interfaceOf "b") "HtmlBrElement" ∧
    ⟨"Italic", "i", "HtmlImageElement", true⟩ ∈ components ∧ ¬ Is (interfaceOf "i") "HtmlImageElement" :=
  ⟨by decide, fun h => by have := (element_typed_iff ⟨"Bold", "b", "HtmlBrElement", true⟩ (by decide)).1 h; simp at this,
    by decide, fun h => by have := (element_typed_iff ⟨"Italic", "i", "HtmlImageElement", true⟩ (by decide)).1 h; simp at this⟩

/-- **C74, children.** Exactly the wrappers other than `Img` and `Col` take children if and only if their element can have
children. These two take children that are never shown. -/
theorem children_iff : ∀ c ∈ components,
    (c.childed = true ↔ c.new.tag ∉ voidTags) ↔ c.name ≠ "Img" ∧ c.name ≠ "Col" := by decide

/-- Whoever takes no children is right in doing so. -/
theorem childless_void : ∀ c ∈ components, c.childed = false → c.new.tag ∈ voidTags := by decide

/-- **C74, names.** Exactly five wrappers are not named after the tag; no two wrappers have the same name, and no two the
same tag. -/
theorem element_named : (∀ c ∈ components, lower c.name = c.new.tag.toList ↔
      c.name ∉ ["Anchor", "Bold", "Italic", "Paragraph", "Quote"]) ∧
    (components.map (·.name)).Nodup ∧ (components.map (·.tag)).Nodup := by decide

/-- **C74, events.** The methods are named after the events, have different names, and give out events of the right type. -/
theorem event_typed : (∀ m ∈ eventMethods, m.fn = "until_" ++ m.event ∧ Is (eventInterface m.event) m.iface) ∧
    (eventMethods.map (·.fn)).Nodup := by
  have h1 : (∀ m ∈ eventMethods, m.fn = "until_" ++ m.event ∧ m.iface ∈ supers 9 (eventInterface m.event)) ∧
    (eventMethods.map (·.fn)).Nodup := by decide
  exact ⟨fun m hm => ⟨(h1.1 m hm).1, is_of_mem (h1.1 m hm).2⟩, h1.2⟩

/-- Every element wrapper, right or not, has all the methods: its interface is an `HtmlElement`. -/
theorem element_has_methods : ∀ c ∈ components, ∀ m ∈ eventMethods, Is c.iface m.on := by
  have h1 : ∀ c ∈ components, "HtmlElement" ∈ supers 9 c.iface ∧ "Element" ∈ supers 9 c.iface := by decide
  have h2 : ∀ m ∈ eventMethods, m.on = "HtmlElement" ∨ m.on = "Element" := by decide
  intro c hc m hm
  rcases h2 m hm with h | h <;> rw [h]
  · exact is_of_mem (h1 c hc).1
  · exact is_of_mem (h1 c hc).2

/-- **C74, inputs.** The functions are named after the types. Exactly `new_datetime` does not create an input of that type
(it creates a text field), and for exactly one type, `datetime-local`, there is no function. -/
theorem input_typed : (∀ f ∈ inputFns, f.fn = "new_" ++ f.type ∧ (stateOf f.new = f.type ↔ f.fn ≠ "new_datetime")) ∧
    (∀ t ∈ inputTypes, (∃ f ∈ inputFns, stateOf f.new = t) ↔ t ≠ "datetime-local") := by decide

/-- `new_datetime` creates a text field. -/
theorem datetime_is_text : ⟨"new_datetime", "datetime"⟩ ∈ inputFns ∧ stateOf (InputFn.new ⟨"new_datetime", "datetime"⟩) = "text" := by
  decide

/-- The tables are not empty, and the wrappers of media elements have an interface two steps below `HtmlElement`. -/
example : ⟨"Audio", "audio", "HtmlAudioElement", true⟩ ∈ components ∧ Is "HtmlAudioElement" "HtmlElement" ∧
    ⟨"click", "until_click", "MouseEvent", "Element"⟩ ∈ eventMethods ∧ Is "PointerEvent" "MouseEvent" :=
  ⟨by decide, is_of_mem (n := 9) (by decide), by decide, is_of_mem (n := 9) (by decide)⟩

end Verif.Html
