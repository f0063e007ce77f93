import Verif.Html.Model
/-!
# C74: what the HTML and UI Events standards say

Interfaces have the names they have in `web_sys` (`HtmlBrElement` is `HTMLBRElement`). Only the tags, events and interfaces
that occur in the code are listed.
-/
namespace Verif.Html

/-- The interface of elements with this tag (HTML standard, index of elements). Elements without an interface of their own
are `HtmlElement`s. -/
def interfaceOf : String → String
  | "a" => "HtmlAnchorElement"
  | "area" => "HtmlAreaElement"
  | "audio" => "HtmlAudioElement"
  | "base" => "HtmlBaseElement"
  | "br" => "HtmlBrElement"
  | "button" => "HtmlButtonElement"
  | "canvas" => "HtmlCanvasElement"
  | "col" | "colgroup" => "HtmlTableColElement"
  | "data" => "HtmlDataElement"
  | "datalist" => "HtmlDataListElement"
  | "dialog" => "HtmlDialogElement"
  | "div" => "HtmlDivElement"
  | "dl" => "HtmlDListElement"
  | "embed" => "HtmlEmbedElement"
  | "fieldset" => "HtmlFieldSetElement"
  | "form" => "HtmlFormElement"
  | "frameset" => "HtmlFrameSetElement"
  | "h1" | "h2" | "h3" | "h4" | "h5" | "h6" => "HtmlHeadingElement"
  | "hr" => "HtmlHrElement"
  | "iframe" => "HtmlIFrameElement"
  | "img" => "HtmlImageElement"
  | "input" => "HtmlInputElement"
  | "label" => "HtmlLabelElement"
  | "legend" => "HtmlLegendElement"
  | "li" => "HtmlLiElement"
  | "link" => "HtmlLinkElement"
  | "map" => "HtmlMapElement"
  | "meta" => "HtmlMetaElement"
  | "meter" => "HtmlMeterElement"
  | "object" => "HtmlObjectElement"
  | "ol" => "HtmlOListElement"
  | "optgroup" => "HtmlOptGroupElement"
  | "option" => "HtmlOptionElement"
  | "output" => "HtmlOutputElement"
  | "p" => "HtmlParagraphElement"
  | "picture" => "HtmlPictureElement"
  | "pre" => "HtmlPreElement"
  | "progress" => "HtmlProgressElement"
  | "q" => "HtmlQuoteElement"
  | "select" => "HtmlSelectElement"
  | "source" => "HtmlSourceElement"
  | "span" => "HtmlSpanElement"
  | "style" => "HtmlStyleElement"
  | "table" => "HtmlTableElement"
  | "tbody" | "thead" | "tfoot" => "HtmlTableSectionElement"
  | "td" | "th" => "HtmlTableCellElement"
  | "template" => "HtmlTemplateElement"
  | "textarea" => "HtmlTextAreaElement"
  | "time" => "HtmlTimeElement"
  | "tr" => "HtmlTableRowElement"
  | "track" => "HtmlTrackElement"
  | "ul" => "HtmlUListElement"
  | "video" => "HtmlVideoElement"
  | _ => "HtmlElement"

/-- The interface that an interface inherits from. -/
def parent : String → Option String
  | "HtmlAudioElement" | "HtmlVideoElement" => some "HtmlMediaElement"
  | "HtmlElement" => some "Element"
  | "Element" => some "Node"
  | "Node" => some "EventTarget"
  | "EventTarget" | "Event" => none
  | "UiEvent" | "SecurityPolicyViolationEvent" => some "Event"
  | "MouseEvent" | "KeyboardEvent" | "TouchEvent" | "CompositionEvent" | "FocusEvent" | "InputEvent" => some "UiEvent"
  | "WheelEvent" | "DragEvent" | "PointerEvent" => some "MouseEvent"
  | _ => some "HtmlElement"

/-- An object with the interface `i` has everything that the interface `j` has. -/
inductive Is : String → String → Prop
  | refl (i) : Is i i
  | up {i j k} : parent i = some j → Is j k → Is i k

/-- Elements that cannot have children (HTML standard, "void elements"). -/
def voidTags : List String :=
  ["area", "base", "br", "col", "embed", "hr", "img", "input", "link", "meta", "source", "track", "wbr"]

/-- The values of the attribute `type` of inputs (HTML standard, "states of the type attribute"). -/
def inputTypes : List String :=
  ["hidden", "text", "search", "tel", "url", "email", "password", "date", "month", "week", "time", "datetime-local", "number",
    "range", "color", "checkbox", "radio", "file", "submit", "image", "reset", "button"]

/-- What an input is if the attribute is not one of them: "the missing value default and invalid value default are the
Text state". -/
def stateOf (e : Elem) : String :=
  match e.type with
  | some t => if t ∈ inputTypes then t else "text"
  | none => "text"

/-- The interface of these events (UI Events, Pointer Events, HTML, CSP, Fullscreen, Touch Events, Input Events). -/
def eventInterface : String → String
  | "auxclick" | "click" | "contextmenu" => "PointerEvent"
  | "dblclick" | "mousedown" | "mouseenter" | "mouseleave" | "mousemove" | "mouseout" | "mouseover" | "mouseup" => "MouseEvent"
  | "wheel" => "WheelEvent"
  | "keydown" | "keyup" => "KeyboardEvent"
  | "touchcancel" | "touchend" | "touchmove" | "touchstart" => "TouchEvent"
  | "compositionend" | "compositionstart" | "compositionupdate" => "CompositionEvent"
  | "blur" | "focus" | "focusin" | "focusout" => "FocusEvent"
  | "drag" | "dragend" | "dragenter" | "dragleave" | "dragover" | "dragstart" | "drop" => "DragEvent"
  | "input" => "InputEvent"
  | "securitypolicyviolation" => "SecurityPolicyViolationEvent"
  | _ => "Event"

/-- A name without capitals. -/
def lower (s : String) : List Char := s.toList.map Char.toLower

end Verif.Html
