/-!
# The wrappers of elements, events and input types: the tables in the code

`async_ui_web_html/src/{common_components,common_events,input_types}.rs`. The macros there generate one struct or
method for each row; what they generate is the same for every row, so the rows are the model.
-/
namespace Verif.Html

/-- A row of `component_impl!` (`common_components.rs`, 10-86): the struct `name`; `new` creates an element with the tag `tag`
and takes it for a `web_sys::iface` without a check (`create_element`, 175-179); `render` takes a future for the
children (`childed`, 52-67) or has none (`childless`, 68-85). -/
structure Component where
  name : String
  tag : String
  iface : String
  childed : Bool
deriving DecidableEq

/-- A row of `make_event_impl!` (`common_events.rs`, 4-17): the method `fn` of all that is a `web_sys::on`; its stream listens for
the event `event` and takes what it receives for a `web_sys::iface` without a check (`event_handling.rs`, 109). -/
structure EventMethod where
  event : String
  fn : String
  iface : String
  on : String
deriving DecidableEq

/-- A row of `make_input_types!` (`input_types.rs`, 9-23): the function `fn` creates an input and sets its type to `type`. -/
structure InputFn where
  fn : String
  type : String
deriving DecidableEq

/-- `common_components.rs`, 91-154. -/
def components : List Component :=
  [⟨"Anchor", "a", "HtmlAnchorElement", true⟩, ⟨"Area", "area", "HtmlAreaElement", false⟩,
    ⟨"Audio", "audio", "HtmlAudioElement", true⟩, ⟨"Bold", "b", "HtmlBrElement", true⟩,
    ⟨"Br", "br", "HtmlBrElement", false⟩, ⟨"Base", "base", "HtmlBaseElement", false⟩,
    ⟨"Button", "button", "HtmlButtonElement", true⟩, ⟨"Canvas", "canvas", "HtmlCanvasElement", true⟩,
    ⟨"Dl", "dl", "HtmlDListElement", true⟩, ⟨"Data", "data", "HtmlDataElement", true⟩,
    ⟨"DataList", "datalist", "HtmlDataListElement", true⟩, ⟨"Dialog", "dialog", "HtmlDialogElement", true⟩,
    ⟨"Div", "div", "HtmlDivElement", true⟩, ⟨"Embed", "embed", "HtmlEmbedElement", false⟩,
    ⟨"FieldSet", "fieldset", "HtmlFieldSetElement", true⟩, ⟨"Form", "form", "HtmlFormElement", true⟩,
    ⟨"FrameSet", "frameset", "HtmlFrameSetElement", true⟩, ⟨"Hr", "hr", "HtmlHrElement", false⟩,
    ⟨"H1", "h1", "HtmlHeadingElement", true⟩, ⟨"H2", "h2", "HtmlHeadingElement", true⟩,
    ⟨"H3", "h3", "HtmlHeadingElement", true⟩, ⟨"H4", "h4", "HtmlHeadingElement", true⟩,
    ⟨"H5", "h5", "HtmlHeadingElement", true⟩, ⟨"H6", "h6", "HtmlHeadingElement", true⟩,
    ⟨"Italic", "i", "HtmlImageElement", true⟩, ⟨"IFrame", "iframe", "HtmlIFrameElement", true⟩,
    ⟨"Img", "img", "HtmlImageElement", true⟩, ⟨"Input", "input", "HtmlInputElement", false⟩,
    ⟨"Li", "li", "HtmlLiElement", true⟩, ⟨"Label", "label", "HtmlLabelElement", true⟩,
    ⟨"Legend", "legend", "HtmlLegendElement", true⟩, ⟨"Link", "link", "HtmlLinkElement", false⟩,
    ⟨"Map", "map", "HtmlMapElement", true⟩, ⟨"Meta", "meta", "HtmlMetaElement", false⟩,
    ⟨"Meter", "meter", "HtmlMeterElement", true⟩, ⟨"Ol", "ol", "HtmlOListElement", true⟩,
    ⟨"Object", "object", "HtmlObjectElement", true⟩, ⟨"OptGroup", "optgroup", "HtmlOptGroupElement", true⟩,
    ⟨"Option", "option", "HtmlOptionElement", true⟩, ⟨"Output", "output", "HtmlOutputElement", true⟩,
    ⟨"Paragraph", "p", "HtmlParagraphElement", true⟩, ⟨"Picture", "picture", "HtmlPictureElement", true⟩,
    ⟨"Pre", "pre", "HtmlPreElement", true⟩, ⟨"Progress", "progress", "HtmlProgressElement", true⟩,
    ⟨"Quote", "q", "HtmlQuoteElement", true⟩, ⟨"Select", "select", "HtmlSelectElement", true⟩,
    ⟨"Source", "source", "HtmlSourceElement", false⟩, ⟨"Span", "span", "HtmlSpanElement", true⟩,
    ⟨"Style", "style", "HtmlStyleElement", true⟩, ⟨"Th", "th", "HtmlTableCellElement", true⟩,
    ⟨"Td", "td", "HtmlTableCellElement", true⟩, ⟨"Col", "col", "HtmlTableColElement", true⟩,
    ⟨"ColGroup", "colgroup", "HtmlTableColElement", true⟩, ⟨"Table", "table", "HtmlTableElement", true⟩,
    ⟨"Tr", "tr", "HtmlTableRowElement", true⟩, ⟨"THead", "thead", "HtmlTableSectionElement", true⟩,
    ⟨"TFoot", "tfoot", "HtmlTableSectionElement", true⟩, ⟨"TBody", "tbody", "HtmlTableSectionElement", true⟩,
    ⟨"Template", "template", "HtmlTemplateElement", true⟩, ⟨"TextArea", "textarea", "HtmlTextAreaElement", true⟩,
    ⟨"Time", "time", "HtmlTimeElement", true⟩, ⟨"Track", "track", "HtmlTrackElement", false⟩,
    ⟨"Ul", "ul", "HtmlUListElement", true⟩, ⟨"Video", "video", "HtmlVideoElement", true⟩]

/-- `common_events.rs`, 24-87. -/
def eventMethods : List EventMethod :=
  [⟨"cancel", "until_cancel", "Event", "Element"⟩, ⟨"error", "until_error", "Event", "Element"⟩,
    ⟨"scroll", "until_scroll", "Event", "Element"⟩,
    ⟨"securitypolicyviolation", "until_securitypolicyviolation", "Event", "Element"⟩,
    ⟨"select", "until_select", "Event", "Element"⟩, ⟨"wheel", "until_wheel", "WheelEvent", "Element"⟩,
    ⟨"compositionend", "until_compositionend", "CompositionEvent", "Element"⟩,
    ⟨"compositionstart", "until_compositionstart", "CompositionEvent", "Element"⟩,
    ⟨"compositionupdate", "until_compositionupdate", "CompositionEvent", "Element"⟩,
    ⟨"blur", "until_blur", "UiEvent", "Element"⟩, ⟨"focus", "until_focus", "UiEvent", "Element"⟩,
    ⟨"focusin", "until_focusin", "UiEvent", "Element"⟩, ⟨"focusout", "until_focusout", "UiEvent", "Element"⟩,
    ⟨"fullscreenchange", "until_fullscreenchange", "Event", "Element"⟩,
    ⟨"fullscreenerror", "until_fullscreenerror", "Event", "Element"⟩,
    ⟨"keydown", "until_keydown", "KeyboardEvent", "Element"⟩, ⟨"keyup", "until_keyup", "KeyboardEvent", "Element"⟩,
    ⟨"auxclick", "until_auxclick", "MouseEvent", "Element"⟩, ⟨"click", "until_click", "MouseEvent", "Element"⟩,
    ⟨"contextmenu", "until_contextmenu", "MouseEvent", "Element"⟩,
    ⟨"dblclick", "until_dblclick", "MouseEvent", "Element"⟩,
    ⟨"mousedown", "until_mousedown", "MouseEvent", "Element"⟩,
    ⟨"mouseenter", "until_mouseenter", "MouseEvent", "Element"⟩,
    ⟨"mouseleave", "until_mouseleave", "MouseEvent", "Element"⟩,
    ⟨"mousemove", "until_mousemove", "MouseEvent", "Element"⟩,
    ⟨"mouseout", "until_mouseout", "MouseEvent", "Element"⟩,
    ⟨"mouseover", "until_mouseover", "MouseEvent", "Element"⟩, ⟨"mouseup", "until_mouseup", "MouseEvent", "Element"⟩,
    ⟨"touchcancel", "until_touchcancel", "TouchEvent", "Element"⟩,
    ⟨"touchend", "until_touchend", "TouchEvent", "Element"⟩,
    ⟨"touchmove", "until_touchmove", "TouchEvent", "Element"⟩,
    ⟨"touchstart", "until_touchstart", "TouchEvent", "Element"⟩, ⟨"input", "until_input", "Event", "HtmlElement"⟩,
    ⟨"change", "until_change", "Event", "HtmlElement"⟩, ⟨"drag", "until_drag", "DragEvent", "HtmlElement"⟩,
    ⟨"dragend", "until_dragend", "DragEvent", "HtmlElement"⟩,
    ⟨"dragenter", "until_dragenter", "DragEvent", "HtmlElement"⟩,
    ⟨"dragleave", "until_dragleave", "DragEvent", "HtmlElement"⟩,
    ⟨"dragover", "until_dragover", "DragEvent", "HtmlElement"⟩,
    ⟨"dragstart", "until_dragstart", "DragEvent", "HtmlElement"⟩, ⟨"drop", "until_drop", "DragEvent", "HtmlElement"⟩,
    ⟨"load", "until_load", "Event", "HtmlElement"⟩]

/-- `input_types.rs`, 25-46. -/
def inputFns : List InputFn :=
  [⟨"new_button", "button"⟩, ⟨"new_checkbox", "checkbox"⟩, ⟨"new_color", "color"⟩, ⟨"new_date", "date"⟩,
    ⟨"new_datetime", "datetime"⟩, ⟨"new_email", "email"⟩, ⟨"new_file", "file"⟩, ⟨"new_hidden", "hidden"⟩,
    ⟨"new_image", "image"⟩, ⟨"new_month", "month"⟩, ⟨"new_number", "number"⟩, ⟨"new_password", "password"⟩,
    ⟨"new_radio", "radio"⟩, ⟨"new_range", "range"⟩, ⟨"new_reset", "reset"⟩, ⟨"new_search", "search"⟩,
    ⟨"new_submit", "submit"⟩, ⟨"new_tel", "tel"⟩, ⟨"new_text", "text"⟩, ⟨"new_time", "time"⟩, ⟨"new_url", "url"⟩,
    ⟨"new_week", "week"⟩]

/-- An element of a page: the tag it was created with, its attribute `type` and its child nodes. -/
structure Elem where
  tag : String
  type : Option String
  children : List Nat

/-- `$ty::new` (26-30). -/
def Component.new (c : Component) : Elem := ⟨c.tag, none, []⟩

/-- `Input::$fn_name` (`input_types.rs`, 2-6 and 18-20). -/
def InputFn.new (f : InputFn) : Elem := ⟨"input", some f.type, []⟩

end Verif.Html
