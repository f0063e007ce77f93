/-!
# The class shortcuts

Model of `async_ui_web/src/shortcuts.rs:47-76` and `:78-108`: `add_class`, `add_classes`, `del_class`,
`del_classes`, `set_class`, `with_class`, `with_classes`. They call the `DOMTokenList` of the element's `class`
attribute, which is modelled after the DOM standard (section 7.1, "Interface DOMTokenList").

Simplification: strings are lists of characters (JavaScript strings made of a Rust `str` are well formed).
-/
namespace Verif.Classes

/-- ASCII whitespace of the DOM standard: tab, line feed, form feed, carriage return, space. -/
def isSpace (c : Char) : Bool := c == '\t' || c == '\n' || c == '\x0c' || c == '\r' || c == ' '

/-- The ordered set parser, first half: split on whitespace. `cur` is the token so far, reversed. -/
def splitAux : List Char → List Char → List (List Char)
  | cur, [] => if cur.isEmpty then [] else [cur.reverse]
  | cur, c :: s =>
    if isSpace c then (if cur.isEmpty then splitAux [] s else cur.reverse :: splitAux [] s)
    else splitAux (c :: cur) s

/-- Append to an ordered set. -/
def append (t : List Char) (ts : List (List Char)) : List (List Char) := if t ∈ ts then ts else ts ++ [t]

/-- The token set of an attribute value: the ordered set parser. -/
def tokens (attr : Option (List Char)) : List (List Char) :=
  (splitAux [] (attr.getD [])).foldl (fun ts t => append t ts) []

/-- The ordered set serializer. -/
def serialize : List (List Char) → List Char
  | [] => []
  | [t] => t
  | t :: ts => t ++ ' ' :: serialize ts

/-- The update steps. -/
def update (attr : Option (List Char)) (ts : List (List Char)) : Option (List Char) :=
  if attr = none ∧ ts = [] then none else some (serialize ts)

/-- An empty token is a `SyntaxError`, one with whitespace an `InvalidCharacterError`. -/
def validToken (t : List Char) : Bool := !t.isEmpty && !t.any isSpace

/-- The methods; the strings are those that the iterators yield. -/
inductive Call
  /-- also `with_class`, `shortcuts.rs:89-92` -/
  | addClass (c : List Char)
  /-- also `with_classes`, `shortcuts.rs:103-106` -/
  | addClasses (cs : List (List Char))
  | delClass (c : List Char)
  | delClasses (cs : List (List Char))
  | setClass (c : List Char) (included : Bool)

/-- `DOMTokenList.add`. `none`: an exception. -/
def domAdd (attr : Option (List Char)) (ts : List (List Char)) : Option (Option (List Char)) :=
  if ts.all validToken then some (update attr (ts.foldl (fun s t => append t s) (tokens attr))) else none

/-- `DOMTokenList.remove`. -/
def domRemove (attr : Option (List Char)) (ts : List (List Char)) : Option (Option (List Char)) :=
  if ts.all validToken then some (update attr ((tokens attr).filter fun t => !ts.contains t)) else none

/-- `DOMTokenList.toggle(token, force)`. -/
def domToggle (attr : Option (List Char)) (t : List Char) (force : Bool) : Option (Option (List Char)) :=
  if validToken t then
    if (tokens attr).contains t then
      if force then some attr else some (update attr ((tokens attr).filter (· != t)))
    else if force then some (update attr (append t (tokens attr))) else some attr
  else none

/-- One call: the attribute afterwards; `none`: the call panics (`unwrap_throw`), and the attribute stays as it
was. -/
def step (attr : Option (List Char)) : Call → Option (Option (List Char))
  -- `shortcuts.rs:53-55`
  | .addClass c => domAdd attr [c]
  -- `shortcuts.rs:56-60`
  | .addClasses cs => domAdd attr cs
  -- `shortcuts.rs:62-64`
  | .delClass c => domRemove attr [c]
  -- `shortcuts.rs:65-69`
  | .delClasses cs => domRemove attr cs
  -- `shortcuts.rs:71-75`
  | .setClass c included => domToggle attr c included

/-- A history in which every call that panics is caught; the flags say which calls did not panic. -/
def run (attr : Option (List Char)) : List Call → Option (List Char) × List Bool
  | [] => (attr, [])
  | c :: cs =>
    match step attr c with
    | none => let r := run attr cs; (r.1, false :: r.2)
    | some a => let r := run a cs; (r.1, true :: r.2)

end Verif.Classes
