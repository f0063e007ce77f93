/-!
# The `css!` macro

`async_ui_web_macros/src/css.rs`.  The macro finds the class selectors of a style sheet with the
library cssparser (0.31.0), appends a postfix to each and declares a constant for each.

A style sheet is given as the tokens that the CSS tokenizer makes of it, with matching brackets
already paired; the text of the sheet is the concatenation of the texts of the tokens.  The tokenizer
itself, which belongs to cssparser, is not modelled.  Positions are in bytes of UTF-8, as in the code.
-/

namespace Verif.Css

abbrev Text := List Char

/-- The number of bytes of a text. -/
def bytes (t : Text) : Nat := (t.map Char.utf8Size).sum

/-- Kinds of brackets. -/
inductive Kind where
  | paren | square | curly
deriving DecidableEq, Repr

def Kind.opening : Kind → Char
  | .paren => '('
  | .square => '['
  | .curly => '{'

/-- Tokens.  Identifiers have a text and, when escapes are resolved, a value.  A function or block has
the tokens inside; its closing bracket is missing if the sheet ends before. -/
inductive Tok where
  | ident (raw val : Text)
  | delim (c : Char)
  | space (raw : Text)
  | comment (raw : Text)
  | semicolon
  | atKeyword (name : Text)
  /-- `<!--` and `-->` -/
  | cd (raw : Text)
  /-- everything else: strings, numbers, colons, brackets that close nothing, ... -/
  | other (raw : Text)
  /-- `raw` includes the opening parenthesis -/
  | func (raw : Text) (inside : List Tok) (close : Text)
  | block (kind : Kind) (inside : List Tok) (close : Text)

mutual
/-- The text of a token. -/
def Tok.text : Tok → Text
  | .ident raw _ => raw
  | .delim c => [c]
  | .space raw => raw
  | .comment raw => raw
  | .semicolon => [';']
  | .atKeyword name => '@' :: name
  | .cd raw => raw
  | .other raw => raw
  | .func raw inside close => raw ++ texts inside ++ close
  | .block kind inside close => kind.opening :: (texts inside ++ close)

/-- The text of several tokens. -/
def texts : List Tok → Text
  | [] => []
  | t :: ts => t.text ++ texts ts
end

/-! ## Finding the classes -/

/-- `is_dot` (css.rs 119-122). -/
def isDot : Tok → Bool
  | .delim c => c == '.'
  | _ => false

mutual
/-- `parse_prelude` of a qualified rule (css.rs 109-141): positions and lengths of the identifiers
that follow a dot.  `start` is `position`, taken before the next token, and `pos` is where the next
token really starts: `next_including_whitespace` skips comments.  (After a block `position` is inside
the block, but it is not used then.) -/
def scan (start pos : Nat) (wasDot : Bool) : List Tok → List (Nat × Nat)
  | [] => []
  | .comment raw :: ts => scan start (pos + bytes raw) wasDot ts
  | t :: ts =>
    let next := pos + bytes t.text
    scanTok start pos wasDot t ++ scan next next (isDot t) ts

/-- What one token adds. -/
def scanTok (start pos : Nat) (wasDot : Bool) : Tok → List (Nat × Nat)
  | .ident _ val => if wasDot then [(start, bytes val)] else []
  | .func raw inside _ => scan (pos + bytes raw) (pos + bytes raw) false inside
  | _ => []
end

/-- The at-rules whose blocks are searched (css.rs 168-171). -/
def isGroup (name : Text) : Bool :=
  ["media".toList, "supports".toList, "container".toList, "layer".toList].contains name

/-- Where `RuleListParser` is in the sheet. -/
inductive Mode where
  /-- between rules -/
  | between
  /-- in the prelude of a qualified rule, up to `{` -/
  | prelude (start : Nat) (wasDot : Bool)
  /-- in the prelude of an at-rule, up to `;` or `{`; is its block to be searched? -/
  | at (group : Bool)
deriving DecidableEq, Repr

/-- The mode after a token that ends at `pos`. -/
def nextMode (top : Bool) (m : Mode) (pos : Nat) (t : Tok) : Mode :=
  match m, t with
  | .between, .space _ => .between
  | .between, .comment _ => .between
  | .between, .cd _ => if top then .between else .prelude pos false
  | .between, .atKeyword name => .at (isGroup name)
  | .at _, .semicolon => .between
  | .at _, .block .curly _ _ => .between
  | .at g, _ => .at g
  | .prelude start dot, .comment _ => .prelude start dot
  | _, .block .curly _ _ => .between
  | _, t => .prelude pos (isDot t)

mutual
/-- `RuleListParser` (cssparser) with the callbacks in css.rs 99-196; `top`: not inside of a block.
(`@charset` at the start is read by cssparser itself, with the same result.) -/
def walk (top : Bool) (m : Mode) (pos : Nat) : List Tok → List (Nat × Nat)
  | [] => []
  | t :: ts =>
    walkTok m pos t ++ walk top (nextMode top m (pos + bytes t.text) t) (pos + bytes t.text) ts

/-- What one token adds: in the prelude of a qualified rule as in `scan`; the block of a group
(`parse_block`, css.rs 182-196). -/
def walkTok (m : Mode) (pos : Nat) : Tok → List (Nat × Nat)
  | .block .curly inside _ =>
    match m with
    | .at true => walk false .between (pos + 1) inside
    | _ => []
  | .func raw inside _ =>
    match m with
    | .at _ => []
    | _ => scan (pos + bytes raw) (pos + bytes raw) false inside
  | .ident _ val =>
    match m with
    | .prelude start true => [(start, bytes val)]
    | _ => []
  | _ => []
end

/-- `find_classes` (css.rs 86-97). -/
def findClasses (sheet : List Tok) : List (Nat × Nat) := walk true .between 0 sheet

/-! ## Generating -/

/-- Splits a text after `n` bytes; `none`: that is past its end or inside of a character. -/
def splitBytes : Nat → Text → Option (Text × Text)
  | 0, cs => some ([], cs)
  | _ + 1, [] => none
  | n + 1, c :: cs =>
    if c.utf8Size ≤ n + 1 then (splitBytes (n + 1 - c.utf8Size) cs).map fun (a, b) => (c :: a, b)
    else none

/-- `&t[a..b]`; `none`: it panics. -/
def slice (t : Text) (a b : Nat) : Option Text :=
  if a ≤ b then do
    let (_, t) ← splitBytes a t
    let (t, _) ← splitBytes (b - a) t
    some t
  else none

/-- `&t[a..]`. -/
def sliceFrom (t : Text) (a : Nat) : Option Text := (splitBytes a t).map Prod.snd

/-- The byte of `t` at `i` is a dot; bytes of longer characters never look like one. -/
def dotAt (t : Text) (i : Nat) : Bool :=
  match splitBytes i t with
  | some (_, c :: _) => c == '.'
  | _ => false

/-- The loop of `generate` (css.rs 18-28), and the rest of the sheet (29): the output and the names, in
the order found.  `none`: a slice or the assertion panics. -/
def emit (input pf : Text) (out : Text) (last : Nat) :
    List (Nat × Nat) → Option (Text × List Text)
  | [] => do
    let rest ← sliceFrom input last
    some (out ++ rest, [])
  | (start, len) :: cs => do
    let stop := start + len
    let s ← slice input last stop
    let out := out ++ s
    -- 22: the subtraction panics or wraps around if `out` is too short; the index is then too large
    if len + 1 ≤ bytes out ∧ dotAt out (bytes out - len - 1) = true then do
      let name ← slice input start stop
      let (out, names) ← emit input pf (out ++ '-' :: pf) stop cs
      some (out, name :: names)
    else none

/-- The distinct members of a list: `HashSet`.  (The code goes through the set in some order, which
decides only the order of the declarations.) -/
def distinct : List Text → List Text
  | [] => []
  | x :: xs => x :: (distinct xs).filter (· != x)

/-- `c.replace('-', "_")` (css.rs 32). -/
def constName (c : Text) : Text := c.map fun x => if x = '-' then '_' else x

/-- What `generate` produces: the style sheet and the constants with their values. -/
structure Output where
  sheet : Text
  consts : List (Text × Text)
deriving DecidableEq, Repr

/-- `generate` (css.rs 11-68) up to the JavaScript.  `isIdent` says what Rust accepts as an identifier;
`Ident::new` panics for anything else. -/
def generate (isIdent : Text → Bool) (pf : Text) (sheet : List Tok) : Option Output := do
  let (out, names) ← emit (texts sheet) pf [] 0 (findClasses sheet)
  let names := distinct names
  if names.all (fun c => isIdent (constName c)) then
    some ⟨out, names.map fun c => (constName c, c ++ '-' :: pf)⟩
  else none

/-- `char::from_digit(n, 32)`. -/
def digit32 (n : Nat) : Char := if n < 10 then Char.ofNat (48 + n) else Char.ofNat (87 + n)

/-- `generate_postfix` (css.rs 70-78): `hash` are the 8 bytes of the hash of the sheet. -/
def generatePostfix (hash : List Nat) : Text := hash.map fun n => digit32 (n % 32)

/-! ## The JavaScript template literal (css.rs 40-45) -/

/-- The value of a template literal with the given text, for texts without CR; `none`: a syntax error
or an interpolation.  `special` gives the meaning of `\x...` and `\u...`: the character and what
follows. -/
def cook (special : Text → Option (Char × Text)) : Nat → Text → Option Text
  | _, [] => some []
  | 0, _ => none
  | n + 1, c :: cs =>
    if c = '`' then none
    else if c = '$' ∧ cs.head? = some '{' then none
    else if c ≠ '\\' then (cook special n cs).map (c :: ·)
    else
      match cs with
      | [] => none
      | e :: es =>
        if e = '\n' ∨ e = '\u2028' ∨ e = '\u2029' then cook special n es
        else if e = 'n' then (cook special n es).map ('\n' :: ·)
        else if e = 't' then (cook special n es).map ('\t' :: ·)
        else if e = 'r' then (cook special n es).map ('\r' :: ·)
        else if e = 'b' then (cook special n es).map ('\x08' :: ·)
        else if e = 'f' then (cook special n es).map ('\x0c' :: ·)
        else if e = 'v' then (cook special n es).map ('\x0b' :: ·)
        else if e = '0' then
          if (es.head?.map Char.isDigit).getD false then none
          else (cook special n es).map ('\x00' :: ·)
        else if e.isDigit then none
        else if e = 'x' ∨ e = 'u' then do
          let (x, es) ← special (e :: es)
          (cook special n es).map (x :: ·)
        else (cook special n es).map (e :: ·)

/-- What the browser is given: the literal between backticks (css.rs 42), CR and CR LF read as LF. -/
def toLf : Text → Text
  | '\r' :: '\n' :: cs => '\n' :: toLf cs
  | '\r' :: cs => '\n' :: toLf cs
  | c :: cs => c :: toLf cs
  | [] => []

def shipped (special : Text → Option (Char × Text)) (sheet : Text) : Option Text :=
  cook special (toLf sheet).length (toLf sheet)

end Verif.Css
