import Verif.Css.Model

/-!
# What `css!` should produce (C43)

A style sheet is a list of rules.  Its class selectors are the identifiers after a dot in the
selectors of its style rules, wherever these are.
-/

namespace Verif.Css

/-- A part of the text of a style sheet: the name of a class selector (as written, and with escapes
resolved) or anything else. -/
inductive Piece where
  | plain (t : Text)
  | cls (raw val : Text)
deriving DecidableEq, Repr

/-- The text as written. -/
def Piece.text : Piece → Text
  | .plain t => t
  | .cls raw _ => raw

/-- The text as it should be emitted. -/
def Piece.emitted (pf : Text) : Piece → Text
  | .plain t => t
  | .cls raw _ => raw ++ '-' :: pf

/-- The name of the class, if it is one. -/
def Piece.name : Piece → Option Text
  | .plain _ => none
  | .cls _ val => some val

/-- The names of the class selectors. -/
def names (ps : List Piece) : List Text := ps.filterMap Piece.name

mutual
/-- The class selectors in a selector; `dot`: the last token, apart from comments, was a dot. -/
def mark (dot : Bool) : List Tok → List Piece
  | [] => []
  | .comment raw :: ts => .plain raw :: mark dot ts
  | .delim '.' :: ts => .plain ['.'] :: mark true ts
  | .ident raw val :: ts => (if dot then .cls raw val else .plain raw) :: mark false ts
  | t :: ts => markTok t ++ mark false ts

/-- Functions, such as `:not(...)`, have selectors inside. -/
def markTok : Tok → List Piece
  | .func raw inside close => .plain raw :: (mark false inside ++ [.plain close])
  | t => [.plain t.text]
end

/-- The rules of a style sheet. `close` is the closing brace, or nothing at the end of the sheet. -/
inductive Rule where
  /-- white space, comments, `<!--` and `-->` between rules -/
  | gap (t : Tok)
  /-- `selectors { declarations and nested rules }` -/
  | style (selectors : List Tok) (body : List Rule) (close : Text)
  /-- an at-rule that has rules inside, such as `@media` -/
  | group (name : Text) (prelude : List Tok) (body : List Rule) (close : Text)
  /-- any other at-rule with a block, such as `@font-face` -/
  | atBlock (name : Text) (prelude : List Tok) (body : List Tok) (close : Text)
  /-- an at-rule without block, such as `@import` -/
  | statement (name : Text) (prelude : List Tok)
  /-- declarations, in the body of a style rule -/
  | decls (ts : List Tok)

mutual
/-- The tokens of a rule. -/
def Rule.toks : Rule → List Tok
  | .gap t => [t]
  | .style sel body close => sel ++ [.block .curly (toks body) close]
  | .group name pre body close => .atKeyword name :: (pre ++ [.block .curly (toks body) close])
  | .atBlock name pre body close => .atKeyword name :: (pre ++ [.block .curly body close])
  | .statement name pre => .atKeyword name :: (pre ++ [.semicolon])
  | .decls ts => ts

/-- The tokens of a style sheet. -/
def toks : List Rule → List Tok
  | [] => []
  | r :: rs => r.toks ++ toks rs
end

mutual
/-- The class selectors in a rule. -/
def Rule.pieces : Rule → List Piece
  | .gap t => [.plain t.text]
  | .style sel body close => mark false sel ++ .plain ['{'] :: (pieces body ++ [.plain close])
  | .group name pre body close =>
      .plain ('@' :: name ++ texts pre ++ ['{']) :: (pieces body ++ [.plain close])
  | .atBlock name pre body close =>
      [.plain ('@' :: name ++ texts pre ++ '{' :: (texts body ++ close))]
  | .statement name pre => [.plain ('@' :: name ++ texts pre ++ [';'])]
  | .decls ts => [.plain (texts ts)]

/-- The class selectors in a style sheet, and the text between them. -/
def pieces : List Rule → List Piece
  | [] => []
  | r :: rs => r.pieces ++ pieces rs
end

/-- A block in braces, which ends the prelude of a rule. -/
def isCurly : Tok → Bool
  | .block .curly _ _ => true
  | _ => false

def isSemicolon : Tok → Bool
  | .semicolon => true
  | _ => false

/-- White space and comments. -/
def isSpace : Tok → Bool
  | .space _ => true
  | .comment _ => true
  | _ => false

def isCd : Tok → Bool
  | .cd _ => true
  | _ => false

def isAt : Tok → Bool
  | .atKeyword _ => true
  | _ => false

/-- Where a rule is. -/
inductive Place where
  | top | group | body
deriving DecidableEq

mutual
/-- The tokens of the rule are read as this rule: its prelude ends where it should, and it starts with
a token that can start it. -/
def Rule.WF (p : Place) : Rule → Prop
  | .gap t => isSpace t = true ∨ (p = .top ∧ isCd t = true)
  | .style sel body _ =>
      (∀ t ∈ sel, isCurly t = false) ∧
      (∀ t, sel.head? = some t → isSpace t = false ∧ isCd t = false ∧ isAt t = false) ∧
      WF .body body
  | .group _ pre body _ => (∀ t ∈ pre, isCurly t = false ∧ isSemicolon t = false) ∧ WF .group body
  | .atBlock name pre _ _ =>
      isGroup name = false ∧ ∀ t ∈ pre, isCurly t = false ∧ isSemicolon t = false
  | .statement _ pre => ∀ t ∈ pre, isCurly t = false ∧ isSemicolon t = false
  | .decls _ => p = .body

def WF (p : Place) : List Rule → Prop
  | [] => True
  | r :: rs => r.WF p ∧ WF p rs
end

mutual
/-- There are no comments between a dot and the identifier after it. -/
def Tight (dot : Bool) : List Tok → Prop
  | [] => True
  | .comment _ :: ts => dot = false ∧ Tight false ts
  | .delim '.' :: ts => Tight true ts
  | t :: ts => TightTok t ∧ Tight false ts

def TightTok : Tok → Prop
  | .func _ inside _ => Tight false inside
  | _ => True
end

/-- No class is written with escapes. -/
def Unescaped (ps : List Piece) : Prop := ∀ raw val, .cls raw val ∈ ps → raw = val

mutual
/-- The sheets that the macro gets right: classes only in the selectors of style rules that are not
inside of another style rule and whose enclosing at-rules are all among `@media`, `@supports`,
`@container` and `@layer` (in lower case), without comments before them and without escapes. -/
def Rule.Supported : Rule → Prop
  | .style sel body _ =>
      Tight false sel ∧ Unescaped (mark false sel) ∧ names (pieces body) = []
  | .group name _ body _ =>
      (isGroup name = true ∧ Supported body) ∨ (isGroup name = false ∧ names (pieces body) = [])
  | _ => True

def Supported : List Rule → Prop
  | [] => True
  | r :: rs => r.Supported ∧ Supported rs
end

end Verif.Css
