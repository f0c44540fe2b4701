import Verif.Model.Position
/-!
# Semantic tokens of the compiler library

Models `get_semantic_tokens_full` and `get_semantic_tokens_legend`, the semantic tokens that the library of
the compiler offers (to editors in a browser, say), which are not those of the language server (C21).

Cited: `crates/tinymist-world/src/parser/semantic_tokens.rs`, `typst_tokens.rs`, `modifier_set.rs`.
-/
namespace Tinymist.WebTokens
open Position

/-- The kinds of `typst::syntax::SyntaxKind` that are told apart here; `other` stands for all others. -/
inductive Kind where
  | star | strong | moduleImport | underscore | emph | mathAttach | mathIdent | ident | hash
  | leftBrace | rightBrace | leftBracket | rightBracket | leftParen | rightParen | comma | semicolon | colon
  | linebreak | escape | shorthand | link | raw | label | refMarker | heading | headingMarker
  | listMarker | enumMarker | termMarker
  | mathAlignPoint | plus | minus | slash | hat | dot | eq | eqEq | exclEq | lt | ltEq | gt | gtEq
  | plusEq | hyphEq | starEq | slashEq | dots | arrow | not | and | or
  | dollar | none | auto | klet | kshow | kif | kelse | kfor | kin | kwhile | kbreak | kcontinue | kreturn
  | kimport | kinclude | kas | kset | bool | int | float | numeric | str | lineComment | blockComment | error
  | math | equation | args | params | contentBlock | other
  deriving DecidableEq, Repr

/-- `TokenType` (typst_tokens.rs:9-38). -/
inductive Ty where
  | comment | string | keyword | operator | number | function | decorator | bool | punctuation | escape
  | link | raw | label | ref | heading | listMarker | listTerm | delimiter | interpolated | error | text
  deriving DecidableEq, Repr

/-- `TokenType::iter()` (typst_tokens.rs:7): in the order of declaration. -/
def Ty.all : List Ty := [.comment, .string, .keyword, .operator, .number, .function, .decorator, .bool, .punctuation,
  .escape, .link, .raw, .label, .ref, .heading, .listMarker, .listTerm, .delimiter, .interpolated, .error, .text]

/-- `token_type as u32` (semantic_tokens.rs:101, `repr(u32)`): the place in the declaration. -/
def Ty.code (t : Ty) : Nat := Ty.all.idxOf t

/-- `From<TokenType> for &'static str` (typst_tokens.rs:40-69). -/
def Ty.name : Ty → String
  | .comment => "comment" | .string => "string" | .keyword => "keyword" | .operator => "operator"
  | .number => "number" | .function => "function" | .decorator => "decorator" | .bool => "bool"
  | .punctuation => "punctuation" | .escape => "escape" | .link => "link" | .raw => "raw" | .label => "label"
  | .ref => "ref" | .heading => "heading" | .listMarker => "marker" | .listTerm => "term"
  | .delimiter => "delim" | .interpolated => "pol" | .error => "error" | .text => "text"

/-- `Modifier` (typst_tokens.rs:71-77). -/
inductive Modifier where
  | strong | emph | math
  deriving DecidableEq, Repr

/-- `Modifier::iter()`. -/
def Modifier.all : List Modifier := [.strong, .emph, .math]

/-- `Modifier::index` and `bitmask` (typst_tokens.rs:79-87). -/
def Modifier.mask (m : Modifier) : Nat := 1 <<< Modifier.all.idxOf m

/-- `From<Modifier> for &'static str` (typst_tokens.rs:89-99). -/
def Modifier.name : Modifier → String
  | .strong => "strong" | .emph => "emph" | .math => "math"

/-- `get_semantic_tokens_legend` (semantic_tokens.rs:17-34): names of types and of modifiers. -/
def legend : List String × List String := (Ty.all.map Ty.name, Modifier.all.map Modifier.name)

/-- What else is asked about a node. `next` is the kind of the leaf after it and of that leaf's parent
(`next_leaf`), `follow`, for a hash, is the first leaf of the expression right behind it, its parent and the
leaf after that (`get_expr_following_hashtag`, semantic_tokens.rs:195-201). Both are found by the syntax
library and given with the node. -/
structure Info where
  kind : Kind
  next : Option (Kind × Option Kind)
  follow : Option (Kind × Option Kind × Option (Kind × Option Kind))
  deriving DecidableEq, Repr

/-- A syntax tree. -/
inductive Node where
  | leaf (info : Info) (text : Text)
  | inner (info : Info) (children : List Node)

mutual
/-- The text of a node (`into_text`). -/
def Node.text : Node → Text
  | .leaf _ t => t
  | .inner _ cs => forestText cs
/-- The text of siblings. -/
def forestText : List Node → Text
  | [] => []
  | n :: ns => n.text ++ forestText ns
end

/-- The facts given with a node. -/
def Node.info : Node → Info
  | .leaf i _ => i
  | .inner i _ => i

/-- `is_function_ident` (semantic_tokens.rs:171-184). -/
def isFunction : Option (Kind × Option Kind) → Bool
  | none => false
  | some (k, p) =>
    (k = .leftParen && (p = some .args || p = some .params)) || (k = .leftBracket && p = some .contentBlock)

/-- `token_from_node` (semantic_tokens.rs:125-168) without the arm for a hash. -/
def ownType (k : Kind) (parent : Option Kind) (next : Option (Kind × Option Kind)) : Option Ty :=
  match k with
  | .star =>
    if parent = some .strong then some .punctuation
    else if parent = some .moduleImport then some .operator else none
  | .underscore =>
    if parent = some .emph then some .punctuation
    else if parent = some .mathAttach then some .operator else none
  | .mathIdent | .ident => some (if isFunction next then .function else .interpolated)
  | .leftBrace | .rightBrace | .leftBracket | .rightBracket | .leftParen | .rightParen | .comma | .semicolon
  | .colon => some .punctuation
  | .linebreak | .escape | .shorthand => some .escape
  | .link => some .link
  | .raw => some .raw
  | .label => some .label
  | .refMarker => some .ref
  | .heading | .headingMarker => some .heading
  | .listMarker | .enumMarker | .termMarker => some .listMarker
  | .mathAlignPoint | .plus | .minus | .slash | .hat | .dot | .eq | .eqEq | .exclEq | .lt | .ltEq | .gt | .gtEq
  | .plusEq | .hyphEq | .starEq | .slashEq | .dots | .arrow | .not | .and | .or => some .operator
  | .dollar => some .delimiter
  | .none | .auto | .klet | .kshow | .kif | .kelse | .kfor | .kin | .kwhile | .kbreak | .kcontinue | .kreturn
  | .kimport | .kinclude | .kas | .kset => some .keyword
  | .bool => some .bool
  | .int | .float | .numeric => some .number
  | .str => some .string
  | .lineComment | .blockComment => some .comment
  | .error => some .error
  | _ => none

/-- `token_from_node` (semantic_tokens.rs:125-168) with `token_from_hashtag` (203-207). The leaf behind a hash
is never a hash. -/
def typeOf (i : Info) (parent : Option Kind) : Option Ty :=
  if i.kind = .hash then i.follow.bind fun f => ownType f.1 f.2.1 f.2.2
  else ownType i.kind parent i.next

/-- `modifiers_from_node` (semantic_tokens.rs:110-117) as a set of bits. -/
def modBits : Kind → Nat
  | .emph => Modifier.emph.mask
  | .strong => Modifier.strong.mask
  | .math | .equation => Modifier.math.mask
  | _ => 0

/-- `SemanticToken` (semantic_tokens.rs:82-89). -/
structure Sem where
  deltaLine : Nat
  deltaStart : Nat
  length : Nat
  type : Nat
  mods : Nat
  deriving DecidableEq, Repr

/-- `tokenize_single_node` and `SemanticToken::new` (semantic_tokens.rs:63-69, 91-106): the offset is kept in two
halves of 32 bits. -/
def single (i : Info) (parent : Option Kind) (isLeaf : Bool) (mods off : Nat) (text : Text) : List Sem :=
  match (typeOf i parent).or (if isLeaf then some .text else none) with
  | none => []
  | some t => [⟨off / 2 ^ 32, off % 2 ^ 32, len16 text, t.code, mods⟩]

mutual
/-- `tokenize_tree` (semantic_tokens.rs:71-80). -/
def tree (parent : Option Kind) (mods off : Nat) : Node → List Sem
  | .leaf i t => single i parent true (mods ||| modBits i.kind) off t
  | .inner i cs =>
    single i parent cs.isEmpty (mods ||| modBits i.kind) off (forestText cs) ++
      forest (some i.kind) (mods ||| modBits i.kind) off cs
/-- Its children, one behind another. -/
def forest (parent : Option Kind) (mods off : Nat) : List Node → List Sem
  | [] => []
  | n :: ns => tree parent mods off n ++ forest parent mods (off + len8 n.text) ns
end

/-- `offset_to_position_utf8` and `offset_to_position_utf16` (semantic_tokens.rs:209-237); `none` if it
panics. -/
def position (enc : Encoding) (s : Text) (b : Nat) : Option (Nat × Nat) := do
  let ls := lines s
  let i ← byteToLine ls b
  match enc with
  | .utf8 => do
    let col ← byteToColumn ls b
    pure (i, col)
  | .utf16 => do
    let u ← byteToUtf16 ls b
    let start ← lineToByte ls i
    let u0 ← byteToUtf16 ls start
    pure (i, u - u0)

/-- The offset, put together from its halves (semantic_tokens.rs:49). -/
def Sem.offset (t : Sem) : Nat := t.deltaLine * 2 ^ 32 + t.deltaStart

/-- One turn of the loop (semantic_tokens.rs:47-63), given the position of a token: the position, and the token
relative to the one before; `none` if a subtraction overflows or the position panics. -/
def turn (pos : Option (Nat × Nat)) (init : Nat × Nat) (t : Sem) : Option ((Nat × Nat) × Sem) :=
  match pos with
  | none => none
  | some p =>
    if p.1 < init.1 then none
    else if p.1 = init.1 then
      if p.2 < init.2 then none
      else some (p, { t with deltaLine := 0, deltaStart := p.2 - init.2 })
    else some (p, { t with deltaLine := p.1 - init.1, deltaStart := p.2 })

/-- The loop (semantic_tokens.rs:46-63), given the positions of offsets. -/
def loop (pos : Nat → Option (Nat × Nat)) : Nat × Nat → List Sem → Option (List Sem)
  | _, [] => some []
  | init, t :: ts =>
    match turn (pos t.offset) init t with
    | none => none
    | some r => (loop pos r.1 ts).map fun us => r.2 :: us

/-- `get_semantic_tokens_full` (semantic_tokens.rs:42-61). -/
def full (enc : Encoding) (root : Node) : Option (List Sem) :=
  loop (position enc root.text) (0, 0) (tree none 0 0 root)

end Tinymist.WebTokens
