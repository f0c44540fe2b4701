import Verif.Model.Pointer

/-!
# What a token is colored as

Models the kinds and modifiers of semantic tokens (crates/tinymist-query/src/analysis/semantic_tokens.rs:134-306, 340-349, 536-712) and the
legend that the client is told (crates/tinymist/src/config.rs:858-870). How tokens are cut and encoded is modelled in `Tokens`.

Simplifications: those of the model of places. What a name resolves to is asked by its place in place of its span. A hash whose
expression begins with another hash, which the parser does not make, has no token of its own here. `next_sibling`, `next_leaf` and
`leftmost_leaf` are those of typst, which is not in this repository.
-/

namespace Tinymist.Coloring

open Mode (Kind trivia)
open Pointer

/-- `TokenType` (semantic_tokens.rs:134-191), in order. -/
inductive Color where
  | comment | string | keyword | operator | number | function | decorator | type | namespace | bool | punctuation | escape | link | raw
  | label | ref | heading | listMarker | listTerm | delimiter | interpolated | error | text | none
  deriving DecidableEq, Repr

/-- `TokenType::iter`. -/
def colors : List Color :=
  [.comment, .string, .keyword, .operator, .number, .function, .decorator, .type, .namespace, .bool, .punctuation, .escape, .link, .raw,
    .label, .ref, .heading, .listMarker, .listTerm, .delimiter, .interpolated, .error, .text, .none]

/-- `token_type as u32`. -/
def Color.index (c : Color) : Nat := c.ctorIdx

/-- `SemanticTokenType::from` (semantic_tokens.rs:117-130, 193-223); `none`: it panics. -/
def Color.name : Color → Option String
  | .comment => some "comment"
  | .string => some "string"
  | .keyword => some "keyword"
  | .operator => some "operator"
  | .number => some "number"
  | .function => some "function"
  | .decorator => some "decorator"
  | .type => some "type"
  | .namespace => some "namespace"
  | .bool => some "bool"
  | .punctuation => some "punct"
  | .escape => some "escape"
  | .link => some "link"
  | .raw => some "raw"
  | .label => some "label"
  | .ref => some "ref"
  | .heading => some "heading"
  | .listMarker => some "marker"
  | .listTerm => some "term"
  | .delimiter => some "delim"
  | .interpolated => some "pol"
  | .error => some "error"
  | .text => some "text"
  | .none => Option.none

/-- `Modifier` (semantic_tokens.rs:230-246), in order. -/
inductive Modifier where
  | strong | emph | math | readOnly | static | defaultLibrary
  deriving DecidableEq, Repr

/-- `Modifier::bitmask` (semantic_tokens.rs:248-258). -/
def Modifier.mask (m : Modifier) : Nat := 1 <<< m.ctorIdx

/-- `SemanticTokenModifier::from` (semantic_tokens.rs:225-227, 260-273). -/
def Modifier.name : Modifier → String
  | .strong => "strong"
  | .emph => "emph"
  | .math => "math"
  | .readOnly => "readonly"
  | .static => "static"
  | .defaultLibrary => "defaultLibrary"

/-- The legend (config.rs:861-867): names of types, which may panic, and of modifiers. -/
def legendTypes : Option (List String) := (colors.filter (· ≠ .none)).mapM Color.name

def legendModifiers : List String := [Modifier.strong, .emph, .math, .readOnly, .static, .defaultLibrary].map Modifier.name

/-- `ModifierSet::new` (semantic_tokens.rs:283-290). -/
def maskOf (ms : List Modifier) : Nat := (ms.map Modifier.mask).foldl (· ||| ·) 0

/-! ## What a name resolves to -/

/-- The values that are told apart (semantic_tokens.rs:644-653). -/
inductive Val where
  | func | type | module | other

/-- The types that are told apart (semantic_tokens.rs:641-656). -/
inductive Term where
  | func
  | value (v : Val)
  | other

/-- The declarations that are told apart (semantic_tokens.rs:663-686). -/
inductive Decl where
  | func | var | module | moduleAlias | pathStem | other

/-- The expression at the root of a reference (semantic_tokens.rs:661-691). -/
inductive Root where
  | type (t : Term)
  | decl (d : Decl)
  | other

/-- `RefExpr`, as far as it is looked at. -/
structure Resolved where
  root : Option Root
  term : Option Term

/-- `ns` (semantic_tokens.rs:694-697). -/
def ns : Color × Nat := (.namespace, maskOf [.static, .readOnly])

/-- `token_from_term` (semantic_tokens.rs:639-657): with the modifiers that are added. -/
def termColor : Term → Color × Nat
  | .func => (.function, 0)
  | .value .func => (.function, 0)
  | .value .type => (.function, maskOf [.defaultLibrary])
  | .value .module => ns
  | .value .other => (.interpolated, 0)
  | .other => (.interpolated, 0)

/-- `token_from_decl_expr` (semantic_tokens.rs:659-692). -/
def rootColor : Root → Option Term → Color × Nat
  | .type t, _ => termColor t
  | .decl .func, _ => (.function, 0)
  | .decl .module, _ => ns
  | .decl .moduleAlias, _ => ns
  | .decl .pathStem, _ => ns
  | .decl .var, _ => (.interpolated, 0)
  | .decl .other, _ => (.interpolated, 0)
  | .other, some t => termColor t
  | .other, none => (.interpolated, 0)

/-! ## Leaves -/

mutual
/-- `LinkedNode::leftmost_leaf`. -/
def leftmost (up : List Frame) : Tree → Option Place
  | .leaf k t => if trivia k || k == .error then none else some ⟨.leaf k t, up⟩
  | .inner k [] => if trivia k || k == .error then none else some ⟨.inner k [], up⟩
  | .inner k (c :: cs) => leftmostIn k up [] (c :: cs)

def leftmostIn (k : Kind) (up : List Frame) (left : List Tree) : List Tree → Option Place
  | [] => none
  | c :: cs =>
    match leftmost (⟨k, left, cs⟩ :: up) c with
    | some p => some p
    | none => leftmostIn k up (left ++ [c]) cs
end

/-- The first leaf in the siblings to the right that are not trivia. -/
def leafOfRight (k : Kind) (up : List Frame) (left : List Tree) : List Tree → Option Place
  | [] => none
  | c :: cs =>
    match if trivia c.kind then none else leftmost (⟨k, left, cs⟩ :: up) c with
    | some p => some p
    | none => leafOfRight k up (left ++ [c]) cs

/-- `LinkedNode::next_leaf`. -/
def nextLeafFrom (t : Tree) : List Frame → Option Place
  | [] => none
  | f :: up =>
    match leafOfRight f.kind up (f.left ++ [t]) f.right with
    | some p => some p
    | none => nextLeafFrom (.inner f.kind (f.left ++ t :: f.right)) up

def nextLeaf (p : Place) : Option Place := nextLeafFrom p.tree p.up

/-- `LinkedNode::next_sibling`, by the siblings to the right. -/
def nextSibling (k : Kind) (up : List Frame) (left : List Tree) : List Tree → Option Place
  | [] => none
  | c :: cs => if trivia c.kind then nextSibling k up (left ++ [c]) cs else some ⟨c, ⟨k, left, cs⟩ :: up⟩

/-! ## Nodes -/

/-- The kind of the parent. -/
def parentKind (p : Place) : Option Kind := p.up.head?.map Frame.kind

/-- `lexical_function_call` and `function_content` (semantic_tokens.rs:618-634). -/
def calledHere (p : Place) : Bool :=
  match nextLeaf p with
  | none => false
  | some n =>
    n.offset == p.offset + p.len &&
      ((n.tree.kind == .leftParen && (parentKind n == some .args || parentKind n == some .params)) ||
        (n.tree.kind == .leftBracket && parentKind n == some .contentBlock))

/-- What a name is said to be by what it resolves to (semantic_tokens.rs:602-610). -/
def context (r : Option Resolved) : Option (Color × Nat) :=
  match r with
  | none => none
  | some ⟨some root, term⟩ => some (rootColor root term)
  | some ⟨none, some t⟩ => some (termColor t)
  | some ⟨none, none⟩ => none

/-- `token_from_ident` (semantic_tokens.rs:601-637). -/
def identColor (res : Place → Option Resolved) (p : Place) : Color × Nat :=
  match context (res p) with
  | some (c, m) => if c = .interpolated then (if calledHere p then .function else .interpolated, m) else (c, m)
  | none => (if calledHere p then .function else .interpolated, 0)

/-- `token_from_node` (semantic_tokens.rs:557-598) but for a hash. -/
def plainColor (res : Place → Option Resolved) (p : Place) : Option (Color × Nat) :=
  match p.tree.kind with
  | .star => if parentKind p = some .strong then some (.punctuation, 0) else if parentKind p = some .moduleImport then some (.operator, 0) else none
  | .underscore => if parentKind p = some .emph then some (.punctuation, 0) else if parentKind p = some .mathAttach then some (.operator, 0) else none
  | .mathIdent | .ident => some (identColor res p)
  | .leftBrace | .rightBrace | .leftBracket | .rightBracket | .leftParen | .rightParen | .comma | .semicolon | .colon => some (.punctuation, 0)
  | .linebreak | .escape | .shorthand => some (.escape, 0)
  | .link => some (.link, 0)
  | .raw => some (.raw, 0)
  | .label => some (.label, 0)
  | .refMarker => some (.ref, 0)
  | .heading | .headingMarker => some (.heading, 0)
  | .listMarker | .enumMarker | .termMarker => some (.listMarker, 0)
  | .notKw | .andKw | .orKw => some (.keyword, 0)
  | .mathAlignPoint | .plus | .minus | .slash | .hat | .dot | .eq | .eqEq | .exclEq | .lt | .ltEq | .gt | .gtEq | .plusEq | .hyphEq | .starEq
  | .slashEq | .dots | .arrow => some (.operator, 0)
  | .dollar => some (.delimiter, 0)
  | .noneKw | .autoKw | .letKw | .showKw | .ifKw | .elseKw | .forKw | .inKw | .whileKw | .breakKw | .continueKw | .returnKw | .importKw
  | .includeKw | .asKw | .setKw | .contextKw => some (.keyword, 0)
  | .bool => some (.bool, 0)
  | .int | .float | .numeric => some (.number, 0)
  | .str => some (.string, 0)
  | .lineComment | .blockComment => some (.comment, 0)
  | .error => some (.error, 0)
  | _ => none

/-- The leaf that an expression behind a hash begins with (semantic_tokens.rs:699-704). -/
def behindHash (p : Place) : Option Place :=
  match p.up with
  | [] => none
  | f :: up => (nextSibling f.kind up (f.left ++ [p.tree]) f.right).bind fun q => if isHash q.tree.kind then leftmost q.up q.tree else none

/-- `token_from_node` (semantic_tokens.rs:557-598, 706-712). -/
def nodeColor (res : Place → Option Resolved) (p : Place) : Option (Color × Nat) :=
  if p.tree.kind = .hash then (behindHash p).bind (plainColor res) else plainColor res p

/-- `modifiers_from_node` (semantic_tokens.rs:540-547). -/
def styleOf : Kind → Nat
  | .emph => maskOf [.emph]
  | .strong => maskOf [.strong]
  | .math => maskOf [.math]
  | .equation => maskOf [.math]
  | _ => 0

/-- What a node adds to the modifiers of what is in it (semantic_tokens.rs:343-346, 368). -/
def added (res : Place → Option Resolved) (p : Place) : Nat := styleOf p.tree.kind ||| ((nodeColor res p).map Prod.snd).getD 0

/-- The modifiers that come from the nodes around (semantic_tokens.rs:341, 367-369). -/
def inherited (res : Place → Option Resolved) (t : Tree) : List Frame → Nat
  | [] => 0
  | f :: up => inherited res (.inner f.kind (f.left ++ t :: f.right)) up ||| added res ⟨.inner f.kind (f.left ++ t :: f.right), up⟩

/-- The token of a leaf (semantic_tokens.rs:342-349). -/
def token (res : Place → Option Resolved) (p : Place) : Color × Nat :=
  (((nodeColor res p).map Prod.fst).getD .text, inherited res p.tree p.up ||| added res p)

end Tinymist.Coloring
