/-!
# The mode at a place of a file

Models `interpret_mode_at` and `interpret_mode_at_kind` (crates/tinymist-analysis/src/syntax/matcher.rs:331-384) and
`InteractCodeContextRequest::mode_at` (crates/tinymist-query/src/code_context.rs:145-155): whether a place is in markup,
code, math, a string, a raw text or a comment.

Simplifications: a place in the syntax tree is the list of the nodes from the leaf to the root, each with the siblings to
its left; the functions of typst on such places (`prev_leaf`, `prev_sibling`, `rightmost_leaf`) are modelled as they are
documented: trivia are passed over.
-/

namespace Tinymist.Mode

/-- `SyntaxKind` of typst. -/
inductive Kind where
  | lineComment | blockComment | shebang | raw | str | codeBlock | code | contentBlock | markup | equation | math
  | hash | label | text | ident | args | funcCall | fieldAccess | bool | int | float | numeric | space | linebreak
  | parbreak | escape | shorthand | smartQuote | rawLang | rawDelim | rawTrimmed | leftBrace | rightBrace
  | leftBracket | rightBracket | leftParen | rightParen | comma | semicolon | colon | star | underscore | dollar
  | plus | minus | slash | hat | prime | dot | eq | eqEq | exclEq | lt | ltEq | gt | gtEq | plusEq | hyphEq
  | starEq | slashEq | dots | arrow | root | notKw | andKw | orKw | noneKw | autoKw | asKw | named | keyed | spread
  | error | endKind | strong | emph | link | ref | refMarker | heading | headingMarker | listItem | listMarker
  | enumItem | enumMarker | termItem | termMarker | mathIdent | mathAlignPoint | mathDelimited | mathAttach
  | mathPrimes | mathFrac | mathRoot | mathShorthand | mathText | letKw | setKw | showKw | contextKw | ifKw
  | elseKw | forKw | inKw | whileKw | breakKw | continueKw | returnKw | importKw | includeKw | closure | params
  | letBinding | setRule | showRule | contextual | conditional | whileLoop | forLoop | loopBreak | moduleImport
  | importItems | importItemPath | renamedImportItem | moduleInclude | loopContinue | funcReturn | unary | binary
  | parenthesized | dict | array | destructuring | destructAssignment
  deriving DecidableEq, Repr

/-- `InterpretMode` (crates/tinymist-analysis/src/syntax/matcher.rs:315-329). -/
inductive Mode where
  | comment
  | string
  | raw
  | markup
  | code
  | math
  deriving DecidableEq, Repr

/-- `SyntaxKind::is_trivia`. -/
def trivia : Kind → Bool
  | .shebang | .lineComment | .blockComment | .space | .parbreak => true
  | _ => false

/-- `interpret_mode_at_kind` (crates/tinymist-analysis/src/syntax/matcher.rs:356-384). -/
def kindMode : Kind → Option Mode
  | .lineComment | .blockComment | .shebang => some .comment
  | .raw => some .raw
  | .str => some .string
  | .codeBlock | .code => some .code
  | .contentBlock | .markup => some .markup
  | .equation | .math => some .math
  | .hash => some .code
  | .label | .text | .ident | .args | .funcCall | .fieldAccess | .bool | .int | .float | .numeric | .space
  | .linebreak | .parbreak | .escape | .shorthand | .smartQuote | .rawLang | .rawDelim | .rawTrimmed | .leftBrace
  | .rightBrace | .leftBracket | .rightBracket | .leftParen | .rightParen | .comma | .semicolon | .colon | .star
  | .underscore | .dollar | .plus | .minus | .slash | .hat | .prime | .dot | .eq | .eqEq | .exclEq | .lt | .ltEq
  | .gt | .gtEq | .plusEq | .hyphEq | .starEq | .slashEq | .dots | .arrow | .root | .notKw | .andKw | .orKw
  | .noneKw | .autoKw | .asKw | .named | .keyed | .spread | .error | .endKind => none
  | .strong | .emph | .link | .ref | .refMarker | .heading | .headingMarker | .listItem | .listMarker | .enumItem
  | .enumMarker | .termItem | .termMarker => some .markup
  | .mathIdent | .mathAlignPoint | .mathDelimited | .mathAttach | .mathPrimes | .mathFrac | .mathRoot
  | .mathShorthand | .mathText => some .math
  | .letKw | .setKw | .showKw | .contextKw | .ifKw | .elseKw | .forKw | .inKw | .whileKw | .breakKw | .continueKw
  | .returnKw | .importKw | .includeKw | .closure | .params | .letBinding | .setRule | .showRule | .contextual
  | .conditional | .whileLoop | .forLoop | .loopBreak | .moduleImport | .importItems | .importItemPath
  | .renamedImportItem | .moduleInclude | .loopContinue | .funcReturn | .unary | .binary | .parenthesized | .dict
  | .array | .destructuring | .destructAssignment => some .code

/-- A syntax tree. -/
inductive Tree where
  | node (kind : Kind) (children : List Tree)

/-- The kind of a tree. -/
def Tree.kind : Tree → Kind
  | .node k _ => k

mutual
/-- `LinkedNode::rightmost_leaf`: the last leaf that is not trivia. -/
def rightmost : Tree → Option Kind
  | .node k [] => if trivia k then none else some k
  | .node _ (c :: cs) => rightmostOf (c :: cs)

/-- The last leaf of some trees. -/
def rightmostOf : List Tree → Option Kind
  | [] => none
  | c :: cs =>
    match rightmostOf cs with
    | some k => some k
    | none => rightmost c
end

/-- A node on the way from a leaf to the root, with the siblings to its left. -/
structure Step where
  kind : Kind
  left : List Tree

/-- The siblings that `prev_sibling` goes to: those that are not trivia. -/
def solid (l : List Tree) : List Tree := l.filter (fun t => !trivia t.kind)

/-- `LinkedNode::prev_leaf`: the kind of the last leaf before a node. -/
def prevLeaf : List Step → Option Kind
  | [] => none
  | s :: up =>
    match rightmostOf (solid s.left) with
    | some k => some k
    | none => prevLeaf up

/-- `interpret_mode_at` (crates/tinymist-analysis/src/syntax/matcher.rs:332-353). -/
def interpretModeAt : List Step → Mode
  | [] => .markup
  | s :: up =>
    match kindMode s.kind with
    | some m => m
    | none => if !trivia s.kind && prevLeaf (s :: up) == some .hash then .code else interpretModeAt up

/-- `InteractCodeContextRequest::mode_at` (crates/tinymist-query/src/code_context.rs:145-155). `leaf` is the leaf before
the position with its ancestors, if there is one. -/
def modeAt (length pos : Nat) (leaf : List Step) : Mode :=
  if pos = 0 ∨ pos ≥ length then .markup else interpretModeAt leaf

end Tinymist.Mode
