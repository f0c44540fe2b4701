import Verif.Model.Mode

/-!
# What the cursor is on

Models `classify_syntax` with `first_ancestor_expr`, `adjust_expr` and `is_mark` (crates/tinymist-analysis/src/syntax/matcher.rs:66-105,
286-310, 504-517, 702-862) and `classify_for_decl` (crates/tinymist-query/src/analysis/global.rs:547-556, 634-657): which name, label or
path a request for a position is about. Going to a definition, finding references and renaming begin with `classify_for_decl`, hovering
with `classify_syntax`.

Simplifications: offsets are counted in characters, not in bytes. The functions of typst on syntax trees (`leaf_at`, `prev_sibling`,
`prev_leaf`, `rightmost_leaf`, and what is an expression) are modelled as they are in typst 0.13; `find` with the span of a node is the
node. `is_ident` of typst is a parameter.
-/

namespace Tinymist.Pointer

open Mode (Kind kindMode trivia)

abbrev Text := List Char

/-- A syntax tree with its text. -/
inductive Tree where
  | leaf (kind : Kind) (text : Text)
  | inner (kind : Kind) (children : List Tree)
  deriving Repr

/-- `SyntaxNode::kind`. -/
def Tree.kind : Tree → Kind
  | .leaf k _ => k
  | .inner k _ => k

/-- `SyntaxNode::text`: that of a leaf. -/
def Tree.text : Tree → Text
  | .leaf _ t => t
  | .inner _ _ => []

mutual
/-- `SyntaxNode::into_text`: all of the text. -/
def Tree.full : Tree → Text
  | .leaf _ t => t
  | .inner _ cs => fullOf cs

def fullOf : List Tree → Text
  | [] => []
  | c :: cs => c.full ++ fullOf cs
end

/-- A node on the way to the root, with the children left and right of the way. -/
structure Frame where
  kind : Kind
  left : List Tree
  right : List Tree
  deriving Repr

/-- `LinkedNode`: a node and the way to the root. -/
structure Place where
  tree : Tree
  up : List Frame
  deriving Repr

/-- `LinkedNode::offset`. -/
def offset : List Frame → Nat
  | [] => 0
  | f :: up => offset up + (fullOf f.left).length

def Place.offset (p : Place) : Nat := Pointer.offset p.up

def Place.len (p : Place) : Nat := p.tree.full.length

/-- `LinkedNode::parent`. -/
def Place.parent (p : Place) : Option Place :=
  match p.up with
  | [] => none
  | f :: up => some ⟨.inner f.kind (f.left ++ p.tree :: f.right), up⟩

mutual
/-- `LinkedNode::leaf_at(cursor, Side::Before)`: the cursor is counted from the start of the node. -/
def leafBefore (up : List Frame) (cursor : Nat) : Tree → Option Place
  | .leaf k t => if cursor ≤ t.length then some ⟨.leaf k t, up⟩ else none
  | .inner k [] => if cursor = 0 then some ⟨.inner k [], up⟩ else none
  | .inner k (c :: cs) => leafBeforeIn k up cursor [] (c :: cs)

def leafBeforeIn (k : Kind) (up : List Frame) (cursor : Nat) (left : List Tree) : List Tree → Option Place
  | [] => none
  | c :: cs =>
    if (0 < cursor ∧ cursor ≤ c.full.length) ∨ (cursor = 0 ∧ cs = []) then leafBefore (⟨k, left, cs⟩ :: up) cursor c
    else if cursor < c.full.length then none
    else leafBeforeIn k up (cursor - c.full.length) (left ++ [c]) cs
end

/-- The last of some trees that is not trivia, with those to its left and, in order, those to its right. -/
def lastSolid : List Tree → Option (List Tree × Tree × List Tree)
  | [] => none
  | c :: cs =>
    match lastSolid cs with
    | some (l, t, r) => some (c :: l, t, r)
    | none => if trivia c.kind then none else some ([], c, cs)

/-- `LinkedNode::prev_sibling`: the first sibling to the left that is not trivia. -/
def Place.prevSibling (p : Place) : Option Place :=
  match p.up with
  | [] => none
  | f :: up => (lastSolid f.left).map fun (l, t, r) => ⟨t, ⟨f.kind, l, r ++ p.tree :: f.right⟩ :: up⟩

mutual
/-- `LinkedNode::rightmost_leaf`. -/
def rightmost (up : List Frame) : Tree → Option Place
  | .leaf k t => if trivia k then none else some ⟨.leaf k t, up⟩
  | .inner k [] => if trivia k then none else some ⟨.inner k [], up⟩
  | .inner k (c :: cs) => rightmostIn k up [] (c :: cs)

def rightmostIn (k : Kind) (up : List Frame) (left : List Tree) : List Tree → Option Place
  | [] => none
  | c :: cs =>
    match rightmostIn k up (left ++ [c]) cs with
    | some p => some p
    | none => rightmost (⟨k, left, cs⟩ :: up) c
end

/-- The last leaf in the siblings to the left, from the right, that are not trivia. -/
def leafOfLeft (k : Kind) (up : List Frame) (left : List Tree) : List Tree → List Tree → Option Place
  | [], _ => none
  | c :: cs, right =>
    match leafOfLeft k up (left ++ [c]) cs right with
    | some p => some p
    | none => if trivia c.kind then none else rightmost (⟨k, left, cs ++ right⟩ :: up) c

/-- `LinkedNode::prev_leaf`. -/
def prevLeafFrom (t : Tree) : List Frame → Option Place
  | [] => none
  | f :: up =>
    match leafOfLeft f.kind up [] f.left (t :: f.right) with
    | some p => some p
    | none => prevLeafFrom (.inner f.kind (f.left ++ t :: f.right)) up

def Place.prevLeaf (p : Place) : Option Place := prevLeafFrom p.tree p.up

/-- `is::<ast::Expr>()`. -/
def isExpr : Kind → Bool
  | .linebreak | .parbreak | .text | .escape | .shorthand | .smartQuote | .strong | .emph | .raw | .link | .label | .ref | .heading
  | .listItem | .enumItem | .termItem | .equation | .math | .mathText | .mathIdent | .mathShorthand | .mathAlignPoint | .mathDelimited
  | .mathAttach | .mathPrimes | .mathFrac | .mathRoot | .ident | .noneKw | .autoKw | .bool | .int | .float | .numeric | .str | .codeBlock
  | .contentBlock | .parenthesized | .array | .dict | .unary | .binary | .fieldAccess | .funcCall | .closure | .letBinding
  | .destructAssignment | .setRule | .showRule | .contextual | .conditional | .whileLoop | .forLoop | .moduleImport | .moduleInclude
  | .loopBreak | .loopContinue | .funcReturn => true
  | _ => false

/-- `Expr::hash`: whether the expression may stand behind a hash. -/
def isHash : Kind → Bool
  | .ident | .noneKw | .autoKw | .bool | .int | .float | .numeric | .str | .codeBlock | .contentBlock | .array | .dict | .parenthesized
  | .fieldAccess | .funcCall | .letBinding | .setRule | .showRule | .contextual | .conditional | .whileLoop | .forLoop | .moduleImport
  | .moduleInclude | .loopBreak | .loopContinue | .funcReturn => true
  | _ => false

/-- `is_mark` (matcher.rs:287-297). -/
def isMark : Kind → Bool
  | .mathAlignPoint | .plus | .minus | .dot | .dots | .arrow | .notKw | .andKw | .orKw | .eq | .eqEq | .exclEq | .lt | .ltEq | .gt | .gtEq
  | .plusEq | .hyphEq | .starEq | .slashEq | .leftBrace | .rightBrace | .leftBracket | .rightBracket | .leftParen | .rightParen | .slash
  | .hat | .comma | .semicolon | .colon | .hash => true
  | _ => false

/-- `SyntaxKind::is_keyword`. -/
def isKeyword : Kind → Bool
  | .notKw | .andKw | .orKw | .noneKw | .autoKw | .letKw | .setKw | .showKw | .contextKw | .ifKw | .elseKw | .forKw | .inKw | .whileKw
  | .breakKw | .continueKw | .returnKw | .importKw | .includeKw | .asKw => true
  | _ => false

/-- `is_ident_like` (matcher.rs:300-310). -/
def identLike (isIdent : Text → Bool) (t : Tree) : Bool :=
  t.kind == .ident || t.kind == .mathIdent || t.kind == .underscore || (t.kind == .error && isIdent t.text) || isKeyword t.kind

/-- The node is the field of the field access above it: `field()` is the last child that is an identifier. -/
def isField (p : Place) : Bool :=
  match p.up with
  | [] => false
  | f :: _ => f.kind == .fieldAccess && p.tree.kind == .ident && f.right.all fun t => t.kind != .ident

/-- The same, and there is a dot before it. -/
def isFieldBehindDot (p : Place) : Bool :=
  match p.up with
  | [] => false
  | f :: _ => isField p && f.left.any fun t => t.kind == .dot

/-- `first_ancestor_expr` (matcher.rs:73-105). -/
def firstExpr (t : Tree) : List Frame → Option Place
  | [] => if isExpr t.kind then some ⟨t, []⟩ else none
  | f :: up =>
    if isExpr t.kind then
      if isFieldBehindDot ⟨t, f :: up⟩ then some ⟨.inner f.kind (f.left ++ t :: f.right), up⟩ else some ⟨t, f :: up⟩
    else firstExpr (.inner f.kind (f.left ++ t :: f.right)) up

mutual
/-- The expression in parentheses (matcher.rs:505-507). -/
def unparen (up : List Frame) : Tree → Option Place
  | .leaf k t => some ⟨.leaf k t, up⟩
  | .inner k cs => if k = .parenthesized then unparenIn k up [] cs else some ⟨.inner k cs, up⟩

def unparenIn (k : Kind) (up : List Frame) (left : List Tree) : List Tree → Option Place
  | [] => none
  | c :: cs => if isExpr c.kind then unparen (⟨k, left, cs⟩ :: up) c else unparenIn k up (left ++ [c]) cs
end

/-- `adjust_expr` (matcher.rs:504-517). -/
def adjust (p : Place) : Option Place := do
  let q ← unparen p.up p.tree
  if isField q then q.parent else some q

/-- The first child that is an expression: the callee of a call and the target of a set rule. -/
def calleeIn (k : Kind) (up : List Frame) (left : List Tree) : List Tree → Option Place
  | [] => none
  | c :: cs => if isExpr c.kind then some ⟨c, ⟨k, left, cs⟩ :: up⟩ else calleeIn k up (left ++ [c]) cs

def Place.callee (p : Place) : Option Place :=
  match p.tree with
  | .leaf .. => none
  | .inner k cs => calleeIn k p.up [] cs

/-- `SyntaxClass` (matcher.rs:630-656). -/
inductive Class where
  | ident (p : Place)
  | fieldAccess (p : Place)
  | dotAccess (p : Place)
  | label (p : Place) (isError : Bool)
  | ref (p : Place)
  | callee (p : Place)
  | importPath (p : Place)
  | includePath (p : Place)
  | normal (p : Place)

/-- `SyntaxClass::node` (matcher.rs:677-688). -/
def Class.node : Class → Place
  | .ident p => p
  | .fieldAccess p => p
  | .dotAccess p => p
  | .label p _ => p
  | .ref p => p
  | .callee p => p
  | .importPath p => p
  | .includePath p => p
  | .normal p => p

/-- `possible_in_code_trivia` (matcher.rs:857-862). -/
def inCode (k : Kind) : Bool :=
  match kindMode k with
  | some .markup => false
  | some .math => false
  | some .comment => false
  | _ => true

/-- The text of the trivia before the cursor (matcher.rs:715-720). -/
def portion (p : Place) (cursor : Nat) : Text :=
  if p.offset ≤ cursor ∧ cursor < p.offset + p.len then p.tree.text.take (cursor - p.offset) else p.tree.text

/-- `can_skip_trivia` (matcher.rs:708-727). -/
def canSkip (p : Place) (cursor : Nat) : Bool :=
  match p.up with
  | [] => false
  | f :: _ => trivia p.tree.kind && inCode f.kind && !(portion p cursor).contains '\n'

/-- `interpret_mode_at` (matcher.rs:332-353). -/
def modeAt (t : Tree) : List Frame → Mode.Mode
  | [] => (kindMode t.kind).getD .markup
  | f :: up =>
    match kindMode t.kind with
    | some m => m
    | none =>
      if !trivia t.kind && ((prevLeafFrom t (f :: up)).map fun p => p.tree.kind) == some .hash then .code
      else modeAt (.inner f.kind (f.left ++ t :: f.right)) up

/-- The offset of the equation a leaf is in. -/
def equationAt (t : Tree) : List Frame → Option Nat
  | [] => if t.kind = .equation then some 0 else none
  | f :: up => if t.kind = .equation then some (offset (f :: up)) else equationAt (.inner f.kind (f.left ++ t :: f.right)) up

/-- `classify_dot_access` (matcher.rs:740-786). -/
def dotAccess (p : Place) : Option Class := do
  let leaf := p.prevLeaf
  let mode := modeAt p.tree p.up
  if (mode = .markup ∨ mode = .math) ∧ leaf.any (fun l => l.offset + l.len < p.offset) then none
  else if mode = .math ∧ leaf.any (fun l => equationAt l.tree l.up == some l.offset) then none
  else
    let target ← leaf.bind fun l => firstExpr l.tree l.up
    let k := target.tree.kind
    if mode = .math ∨ mode = .code ∨ (mode = .markup ∧
        (k = .ident ∨ k = .mathIdent ∨ k = .fieldAccess ∨ k = .funcCall ∨ (target.prevLeaf.map fun l => l.tree.kind) = some .hash)) then
      some (.dotAccess target)
    else none

/-- The class of an expression (matcher.rs:826-852). -/
def classOf (p : Place) : Option Class :=
  match p.tree.kind with
  | .label => some (.label p false)
  | .ref => some (.ref p)
  | .funcCall => p.callee.map .callee
  | .setRule => p.callee.map .callee
  | .ident => some (.ident p)
  | .mathIdent => some (.ident p)
  | .fieldAccess => some (.fieldAccess p)
  | .str =>
    match p.up with
    | [] => none
    | f :: _ => some (if f.kind = .moduleImport then .importPath p else if f.kind = .moduleInclude then .includePath p else .normal p)
  | k => if isHash k then some (.normal p) else none

/-- `classify_syntax` behind the trivia (matcher.rs:789-852). -/
def classifyNode (isIdent : Text → Bool) (p : Place) (cursor : Nat) : Option Class :=
  let dotted :=
    if p.offset + 1 = cursor ∧ (p.tree.kind = .dot ∨
        ((p.tree.kind = .text ∨ p.tree.kind = .mathText ∨ p.tree.kind = .error) ∧ p.tree.text.head? = some '.') ∨
        (p.tree.kind = .dots ∧ (p.up.head?.map Frame.kind) = some .spread)) then dotAccess p
    else none
  match dotted with
  | some c => some c
  | none =>
    if (p.tree.kind = .text ∨ p.tree.kind = .mathText) ∧ modeAt p.tree p.up = .math ∧ identLike isIdent p.tree then some (.ident p)
    else do
      let e ← firstExpr p.tree p.up
      let a ← adjust e
      classOf a

/-- `classify_syntax` (matcher.rs:702-852). -/
def classify (isIdent : Text → Bool) (p : Place) (cursor : Nat) : Option Class :=
  if p.tree.kind = .error ∧ p.tree.text.head? = some '<' then some (.label p true)
  else if canSkip p cursor then p.prevSibling.bind fun q => classifyNode isIdent q cursor
  else classifyNode isIdent p cursor

/-- The leaf that is looked at (global.rs:642-654). -/
def lookedAt (root : Tree) (pos : Nat) : Option Place :=
  let cursor := min (pos + 1) root.full.length
  (leafBefore [] cursor root).map fun p =>
    if cursor = p.offset + 1 ∧ isMark p.tree.kind then
      match p.prevLeaf with
      | some l => if l.offset + l.len = p.offset then l else p
      | none => p
    else p

/-- `classify_for_decl` (global.rs:637-657). -/
def forDecl (isIdent : Text → Bool) (root : Tree) (pos : Nat) : Option Class :=
  (lookedAt root pos).bind fun p => classify isIdent p (min (pos + 1) root.full.length)

/-- What hovering begins with (crates/tinymist-query/src/hover.rs:34-40, 119-121). -/
def forHover (isIdent : Text → Bool) (root : Tree) (pos : Nat) : Option Class :=
  (leafBefore [] (pos + 1) root).bind fun p => classify isIdent p (pos + 1)

end Tinymist.Pointer
