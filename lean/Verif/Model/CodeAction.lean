import Verif.Model.Position
/-!
# Code actions

Models `crates/tinymist-query/src/analysis/code_action.rs` and `code_action.rs`: wrapping a selection, changing the depth of a
heading, converting an equation. The syntax tree belongs to typst: tokens with their text and nodes with children, each with a
kind. `LinkedNode::leaf_at` is modelled by its source (typst-syntax 0.13.1), as in `Model/Selection`.
-/
namespace Tinymist.CodeAction
open Position

/-- The kinds of nodes the actions look at, `SyntaxKind`. -/
inductive Kind where
  | heading | headingMarker | equation | dollar | math | space | other
  deriving DecidableEq, Repr

inductive Node where
  | leaf (kind : Kind) (text : Text)
  | inner (kind : Kind) (children : List Node)

def Node.kind : Node → Kind
  | .leaf k _ => k
  | .inner k _ => k

def Node.children : Node → List Node
  | .leaf _ _ => []
  | .inner _ cs => cs

mutual
/-- `SyntaxNode::into_text`. -/
def text : Node → Text
  | .leaf _ t => t
  | .inner _ cs => textAll cs
def textAll : List Node → Text
  | [] => []
  | c :: cs => text c ++ textAll cs
end

mutual
/-- `LinkedNode::leaf_at(cursor, Side::Before)` of a node at byte `off`: the leaf and the nodes around it up to this one, with
their offsets. -/
def leafBefore (off cursor : Nat) : Node → Option (List (Nat × Node))
  | .leaf k t => if cursor ≤ off + len8 t then some [(off, .leaf k t)] else none
  | .inner k cs =>
    if cs.isEmpty ∧ cursor ≤ off then some [(off, .inner k cs)]
    else (leafIn off cursor cs).map (· ++ [(off, .inner k cs)])
/-- Its loop over the children. -/
def leafIn (off cursor : Nat) : List Node → Option (List (Nat × Node))
  | [] => none
  | c :: cs =>
    if (off < cursor ∧ cursor ≤ off + len8 (text c)) ∨ (off = cursor ∧ cs.isEmpty) then leafBefore off cursor c
    else leafIn (off + len8 (text c)) cursor cs
end

/-- `LinkedNode::children`: with offsets. -/
def childrenAt (off : Nat) : List Node → List (Nat × Node)
  | [] => []
  | c :: cs => (off, c) :: childrenAt (off + len8 (text c)) cs

/-- The titles of the actions. -/
inductive Title where
  | wrap | decrease | increase | toInline | toBlock | toLines
  deriving DecidableEq, Repr

/-- A `TextEdit` with a range of bytes. -/
structure Edit where
  start : Nat
  stop : Nat
  text : Text

structure Action where
  title : Title
  edits : List Edit

/-- `wrap_actions`, code_action.rs:80-112. `proseAt` tells whether the mode at the leaf (`interpret_mode_at`) is that of markup
or math. -/
def wrapActions (proseAt : List (Nat × Node) → Bool) (path : List (Nat × Node)) (start stop : Nat) : List Action :=
  if start ≥ stop then []
  else if !proseAt path then []
  else [⟨.wrap, [⟨start, start, ['#', '[']⟩, ⟨stop, stop, [']']⟩]⟩]

/-- `heading_actions`, code_action.rs:114-151. `Heading::depth` is the length of the first marker. -/
def headingActions (off : Nat) (n : Node) : List Action :=
  match (childrenAt off n.children).find? fun c => c.2.kind = .headingMarker with
  | none => []
  | some (moff, m) =>
    let depth := len8 (text m)
    (if depth > 1 then [⟨.decrease, [⟨moff, moff + depth, List.replicate (depth - 1) '='⟩]⟩] else []) ++
      [⟨.increase, [⟨moff, moff + depth, List.replicate (depth + 1) '='⟩]⟩]

/-- `char::is_ascii_punctuation`. -/
def asciiPunct (c : Char) : Bool :=
  (33 ≤ c.toNat && c.toNat ≤ 47) || (58 ≤ c.toNat && c.toNat ≤ 64) || (91 ≤ c.toNat && c.toNat ≤ 96) ||
    (123 ≤ c.toNat && c.toNat ≤ 126)

/-- The punctuation that follows an equation, code_action.rs:184-201, of the text behind it. `punct` is the class
`\p{Punctuation}`. -/
def markAfter (punct : Char → Bool) : Text → Option Char
  | [] => none
  | [c] => if asciiPunct c || punct c then some c else none
  | c :: d :: _ => if (asciiPunct c && !asciiPunct d) || (!asciiPunct c && punct c) then some c else none

/-- The edits of `rewrite_action`, code_action.rs:216-245. -/
def rewrite (frontStart frontStop backStart backStop nodeEnd : Nat) (mark : Option Char) (new : Text) : List Edit :=
  match new, mark with
  | [], _ => [⟨frontStart, frontStop, []⟩, ⟨backStart, backStop, []⟩]
  | new, none => [⟨frontStart, frontStop, new⟩, ⟨backStart, backStop, new⟩]
  | new, some c =>
    [⟨frontStart, frontStop, new⟩, ⟨backStart, backStop, c :: new⟩, ⟨nodeEnd, nodeEnd + c.utf8Size, []⟩]

/-- `Equation::block` (typst-syntax): there are spaces behind the first and in front of the last child. -/
def isBlock (cs : List Node) : Bool :=
  (cs[1]?.map Node.kind) == some .space && (cs.reverse[1]?.map Node.kind) == some .space

/-- `equation_actions`, code_action.rs:153-259; `after` is the text behind the node. -/
def equationActions (punct : Char → Bool) (after : Text) (off : Nat) (n : Node) : List Action :=
  match (childrenAt off n.children).find? fun c => c.2.kind = .math with
  | none => []
  | some (boff, body) =>
    match (childrenAt off n.children).head?, (childrenAt off n.children).tail.getLast? with
    | some (off1, d1), some (off2, d2) =>
      if d1.kind = .dollar ∧ d2.kind = .dollar then
        let edits := rewrite (off1 + len8 (text d1)) boff (boff + len8 (text body)) off2 (off + len8 (text n))
          (markAfter punct after)
        [if isBlock n.children then ⟨.toInline, edits []⟩ else ⟨.toBlock, edits [' ']⟩, ⟨.toLines, edits ['\n']⟩]
      else []
    | _, _ => []

/-- The loop of `work`, code_action.rs:61-77, from the leaf to the root: of the headings and of the equations only the first. -/
def climb (punct : Char → Bool) (doc : Text) (heading equation : Bool) : List (Nat × Node) → List Action
  | [] => []
  | (off, n) :: rest =>
    if n.kind = .heading ∧ heading = false then headingActions off n ++ climb punct doc true equation rest
    else if n.kind = .equation ∧ equation = false then
      equationActions punct (((splitAtByte doc (off + len8 (text n))).map (·.2)).getD []) off n ++
        climb punct doc heading true rest
    else climb punct doc heading equation rest

/-- `work`, code_action.rs:51-78. -/
def work (proseAt : List (Nat × Node) → Bool) (punct : Char → Bool) (root : Node) (start stop : Nat) : List Action :=
  match leafBefore 0 (min (start + 1) (len8 (text root))) root with
  | none => []
  | some path => wrapActions proseAt path start stop ++ climb punct (text root) false false path

/-- `to_lsp_range`, location.rs:174-186, of an edit. -/
def Edit.toLsp (enc : Encoding) (doc : Text) (e : Edit) : Option Change := do
  let a ← Position.toLsp enc doc e.start
  let b ← Position.toLsp enc doc e.stop
  pure ⟨some (a, b), e.text⟩

/-- `CodeActionRequest::request`, tinymist-query/src/code_action.rs:72-82: no answer if there are no actions. A position that
cannot be shown would be a panic; this is also `none` here. -/
def request (enc : Encoding) (proseAt : List (Nat × Node) → Bool) (punct : Char → Bool) (root : Node)
    (range : (Nat × Nat) × (Nat × Nat)) : Option (List (Title × List Change)) := do
  let r ← toTypstRange enc (text root) range
  let actions := work proseAt punct root r.1 r.2
  if actions.isEmpty then none
  else actions.mapM fun a => (a.edits.mapM (Edit.toLsp enc (text root))).map fun cs => (a.title, cs)

end Tinymist.CodeAction
