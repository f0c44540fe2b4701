import Verif.Model.Folding

/-!
# The lexical hierarchy

Models `get_lexical_hierarchy` (`crates/tinymist-query/src/syntax/lexical_hierarchy.rs` 14-46, 219-420) and the document
symbols made from it (`document_symbol.rs` 44-75). It is what the outline of a document and the folding ranges are made
from.

The syntax tree is given by the nodes that make an item, with the nodes inside them in the order in which they are
visited; nodes that make none are replaced by the nodes inside them. Which nodes make an item is left out (454-535): it
depends on whether the hierarchy is for the outline or for folding. A closure makes an item like any other (364-399): its
name is taken back and replaced by an item of the same name that contains the body.
-/

namespace Tinymist.Sections

open Folding (Loc)

/-- `LexicalKind` (`lexical_hierarchy.rs` 70-76). `symbol`: `Var`. -/
inductive Kind where
  | heading (level : Nat)
  | symbol
  | block
  | comment
deriving DecidableEq, Repr

/-- `LexicalInfo` (`lexical_hierarchy.rs` 130-135). -/
structure Info where
  name : List Char
  kind : Kind
  start : Loc
  stop : Loc
deriving DecidableEq

/-- A node of the syntax tree: one that makes an item (`get_ident`), or a group of comments, which is found when the node
after it is reached (`check_nodes`, 255-291). -/
inductive Node where
  | item (info : Info) (children : List Node)
  | comment (start stop : Loc)

/-- `LexicalInfo` of a group of comments (`lexical_hierarchy.rs` 259-283). -/
def commentInfo (start stop : Loc) : Info := ⟨[], .comment, start, stop⟩

/-- `LexicalHierarchy` (`lexical_hierarchy.rs` 137-141). -/
inductive Tree where
  | node (info : Info) (children : List Tree)

/-- An entry of the worker's stack (`lexical_hierarchy.rs` 222). -/
abbrev Frame := Info × List Tree

/-- `finish_hierarchy` (`lexical_hierarchy.rs` 231-237): the top of the stack becomes the last child of the one below. -/
def attach (below top : Frame) : Frame := (below.1, below.2 ++ [.node top.1 top.2])

/-- Finish until the stack has at most `n` entries, or one; the top is given apart. -/
def finishTo (n : Nat) (top : Frame) : List Frame → Frame × List Frame
  | [] => (top, [])
  | p :: rest => if rest.length + 2 ≤ n then (top, p :: rest) else finishTo n (attach p top) rest

/-- Where `'heading_break` stops (`lexical_hierarchy.rs` 301-307). -/
def stops (level : Nat) : Kind → Bool
  | .heading l => l < level
  | .block => true
  | _ => false

/-- The loop `'heading_break` (`lexical_hierarchy.rs` 301-310). -/
def breakTo (level : Nat) (top : Frame) : List Frame → Frame × List Frame
  | [] => (top, [])
  | p :: rest => if stops level top.1.kind then (top, p :: rest) else breakTo level (attach p top) rest

/-- A stack that is never empty. -/
abbrev Stack := Frame × List Frame

def Stack.height (s : Stack) : Nat := s.2.length + 1

/-- Before an item is pushed (`lexical_hierarchy.rs` 300-311). -/
def open_ (k : Kind) (s : Stack) : Stack :=
  match k with
  | .heading l => breakTo l s.1 s.2
  | _ => s

/-- `self.stack.push((symbol, eco_vec![]))`. -/
def push (i : Info) (s : Stack) : Stack := ((i, []), s.1 :: s.2)

/-- After the nodes inside an item were visited (`lexical_hierarchy.rs` 321-329); `n` is the height of the stack with the
item. A heading stays on the stack. -/
def close (k : Kind) (n : Nat) (s : Stack) : Stack :=
  match k with
  | .heading _ => finishTo n s.1 s.2
  | _ => finishTo (n - 1) s.1 s.2

mutual
/-- `check_node` (`lexical_hierarchy.rs` 294-420). -/
def check : Node → Stack → Stack
  | .item i children, s =>
    close i.kind (push i (open_ i.kind s)).height (checks children (push i (open_ i.kind s)))
  | .comment start stop, s => push (commentInfo start stop) s

/-- `check_nodes` (`lexical_hierarchy.rs` 255-291). -/
def checks : List Node → Stack → Stack
  | [], s => s
  | n :: ns, s => checks ns (check n s)
end

/-- The entry at the bottom of the stack (`lexical_hierarchy.rs` 25-32): a heading of level -1, which is never finished. -/
def bottom : Frame := (⟨[], .block, ⟨0, 0⟩, ⟨0, 0⟩⟩, [])

/-- `get_lexical_hierarchy` (`lexical_hierarchy.rs` 14-46). -/
def hierarchy (doc : List Node) : List Tree :=
  (finishTo 1 (checks doc (bottom, [])).1 (checks doc (bottom, [])).2).1.2

/-- `TryFrom<LexicalKind> for SymbolKind` (`lexical_hierarchy.rs` 93-105). -/
def isSymbol : Kind → Bool
  | .heading _ => true
  | .symbol => true
  | _ => false

mutual
/-- `symbols_in_hierarchy` (`document_symbol.rs` 44-75): what is not a symbol is left out with all that is in it. -/
def symbols : List Tree → List Tree
  | [] => []
  | t :: ts => symbol t ++ symbols ts

def symbol : Tree → List Tree
  | .node i children => if isSymbol i.kind then [.node i (symbols children)] else []
end

/-- The outline of a document. -/
def outline (doc : List Node) : List Tree := symbols (hierarchy doc)

def foldKind : Kind → Folding.Kind
  | .heading _ => .heading
  | .comment => .comment
  | _ => .other

mutual
/-- A hierarchy as `calc_folding_range` sees it. -/
def items : List Tree → List Folding.Item
  | [] => []
  | t :: ts => item t :: items ts

def item : Tree → Folding.Item
  | .node i children => .mk (foldKind i.kind) i.start i.stop (items children)
end

/-- The folding ranges of a document, as lines. -/
def foldLines (lineFoldingOnly : Bool) (eof : Loc) (doc : List Node) : List Folding.Lines :=
  Folding.request lineFoldingOnly eof (items (hierarchy doc))

end Tinymist.Sections
