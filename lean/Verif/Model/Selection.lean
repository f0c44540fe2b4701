import Verif.Model.Position
/-!
# Selection ranges

Models `crates/tinymist-query/src/selection_range.rs`. The syntax tree belongs to typst: a token with its text, or a
node with children. `LinkedNode::leaf_at` with `Side::Before` (typst-syntax 0.13.1, called through
`crates/typst-shim/src/stable/syntax.rs:12-16`) is modelled by its source.
-/
namespace Tinymist.Selection
open Position

inductive Node where
  | leaf (text : Text)
  | inner (children : List Node)

mutual
/-- `SyntaxNode::into_text`. -/
def text : Node → Text
  | .leaf t => t
  | .inner cs => textAll cs
def textAll : List Node → Text
  | [] => []
  | c :: cs => text c ++ textAll cs
end

/-- A range of bytes. -/
abbrev Range := Nat × Nat

mutual
/-- `LinkedNode::leaf_at(cursor, Side::Before)` of a node at byte `off`: the ranges of the leaf and of the nodes around
it up to this one, as `range_for_node` collects them (selection_range.rs:48-61). -/
def leafBefore (off cursor : Nat) : Node → Option (List Range)
  | .leaf t => if cursor ≤ off + len8 t then some [(off, off + len8 t)] else none
  | .inner cs =>
    if cs.isEmpty ∧ cursor ≤ off then some [(off, off)]
    else (leafIn off cursor cs).map (· ++ [(off, off + len8 (textAll cs))])
/-- Its loop over the children. -/
def leafIn (off cursor : Nat) : List Node → Option (List Range)
  | [] => none
  | c :: cs =>
    if (off < cursor ∧ cursor ≤ off + len8 (text c)) ∨ (off = cursor ∧ cs.isEmpty) then leafBefore off cursor c
    else leafIn (off + len8 (text c)) cursor cs
end

/-- `to_lsp_range`, location.rs:174-186. -/
def toLspRange (enc : Encoding) (s : Text) (r : Range) : Option ((Nat × Nat) × (Nat × Nat)) := do
  let a ← toLsp enc s r.1
  let b ← toLsp enc s r.2
  pure (a, b)

/-- The body of the loop, selection_range.rs:37-40. -/
def answer (enc : Encoding) (tree : Node) (p : Nat × Nat) : Option (List ((Nat × Nat) × (Nat × Nat))) := do
  let b ← toTypst enc (text tree) p.1 p.2
  let rs ← leafBefore 0 (b + 1) tree
  rs.mapM (toLspRange enc (text tree))

/-- `SelectionRangeRequest::request`, selection_range.rs:30-44: the ranges from the innermost to the outermost, for each
position; nothing if one position has none. -/
def request (enc : Encoding) (tree : Node) (ps : List (Nat × Nat)) :
    Option (List (List ((Nat × Nat) × (Nat × Nat)))) :=
  ps.mapM (answer enc tree)

end Tinymist.Selection
