import Verif.Model.Position
/-!
# Document highlight

Models `crates/tinymist-query/src/analysis/doc_highlight.rs` and `document_highlight.rs`: with the cursor on a loop's keyword, a
`break` or a `continue`, the loop and everything that leaves or continues it is marked. The syntax tree belongs to typst: tokens
with their text and nodes with children, each with a kind. `LinkedNode::leaf_at` is modelled by its source (typst-syntax 0.13.1),
as in `Model/Selection`.
-/
namespace Tinymist.Highlight
open Position

/-- The kinds of nodes looked at, `SyntaxKind`. -/
inductive Kind where
  | forKw | whileKw | breakKw | continueKw | returnKw | otherKw
  | loopBreak | loopContinue | forLoop | whileLoop | closure | contextual | arrow | params | funcReturn | other
  deriving DecidableEq, Repr

inductive Node where
  | leaf (kind : Kind) (text : Text)
  | inner (kind : Kind) (children : List Node)

def Node.kind : Node → Kind
  | .leaf k _ => k
  | .inner k _ => k

def Node.children : Node → List Node
  | .leaf _ _ => []
  | .inner _ cs => cs

mutual
/-- `SyntaxNode::into_text`. -/
def text : Node → Text
  | .leaf _ t => t
  | .inner _ cs => textAll cs
def textAll : List Node → Text
  | [] => []
  | c :: cs => text c ++ textAll cs
end

mutual
/-- The number of nodes. -/
def size : Node → Nat
  | .leaf _ _ => 1
  | .inner _ cs => 1 + sizeAll cs
def sizeAll : List Node → Nat
  | [] => 0
  | c :: cs => size c + sizeAll cs
end

mutual
/-- `LinkedNode::leaf_at(cursor, Side::Before)` of a node at byte `off`: the leaf and the nodes around it up to this one, with
their offsets. -/
def leafBefore (off cursor : Nat) : Node → Option (List (Nat × Node))
  | .leaf k t => if cursor ≤ off + len8 t then some [(off, .leaf k t)] else none
  | .inner k cs =>
    if cs.isEmpty ∧ cursor ≤ off then some [(off, .inner k cs)]
    else (leafIn off cursor cs).map (· ++ [(off, .inner k cs)])
/-- Its loop over the children. -/
def leafIn (off cursor : Nat) : List Node → Option (List (Nat × Node))
  | [] => none
  | c :: cs =>
    if (off < cursor ∧ cursor ≤ off + len8 (text c)) ∨ (off = cursor ∧ cs.isEmpty) then leafBefore off cursor c
    else leafIn (off + len8 (text c)) cursor cs
end

/-- `LinkedNode::children`: with offsets. -/
def childrenAt (off : Nat) : List Node → List (Nat × Node)
  | [] => []
  | c :: cs => (off, c) :: childrenAt (off + len8 (text c)) cs

/-- `SyntaxKind::is_keyword`. -/
def Kind.isKeyword : Kind → Bool
  | .forKw | .whileKw | .breakKw | .continueKw | .returnKw | .otherKw => true
  | _ => false

/-- What `work_loop` looks for, doc_highlight.rs:53-64: the nearest loop, unless a function is nearer. -/
def nearestLoop : List (Nat × Node) → Option (Nat × Node)
  | [] => none
  | x :: rest =>
    if x.2.kind = .contextual ∨ x.2.kind = .closure then none
    else if x.2.kind = .forLoop ∨ x.2.kind = .whileLoop then some x
    else nearestLoop rest

/-- `annotate`, doc_highlight.rs:83-96: the range of a node, with a hash right before it. A byte `#` is the character. -/
def annotate (doc : Text) (x : Nat × Node) : Nat × Nat :=
  let start := if ((splitAtByte doc x.1).bind fun r => r.1.getLast?) = some '#' then x.1 - 1 else x.1
  (start, x.1 + len8 (text x.2))

/-- The nodes still to check, for the end of `check`. -/
def weight : List (Nat × Node) → Nat
  | [] => 0
  | x :: xs => size x.2 + weight xs

theorem weight_append (a b : List (Nat × Node)) : weight (a ++ b) = weight a + weight b := by
  induction a with
  | nil => simp [weight]
  | cons x a ih => simp [weight, ih]; omega

theorem weight_children (off : Nat) (cs : List Node) : weight (childrenAt off cs).reverse = sizeAll cs := by
  induction cs generalizing off with
  | nil => simp [childrenAt, weight, sizeAll]
  | cons c cs ih => simp [childrenAt, weight_append, weight, sizeAll, ih]; omega

theorem size_children (n : Node) : sizeAll n.children < size n := by
  cases n with
  | leaf => simp [Node.children, sizeAll, size]
  | inner => simp [Node.children, size]

/-- `check` with `check_loop`, doc_highlight.rs:98-135: the work list (its end first), and the nodes that are marked. -/
def check : List (Nat × Node) → List (Nat × Node)
  | [] => []
  | x :: rest =>
    if x.2.kind = .forLoop ∨ x.2.kind = .whileLoop ∨ x.2.kind = .closure ∨ x.2.kind = .contextual then check rest
    else if x.2.kind = .loopBreak ∨ x.2.kind = .loopContinue then x :: check rest
    else check ((childrenAt x.1 x.2.children).reverse ++ rest)
termination_by l => weight l
decreasing_by
  · rw [weight]; have : 0 < size x.2 := by cases x.2 <;> simp [size]; omega
    omega
  · rw [weight]; have : 0 < size x.2 := by cases x.2 <;> simp [size]; omega
    omega
  · rw [weight, weight_append, weight_children]; have := size_children x.2; omega

/-- `work_loop`, doc_highlight.rs:50-77. -/
def workLoop (doc : Text) (path : List (Nat × Node)) : Option (List (Nat × Nat)) := do
  let l ← nearestLoop path
  let keyword := (childrenAt l.1 l.2.children).find? fun c => c.2.kind.isKeyword
  some ((keyword.toList ++ check (childrenAt l.1 l.2.children).reverse).map (annotate doc))

/-- `work`, doc_highlight.rs:30-48, with `work_func`, 79-81. -/
def work (doc : Text) : List (Nat × Node) → Option (List (Nat × Nat))
  | [] => none
  | x :: rest =>
    match x.2.kind with
    | .forKw | .whileKw | .breakKw | .continueKw | .loopBreak | .loopContinue => workLoop doc (x :: rest)
    | .arrow | .params | .returnKw | .funcReturn | .contextual => none
    | _ => work doc rest

/-- `to_lsp_range`, location.rs:174-186. -/
def toLspRange (enc : Encoding) (s : Text) (r : Nat × Nat) : Option ((Nat × Nat) × (Nat × Nat)) := do
  let a ← toLsp enc s r.1
  let b ← toLsp enc s r.2
  pure (a, b)

/-- `DocumentHighlightRequest::request`, document_highlight.rs:19-29. A position that cannot be shown would be a panic; this is
also `none` here. -/
def request (enc : Encoding) (root : Node) (p : Nat × Nat) : Option (List ((Nat × Nat) × (Nat × Nat))) := do
  let cursor ← toTypst enc (text root) p.1 p.2
  let path ← leafBefore 0 cursor root
  let marked ← work (text root) path
  if marked.isEmpty then none else marked.mapM (toLspRange enc (text root))

end Tinymist.Highlight
