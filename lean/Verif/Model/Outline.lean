/-!
# The outline of the preview

Models `get_outline` (`crates/typst-preview/src/outline.rs` 25-97).
-/

namespace Tinymist.Outline

/-- What `get_outline` reads of a heading (`HeadingNode`, `outline.rs` 14-22;
`leaf` 100-123). `loc` identifies the heading and stands for its body, span and
position. -/
structure Heading where
  level : Nat
  bookmarked : Bool
  loc : Nat
deriving DecidableEq

/-- `HeadingNode` with its children. -/
inductive Node where
  | mk (h : Heading) (children : List Node)

/-- `HeadingNode::level`. -/
def Node.level : Node → Nat
  | .mk h _ => h.level

mutual
/-- The descent to the last child as long as `goes` holds of it, and the push
there (`outline.rs` 70-82). -/
def push (goes : Nat → Bool) (leaf : Heading) : List Node → List Node
  | [] => [.mk leaf []]
  | [n] => if goes n.level then [pushInto goes leaf n] else [n, .mk leaf []]
  | n :: m :: ns => n :: push goes leaf (m :: ns)

/-- `children = &mut children.last_mut().unwrap().children`. -/
def pushInto (goes : Nat → Bool) (leaf : Heading) : Node → Node
  | .mk h cs => .mk h (push goes leaf cs)
end

/-- The condition of the descent (`outline.rs` 70-72). -/
def goes (skipped : Option Nat) (level : Nat) (last : Nat) : Bool :=
  (match skipped with
    | none => true
    | some l => decide (last < l)) && decide (last < level)

/-- One heading (`outline.rs` 34-93). -/
def step (s : List Node × Option Nat) (h : Heading) : List Node × Option Nat :=
  if h.bookmarked then
    (push (goes s.2 h.level) h s.1, none)
  else
    match s.2 with
    | none => (s.1, some h.level)
    | some l => if h.level < l then (s.1, some h.level) else s

/-- `get_outline` (`outline.rs` 25-97). -/
def getOutline (hs : List Heading) : Option (List Node) :=
  let tree := (hs.foldl step ([], none)).1
  if tree.isEmpty then none else some tree

end Tinymist.Outline
