import Verif.Model.Sections

/-!
# The sections of a document
-/

namespace Tinymist.Sections

def Node.kind : Node → Kind
  | .item i _ => i.kind
  | .comment _ _ => .comment

/-- A node does not end the section of a heading of level `l`: it is no heading, or one of a deeper level. -/
def Inside (l : Nat) (n : Node) : Prop := ∀ k, n.kind = .heading k → l < k

/-- The trees that nest a document's nodes: a heading contains what is inside it and its section, which extends to the
next heading of the same or a higher rank; other items contain what is inside them. -/
inductive Nests : List Node → List Tree → Prop where
  | nil : Nests [] []
  | heading (i : Info) (l : Nat) (children section_ rest : List Node) (a b c : List Tree) :
      i.kind = .heading l → (∀ n ∈ section_, Inside l n) → (∀ n, rest.head? = some n → ¬ Inside l n) →
      Nests children a → Nests section_ b → Nests rest c →
      Nests (.item i children :: (section_ ++ rest)) (.node i (a ++ b) :: c)
  | other (i : Info) (children rest : List Node) (a c : List Tree) :
      (∀ l, i.kind ≠ .heading l) → Nests children a → Nests rest c →
      Nests (.item i children :: rest) (.node i a :: c)

mutual
/-- The items of a document in order. -/
def infos : List Node → List Info
  | [] => []
  | n :: ns => info n ++ infos ns

def info : Node → List Info
  | .item i children => i :: infos children
  | .comment start stop => [⟨[], .comment, start, stop⟩]
end

mutual
/-- The items of a forest, each before what it contains. -/
def preorder : List Tree → List Info
  | [] => []
  | t :: ts => preorder1 t ++ preorder ts

def preorder1 : Tree → List Info
  | .node i children => i :: preorder children
end

mutual
/-- Headings stand at the top or in blocks, and there are no comments. -/
def plainDoc : List Node → Bool
  | [] => true
  | n :: ns => plainNode n && plainDoc ns

def plainNode : Node → Bool
  | .item i children => plainDoc children && (i.kind = .block || noHeading children)
  | .comment _ _ => false

def noHeading : List Node → Bool
  | [] => true
  | n :: ns => (match n.kind with | .heading _ => false | _ => true) && noHeading ns
end

end Tinymist.Sections
