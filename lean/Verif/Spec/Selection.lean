import Verif.Model.Selection
import Verif.Spec.Position
/-! What the selection ranges at a position are. -/
namespace Tinymist.Selection
open Position

mutual
/-- Everything in the tree, outer before inner: the text before it and its own text. -/
def parts (pre : Text) : Node → List (Text × Text)
  | .leaf t => [(pre, t)]
  | .inner cs => (pre, textAll cs) :: partsAll pre cs
def partsAll (pre : Text) : List Node → List (Text × Text)
  | [] => []
  | c :: cs => parts pre c ++ partsAll (pre ++ text c) cs
end

/-- It contains the character that follows byte `b`. -/
def has (b : Nat) (x : Text × Text) : Bool := len8 x.1 ≤ b && b < len8 x.1 + len8 x.2

/-- What surrounds byte `b`, inner before outer. -/
def around (tree : Node) (b : Nat) : List (Text × Text) := ((parts [] tree).filter (has b)).reverse

/-- `r` is where the client finds `x` in the text `s`. -/
def Shows (enc : Encoding) (s : Text) (x : Text × Text) (r : (Nat × Nat) × (Nat × Nat)) : Prop :=
  toLsp enc s (len8 x.1) = some r.1 ∧ toLsp enc s (len8 x.1 + len8 x.2) = some r.2

/-- Line by line, then column by column. -/
def upTo (p q : Nat × Nat) : Prop := p.1 < q.1 ∨ p.1 = q.1 ∧ p.2 ≤ q.2

end Tinymist.Selection
