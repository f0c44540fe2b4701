import Verif.Model.Highlight
import Verif.Spec.Position
/-! What belongs to a loop. -/
namespace Tinymist.Highlight
open Position

/-- A loop. -/
def Loop (n : Node) : Prop := n.kind = .forLoop ∨ n.kind = .whileLoop

/-- A function or context expression: a jump cannot leave it. -/
def Fun (n : Node) : Prop := n.kind = .closure ∨ n.kind = .contextual

/-- A `break` or `continue`. -/
def Jump (n : Node) : Prop := n.kind = .loopBreak ∨ n.kind = .loopContinue

/-- `Sub n pre m post`: `m` is `n` or inside it, between the texts `pre` and `post` of `n`. -/
inductive Sub : Node → Text → Node → Text → Prop
  | refl (n) : Sub n [] n []
  | deep (n l c r pre m post) (h : n.children = l ++ c :: r) (hm : Sub c pre m post) :
      Sub n (textAll l ++ pre) m (post ++ textAll r)

/-- `Holds n pre m post`: `m` is inside `n`, and no loop or function in between is nearer to it. -/
inductive Holds : Node → Text → Node → Text → Prop
  | child (n l c r) (h : n.children = l ++ c :: r) : Holds n (textAll l) c (textAll r)
  | deep (n l c r pre m post) (h : n.children = l ++ c :: r) (hl : ¬ Loop c) (hf : ¬ Fun c) (hm : Holds c pre m post) :
      Holds n (textAll l ++ pre) m (post ++ textAll r)

/-- What is to be marked for the loop `n`: its keyword, at its beginning, and the jumps that leave or continue it. -/
def Marked (n : Node) (pre : Text) (m : Node) (post : Text) : Prop :=
  (∃ rest, n.children = m :: rest ∧ pre = [] ∧ post = textAll rest) ∨ (Holds n pre m post ∧ Jump m)

/-- The client's range `r` of `doc = pre ++ text ++ post` is that of `text`, with a hash sign if there is one before it. -/
inductive Shown (enc : Encoding) (doc : Text) : Text → Text → Text → (Nat × Nat) × (Nat × Nat) → Prop
  | hash (pre t post a b) (h1 : Pos enc doc a.1 a.2 ('#' :: t ++ post)) (h2 : Pos enc doc b.1 b.2 post) :
      Shown enc doc (pre ++ ['#']) t post (a, b)
  | plain (pre t post a b) (h : pre.getLast? ≠ some '#') (h1 : Pos enc doc a.1 a.2 (t ++ post))
      (h2 : Pos enc doc b.1 b.2 post) : Shown enc doc pre t post (a, b)

/-- A keyword: a word on one line. -/
def Word (t : Text) : Prop := t ≠ [] ∧ ∀ c ∈ t, c ≠ '\n' ∧ c ≠ '\r' ∧ c ≠ '#'

/-- What typst's parser guarantees: a loop begins with its keyword, and a jump is made of its keyword. -/
structure Parsed (root : Node) : Prop where
  loop : ∀ pre m post, Sub root pre m post → Loop m →
    ∃ k t rest, m.children = .leaf k t :: rest ∧ (k = .forKw ∨ k = .whileKw) ∧ Word t
  jump : ∀ pre m post, Sub root pre m post → Jump m →
    ∃ k t, m.children = [.leaf k t] ∧ (k = .breakKw ∨ k = .continueKw) ∧ Word t

end Tinymist.Highlight
