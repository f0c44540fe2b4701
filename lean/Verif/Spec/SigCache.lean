import Verif.Model.SigCache

/-!
# Histories of questions about signatures
-/

namespace Tinymist.SigCache

variable {W K V : Type}

/-- The worlds of the questions, in the order in which they begin: the question of lifetime `n` is the one at `n`. -/
def worlds (ops : List (Op W K)) : List W := ops.filterMap fun | .enter w => some w | _ => none

/-- One question after the other: it begins, asks for signatures one by one, and ends. -/
inductive OneByOne : Nat → List (Op W K) → Prop where
  | nil : OneByOne 0 []
  | next {n ops w} (ks : List K) : OneByOne n ops → OneByOne (n + 1) (ops ++ .enter w :: (ks.flatMap fun k => [.take n k, .read n]) ++ [.drop n])

end Tinymist.SigCache
