import Verif.Model.Format

/-!
# Correct edits, and the pairs of characters that break them
-/

namespace Tinymist.Format

open Tinymist.Position

/-- The edit turns the one text into the other. -/
def Turns (old new : Text) : Option ((Nat × Nat) × Text) → Prop
  | none => old = new
  | some ((a, b), w) => replaceRange old a b w = some new

/-- Two different characters whose UTF-8 encodings end in the same byte, such as
`é` and `ĩ`. -/
def Confusable (c d : Char) : Prop :=
  c ≠ d ∧ (Utf8.encodeChar c).getLast? = (Utf8.encodeChar d).getLast?

/-- After the text both have at the start, and before the text both have at
the end, the last characters are confusable. -/
def ConfusableEnds (old new : Text) : Prop :=
  ∃ p x y c d s, old = p ++ (x ++ c :: s) ∧ new = p ++ (y ++ d :: s) ∧
    (x ++ [c]).head? ≠ (y ++ [d]).head? ∧ Confusable c d

end Tinymist.Format
