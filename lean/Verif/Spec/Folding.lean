import Verif.Model.Folding

/-!
# Elements that fold
-/

namespace Tinymist.Folding

/-- How many of the ranges start on a line. -/
def starting (l : List Lines) (n : Nat) : Nat := (l.filter (fun r => r.1 = n)).length

/-- No line has more than two elements starting on it, and a line after one with two has none. -/
def Spread (l : List Lines) : Prop := ∀ n, starting l n ≤ 2 ∧ (starting l n = 2 → starting l (n + 1) = 0)

/-- A range lies within another, short of at most its first and its last line. -/
def Within (a b : Lines) : Prop := (a.1 = b.1 ∨ a.1 = b.1 + 1) ∧ (a.2 = b.2 ∨ a.2 + 1 = b.2)

end Tinymist.Folding
