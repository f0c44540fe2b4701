import Verif.Model.Outline

/-!
# Sections, and the outline they ask for
-/

namespace Tinymist.Outline

mutual
/-- The nodes of a tree in reading order, each with its parent. -/
def entries (parent : Option Nat) : List Node → List (Option Nat × Nat)
  | [] => []
  | n :: ns => entriesOf parent n ++ entries parent ns

/-- A node and what is below it. -/
def entriesOf (parent : Option Nat) : Node → List (Option Nat × Nat)
  | .mk h cs => (parent, h.loc) :: entries (some h.loc) cs
end

/-- A document: for each heading in order its level and whether it is
bookmarked. -/
abbrev Levels := List (Nat × Bool)

/-- The headings of a document; the `i`-th is at location `i`. -/
def headings (ls : Levels) : List Heading := ls.zipIdx.map fun p => ⟨p.1.1, p.1.2, p.2⟩

/-- The `i`-th heading is bookmarked. -/
def Shown (ls : Levels) (i : Nat) : Prop := ∃ l, ls[i]? = some (l, true)

/-- The `j`-th heading is in the section of the `i`-th: it comes later, and all
headings after the `i`-th up to it are of larger level. -/
def InSection (ls : Levels) (i j : Nat) : Prop :=
  i < j ∧ ∃ p, ls[i]? = some p ∧ ∀ k q, i < k → k ≤ j → ls[k]? = some q → p.1 < q.1

/-- Where the `j`-th heading belongs: under the innermost bookmarked heading whose
section it is in. Of two sections that a heading is in the inner one begins
later. -/
def Belongs (ls : Levels) : Option Nat → Nat → Prop
  | none, j => ∀ i, Shown ls i → ¬ InSection ls i j
  | some i, j => Shown ls i ∧ InSection ls i j ∧ ∀ i', Shown ls i' → InSection ls i' j → i' ≤ i

end Tinymist.Outline
