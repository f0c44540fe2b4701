import Verif.Model.TokenDelta
namespace Tinymist.TokenDelta

theorem commonLen_le_left (a b : List SemanticToken) : commonLen a b ≤ a.length := by
  unfold commonLen
  have := (List.takeWhile_sublist (fun p : SemanticToken × SemanticToken => p.1 == p.2) (l := a.zip b)).length_le
  simp at this; omega

theorem commonLen_le_right (a b : List SemanticToken) : commonLen a b ≤ b.length := by
  unfold commonLen
  have := (List.takeWhile_sublist (fun p : SemanticToken × SemanticToken => p.1 == p.2) (l := a.zip b)).length_le
  simp at this; omega

theorem commonLen_cons_eq (x : SemanticToken) (a b : List SemanticToken) :
    commonLen (x :: a) (x :: b) = commonLen a b + 1 := by
  simp [commonLen, List.takeWhile_cons]

theorem commonLen_cons_ne {x y : SemanticToken} (h : x ≠ y) (a b : List SemanticToken) :
    commonLen (x :: a) (y :: b) = 0 := by
  simp [commonLen, List.takeWhile_cons, h]

/-- The common prefix is indeed common. -/
theorem take_commonLen : ∀ (a b : List SemanticToken), a.take (commonLen a b) = b.take (commonLen a b)
  | [], b => by simp [commonLen]
  | _ :: _, [] => by simp [commonLen]
  | x :: a, y :: b => by
    by_cases h : x = y
    · subst h; rw [commonLen_cons_eq]; simp [take_commonLen a b]
    · rw [commonLen_cons_ne h]; simp

theorem commonLen_self (a : List SemanticToken) : commonLen a a = a.length := by
  induction a with
  | nil => simp [commonLen]
  | cons x a ih => rw [commonLen_cons_eq, ih]; simp

/-- The common suffix measured on the reversed lists is common. -/
theorem drop_common_suffix (a b : List SemanticToken) :
    a.drop (a.length - commonLen a.reverse b.reverse) =
      b.drop (b.length - commonLen a.reverse b.reverse) := by
  have h := congrArg List.reverse (take_commonLen a.reverse b.reverse)
  simpa [List.reverse_take] using h

end Tinymist.TokenDelta
