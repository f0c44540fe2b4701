import Verif.Model.Jump

/-!
# Positions inside an element
-/

namespace Tinymist.Jump

open Tinymist.Position

/-- `a` is at or before `b`: rows first. -/
def Le (a b : RowCol) : Prop := a.1 < b.1 ∨ a.1 = b.1 ∧ a.2 ≤ b.2

/-- The row and column of the place before `post` in the text `pre ++ post`:
full lines before it, and characters on its line. -/
def Place (pre post : Text) (p : RowCol) : Prop := toLsp .utf8 (pre ++ post) (len8 pre) = some p

/-- An element as the parser makes it: a piece of the text of its file. -/
def Element.Proper {P : Type} (e : Element P) : Prop :=
  ∃ pre mid post, e.text = pre ++ mid ++ post ∧ e.lo = len8 pre ∧ e.hi = len8 (pre ++ mid)

/-- Row and column lie inside the element. -/
def Element.Holds {P : Type} (e : Element P) (p : RowCol) : Prop :=
  ∃ pre mid post u v, e.text = pre ++ mid ++ post ∧ e.lo = len8 pre ∧ e.hi = len8 (pre ++ mid) ∧
    Place pre (mid ++ post) u ∧ Place (pre ++ mid) post v ∧ Le u p ∧ Le p v

end Tinymist.Jump
