import Verif.Model.Metrics

/-!
# What the metrics of a document should be
-/

namespace Tinymist.Metrics.Spec

variable {F S I P R : Type}

mutual
/-- The texts of an item in the order of the document. -/
def textsOf : Item F S → List (F × List (Mark S))
  | .text f gs => [(f, gs)]
  | .group items => textsIn items
  | .other => []

/-- The texts of items. -/
def textsIn : List (Item F S) → List (F × List (Mark S))
  | [] => []
  | i :: rest => textsOf i ++ textsIn rest
end

/-- The texts of a document with pages. -/
def texts (pages : List (List (Item F S))) : List (F × List (Mark S)) := pages.flatMap textsIn

/-- How many glyphs are set in a font. -/
def glyphs [DecidableEq F] (ts : List (F × List (Mark S))) (f : F) : Nat :=
  ((ts.filter (fun t => t.1 = f)).map (fun t => t.2.length)).sum

/-- The place a glyph comes from: the path of its file, and the line and column, counted from one, of the byte that is
the offset into the range of its span, or of the last byte of the range when the offset is beyond it. -/
def From (w : World F S I P R) (m : Mark S) (p : Place P) : Prop :=
  ∃ id lo hi l c, w.range m.span = some (id, lo, hi) ∧ w.lineColumn id (if lo + m.offset < hi then lo + m.offset else hi - 1) = some (l, c) ∧
    w.pathOf id = some p.path ∧ p.line = l + 1 ∧ p.column = c + 1

/-- A text whose first glyph has a place. -/
def Shows (w : World F S I P R) (t : F × List (Mark S)) (p : Place P) : Prop := ∃ g rest, t.2 = g :: rest ∧ From w g p

/-- The first of the texts in a font whose first glyph has a place, and that place. -/
def First (w : World F S I P R) (ts : List (F × List (Mark S))) (f : F) (p : Place P) : Prop :=
  ∃ pre gs post, ts = pre ++ (f, gs) :: post ∧ Shows w (f, gs) p ∧ ∀ t ∈ pre, t.1 = f → ∀ q, ¬ Shows w t q

/-- The ranges of glyphs are not empty. -/
def Proper (w : World F S I P R) : Prop := ∀ s id lo hi, w.range s = some (id, lo, hi) → lo < hi

end Tinymist.Metrics.Spec
