import Verif.Model.Click

/-!
# What is where on a page
-/

namespace Tinymist.Click.Spec

variable {S : Type}

/-- A box on a page that comes from the source: its left, top, width and height, and the targets of its left and of its
right half. -/
structure Box (S : Type) where
  left : Int
  top : Int
  width : Int
  height : Int
  near : S × Nat
  far : S × Nat

/-- A point is in a box, the border included. -/
def Box.Has (b : Box S) (p : Pt) : Prop :=
  b.left ≤ p.x ∧ p.x ≤ b.left + b.width ∧ b.top ≤ p.y ∧ p.y ≤ b.top + b.height

/-- The target of a point: that of the half it is in. -/
def Box.Target (b : Box S) (p : Pt) (t : S × Nat) : Prop :=
  (2 * (p.x - b.left) ≤ b.width ∧ t = b.near) ∨ (b.width < 2 * (p.x - b.left) ∧ t = b.far)

/-- The boxes of the glyphs of a text, one to the right of the other, above the baseline. A glyph of a text leads behind
its letters with its right half. -/
def glyphBoxes (w : Spans S) (size x y : Int) : List (Glyph S) → List (Box S)
  | [] => []
  | g :: rest =>
    { left := x, top := y - size, width := g.width, height := size, near := (g.span, g.offset),
      far := (g.span, if w.isText g.span = some true then g.offset + g.len else g.offset) } ::
      glyphBoxes w size (x + g.width) y rest

mutual
/-- The boxes of an item of a frame that is at a point, item by item in the order they are painted. -/
def layersOf (w : Spans S) (o : Pt) : Item S → List (List (Box S))
  | .group pos items => layers w ⟨o.x + pos.x, o.y + pos.y⟩ items
  | .text pos size glyphs => [glyphBoxes w size (o.x + pos.x) (o.y + pos.y) glyphs]
  | .shape pos (some size) span => [[⟨o.x + pos.x, o.y + pos.y, size.1, size.2, (span, 0), (span, 0)⟩]]
  | .shape _ none _ => []
  | .image pos size span => [[⟨o.x + pos.x, o.y + pos.y, size.1, size.2, (span, 0), (span, 0)⟩]]
  | .link _ _ => []
  | .tag => []

/-- The boxes of a frame. -/
def layers (w : Spans S) (o : Pt) : List (Item S) → List (List (Box S))
  | [] => []
  | i :: rest => layersOf w o i ++ layers w o rest
end

mutual
/-- Nothing in the item is a link, and every glyph comes from a file that is there. -/
def Plain (w : Spans S) : Item S → Prop
  | .group _ items => PlainAll w items
  | .text _ _ glyphs => ∀ g ∈ glyphs, (∃ f, w.file g.span = some f) ∧ ∃ t, w.isText g.span = some t
  | .shape _ _ _ => True
  | .image _ _ _ => True
  | .link _ _ => False
  | .tag => True

/-- The same for all items of a frame. -/
def PlainAll (w : Spans S) : List (Item S) → Prop
  | [] => True
  | i :: rest => Plain w i ∧ PlainAll w rest
end

/-- The box on top at a point: no box of an item painted later has the point, and no box to the left in the same text. -/
def OnTop (ls : List (List (Box S))) (p : Pt) (b : Box S) : Prop :=
  ∃ below left right above, ls = below ++ (left ++ b :: right) :: above ∧ b.Has p ∧
    (∀ l ∈ above, ∀ c ∈ l, ¬ c.Has p) ∧ ∀ c ∈ left, ¬ c.Has p

/-! ## Glyphs -/

/-- The glyphs of a text with the points where they start. -/
def glyphPoints (x y : Int) : List (Glyph S) → List (Pt × S)
  | [] => []
  | g :: rest => (⟨x, y⟩, g.span) :: glyphPoints (x + g.width) y rest

mutual
/-- The glyphs of an item of a frame that is at a point, in the order of the frame. -/
def pointsOf (o : Pt) : Item S → List (Pt × S)
  | .group pos items => points ⟨o.x + pos.x, o.y + pos.y⟩ items
  | .text pos _ glyphs => glyphPoints (o.x + pos.x) (o.y + pos.y) glyphs
  | .shape _ _ _ => []
  | .image _ _ _ => []
  | .link _ _ => []
  | .tag => []

/-- The glyphs of a frame. -/
def points (o : Pt) : List (Item S) → List (Pt × S)
  | [] => []
  | i :: rest => pointsOf o i ++ points o rest
end

/-- The first point in a list with some property. -/
def FirstAt (P : Pt × S → Prop) (l : List (Pt × S)) (p : Pt × S) : Prop :=
  ∃ pre post, l = pre ++ p :: post ∧ P p ∧ ∀ q ∈ pre, ¬ P q

mutual
/-- No group is moved. -/
def Still : Item S → Prop
  | .group pos items => pos = ⟨0, 0⟩ ∧ StillAll items
  | .text _ _ _ => True
  | .shape _ _ _ => True
  | .image _ _ _ => True
  | .link _ _ => True
  | .tag => True

/-- The same for all items of a frame. -/
def StillAll : List (Item S) → Prop
  | [] => True
  | i :: rest => Still i ∧ StillAll rest
end

/-- All glyphs of a document with the numbers of their pages. -/
def everywhere (pages : List (List (Item S))) : List (Nat × Pt × S) :=
  (pages.zipIdx 1).flatMap (fun (frame, n) => (points ⟨0, 0⟩ frame).map (fun p => (n, p.1, p.2)))

/-- How far apart two spans are in the tree of a file. -/
def apart (w : Spans S) (a b : S) : Nat := (w.raw a - w.raw b) + (w.raw b - w.raw a)

/-- The first glyph of those of the file that are closest. -/
def Closest (w : Spans S) (span : S) (all : List (Nat × Pt × S)) (n : Nat) (p : Pt) : Prop :=
  ∃ pre s post, all = pre ++ (n, p, s) :: post ∧ w.file s = w.file span ∧
    (∀ q ∈ pre, w.file q.2.2 = w.file span → apart w s span < apart w q.2.2 span) ∧
    (∀ q ∈ post, w.file q.2.2 = w.file span → apart w s span ≤ apart w q.2.2 span)

end Tinymist.Click.Spec
