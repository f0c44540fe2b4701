/-!
# From a click to the source, from a cursor to the page

Models crates/tinymist-query/src/jump.rs: `jump_from_click`, `jump_from_cursor` and `find_in_frame`.

Simplifications: lengths are integers and not floating point numbers; the transformation of a group is not modelled, as
the code does not handle it either (lines 37 and 173); what typst knows of a span (its file, its raw number, the kind of
its node) is a parameter.
-/

namespace Tinymist.Click

/-- A point of a page. -/
structure Pt where
  x : Int
  y : Int
  deriving DecidableEq, Repr

/-- A glyph: its advance, its span with the offset, and the length of its text. -/
structure Glyph (S : Type) where
  width : Int
  span : S
  offset : Nat
  len : Nat
  deriving DecidableEq, Repr

/-- An item of a frame with its position (crates/tinymist-query/src/jump.rs:34-90). -/
inductive Item (S : Type) where
  | group (pos : Pt) (items : List (Item S))
  | text (pos : Pt) (size : Int) (glyphs : List (Glyph S))
  /-- A shape: the size of a rectangle, nothing for other geometries. -/
  | shape (pos : Pt) (rect : Option (Int × Int)) (span : S)
  | image (pos : Pt) (size : Int × Int) (span : S)
  | link (pos : Pt) (size : Int × Int)
  | tag

/-- What typst knows of spans. -/
structure Spans (S : Type) where
  /-- `span.id()`. -/
  file : S → Option Nat
  /-- Whether the node of the span is a text, if `world.source` and `source.find` find it
  (crates/tinymist-query/src/jump.rs:54-56). -/
  isText : S → Option Bool
  /-- `into_raw` (crates/tinymist-query/src/jump.rs:192-193). -/
  raw : S → Nat

section

variable {S : Type}

/-- `is_in_rect` (crates/tinymist-query/src/jump.rs:210-212). -/
def inRect (pos : Pt) (size : Int × Int) (click : Pt) : Bool :=
  decide (pos.x ≤ click.x) && decide (pos.x + size.1 ≥ click.x) && decide (pos.y ≤ click.y) && decide (pos.y + size.2 ≥ click.y)

/-- How the look at one item ends: a target is found, the whole frame is given up, or the next item is looked at. -/
inductive Hit (S : Type) where
  | found (span : S) (offset : Nat)
  | stop
  | miss
  deriving DecidableEq, Repr

/-- The glyphs of a text (crates/tinymist-query/src/jump.rs:44-71). The `continue` of line 53 also leaves out line 70. -/
def clickGlyphs (w : Spans S) (size : Int) (click : Pt) (pos : Pt) : List (Glyph S) → Hit S
  | [] => .miss
  | g :: rest =>
    if inRect ⟨pos.x, pos.y - size⟩ (g.width, size) click then
      match w.file g.span with
      | none => clickGlyphs w size click pos rest
      | some _ =>
        match w.isText g.span with
        | none => .stop
        | some t => .found g.span (if t && decide (2 * (click.x - pos.x) > g.width) then g.offset + g.len else g.offset)
    else clickGlyphs w size click ⟨pos.x + g.width, pos.y⟩ rest

/-- The links (crates/tinymist-query/src/jump.rs:24-31). -/
def onLink (click : Pt) : Item S → Bool
  | .link pos size => inRect pos size click
  | _ => false

mutual
/-- One item (crates/tinymist-query/src/jump.rs:35-90). A group is a frame of its own (lines 36-41). -/
def clickItem (w : Spans S) (click : Pt) : Item S → Hit S
  | .group pos items =>
    if items.any (onLink ⟨click.x - pos.x, click.y - pos.y⟩) then .miss
    else
      match clickItems w ⟨click.x - pos.x, click.y - pos.y⟩ items with
      | .found s o => .found s o
      | .stop => .miss
      | .miss => .miss
  | .text pos size glyphs => clickGlyphs w size click pos glyphs
  | .shape pos (some size) span => if inRect pos size click then .found span 0 else .miss
  | .shape _ none _ => .miss
  | .image pos size span => if inRect pos size click then .found span 0 else .miss
  | .link _ _ => .miss
  | .tag => .miss

/-- The items of a frame from the last to the first (crates/tinymist-query/src/jump.rs:34). -/
def clickItems (w : Spans S) (click : Pt) : List (Item S) → Hit S
  | [] => .miss
  | i :: rest =>
    match clickItems w click rest with
    | .found s o => .found s o
    | .stop => .stop
    | .miss => clickItem w click i
end

/-- `jump_from_click` (crates/tinymist-query/src/jump.rs:18-94): the span and the offset, which are both ends of the
range. -/
def jumpFromClick (w : Spans S) (frame : List (Item S)) (click : Pt) : Option (S × Nat) :=
  if frame.any (onLink click) then none
  else
    match clickItems w click frame with
    | .found s o => some (s, o)
    | .stop => none
    | .miss => none

/-- The closest glyph so far: `min_dis` and `res` (crates/tinymist-query/src/jump.rs:134-136). -/
structure Near where
  dis : Nat
  at_ : Pt
  deriving DecidableEq, Repr

variable [DecidableEq S]

/-- `abs_diff` (crates/tinymist-query/src/jump.rs:194). -/
def absDiff (a b : Nat) : Nat := (a - b) + (b - a)

/-- The glyphs of a text (crates/tinymist-query/src/jump.rs:180-201). -/
def findGlyphs (w : Spans S) (span : S) (pos : Pt) (near : Near) : List (Glyph S) → Option Pt × Near
  | [] => (none, near)
  | g :: rest =>
    if g.span = span then (some pos, near)
    else
      let near' :=
        if w.file g.span = w.file span ∧ absDiff (w.raw g.span) (w.raw span) < near.dis then
          { dis := absDiff (w.raw g.span) (w.raw span), at_ := pos }
        else near
      findGlyphs w span ⟨pos.x + g.width, pos.y⟩ near' rest

mutual
/-- An item (crates/tinymist-query/src/jump.rs:172-202). The position of a group is only added to a point that is found
exactly (line 175). -/
def findItem (w : Spans S) (span : S) (near : Near) : Item S → Option Pt × Near
  | .group pos items =>
    match findItems w span near items with
    | (some p, n) => (some ⟨p.x + pos.x, p.y + pos.y⟩, n)
    | (none, n) => (none, n)
  | .text pos _ glyphs => findGlyphs w span pos near glyphs
  | .shape _ _ _ => (none, near)
  | .image _ _ _ => (none, near)
  | .link _ _ => (none, near)
  | .tag => (none, near)

/-- `find_in_frame` (crates/tinymist-query/src/jump.rs:170-206). -/
def findItems (w : Spans S) (span : S) (near : Near) : List (Item S) → Option Pt × Near
  | [] => (none, near)
  | i :: rest =>
    match findItem w span near i with
    | (some p, n) => (some p, n)
    | (none, n) => findItems w span n rest
end

/-- The state of the loop over the pages: `positions`, `min_page`, `min_point` and `min_dis`
(crates/tinymist-query/src/jump.rs:130-136). -/
structure Pages where
  positions : List (Nat × Pt)
  page : Nat
  near : Near
  deriving DecidableEq, Repr

/-- The loop over the pages (crates/tinymist-query/src/jump.rs:138-153). -/
def findPages (w : Spans S) (span : S) (idx : Nat) (st : Pages) : List (List (Item S)) → Pages
  | [] => st
  | frame :: rest =>
    let r := findItems w span st.near frame
    let st' : Pages :=
      { positions :=
          match r.1 with
          | some p => st.positions ++ [(idx + 1, p)]
          | none => st.positions
        page := if r.2.dis ≠ st.near.dis then idx else st.page
        near := r.2 }
    findPages w span (idx + 1) st' rest

/-- `jump_from_cursor` (crates/tinymist-query/src/jump.rs:97-167). `leaf` is the leaf before the cursor: its span and
whether it is a text. `pages` is absent for a document without pages. -/
def jumpFromCursor (w : Spans S) (leaf : Option (S × Bool)) (pages : Option (List (List (Item S)))) : List (Nat × Pt) :=
  match leaf with
  | none => []
  | some (_, false) => []
  | some (span, true) =>
    match pages with
    | none => []
    | some ps =>
      let r := findPages w span 0 { positions := [], page := 0, near := { dis := 2 ^ 64 - 1, at_ := ⟨0, 0⟩ } } ps
      if r.positions = [] ∧ r.near.dis ≠ 2 ^ 64 - 1 then [(r.page + 1, r.near.at_)] else r.positions

end

end Tinymist.Click
