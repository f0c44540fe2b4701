import Verif.Model.Position

/-!
# From the preview to the source

Models `resolve_span_range` (`crates/typst-preview/src/actor/render.rs` 182-247),
`PreviewCompileView::resolve_span` (`crates/tinymist/src/tool/preview/compile.rs`
170-192) and `send_show_document` (`tool/preview.rs` 604-626).
-/

namespace Tinymist.Jump

open Tinymist.Position

/-- A row and a column, `(usize, usize)`. -/
abbrev RowCol := Nat × Nat

/-- `a <= b` on tuples. -/
def le (a b : RowCol) : Bool := a.1 < b.1 || a.1 == b.1 && a.2 ≤ b.2

/-- `a.max(b)`. -/
def max (a b : RowCol) : RowCol := if le a b then b else a

/-- `a.min(b)`. -/
def min (a b : RowCol) : RowCol := if le a b then a else b

/-- `DocToSrcJumpInfo` (`lib.rs` 296-301). `P` is the type of file paths. -/
structure Info (P : Type) where
  filepath : P
  start : Option RowCol
  stop : Option RowCol
deriving DecidableEq

/-- What `world.source`, `source.find` and `path_for_id` know of a span: the path
and text of its file and the byte range of its node. -/
structure Element (P : Type) where
  filepath : P
  text : Text
  lo : Nat
  hi : Nat

/-- `resolve_off` (`compile.rs` 172-173). -/
def resolveOff (s : Text) (b : Nat) : Option RowCol :=
  (byteToLine (lines s) b).bind fun i => (byteToColumn (lines s) b).map fun c => (i, c)

variable {S P : Type} [DecidableEq P]

/-- `resolve_span` (`compile.rs` 170-192). -/
def resolveSpan (find : S → Option (Element P)) (span : S) (offset : Option Nat) : Option (Info P) :=
  (find span).map fun e =>
    let lo := match offset with
      | some off => if off < e.hi - e.lo then e.lo + off else e.lo
      | none => e.lo
    ⟨e.filepath, resolveOff e.text lo, resolveOff e.text e.hi⟩

/-- `matches!((&st.start, &st.end), (Some(x), Some(y)) if x <= y)`
(`render.rs` 193). -/
def ordered (i : Info P) : Bool :=
  match i.start, i.stop with
  | some x, some y => le x y
  | _, _ => false

/-- The combination of start and end (`render.rs` 190-207). -/
def combine : Option (Info P) → Option (Info P) → Option (Info P)
  | some st, some ed =>
    if st.filepath = ed.filepath ∧ ordered st = true then some ⟨st.filepath, st.start, ed.start⟩ else some ed
  | some i, none => some i
  | none, some i => some i
  | none, none => none

/-- The swap (`render.rs` 213-224). -/
def reorder (i : Info P) : Info P :=
  match i.start, i.stop with
  | some x, some y => if le y x then { i with start := some y, stop := some x } else i
  | _, _ => i

/-- The restriction to the range of the element (`render.rs` 227-246). -/
def restrict : Option (Info P) → Option (Info P) → Option (Info P)
  | some elem, some rng =>
    if elem.filepath = rng.filepath then
      let elemStart := elem.start.or elem.stop
      let elemEnd := elem.stop.or elemStart
      let rngStart := rng.start.or rng.stop
      let rngEnd := rng.stop.or rngStart
      match elemStart, rngStart, rngEnd, elemEnd with
      | some u, some a, some b, some v =>
        some { rng with start := some (min (max a u) v), stop := some (min (max b u) v) }
      | _, _, _, _ => some rng
    else some rng
  | none, some i => some i
  | some i, none => some i
  | none, none => none

/-- `resolve_span_range` (`render.rs` 182-247). -/
def resolveSpanRange (find : S → Option (Element P)) (start stop : S × Nat) : Option (Info P) :=
  restrict (resolveSpan find stop.1 none)
    ((combine (resolveSpan find start.1 (some start.2)) (resolveSpan find stop.1 (some stop.2))).map reorder)

/-- The range of `send_show_document` (`tool/preview.rs` 604-618). -/
def showRange (i : Info P) : Option (RowCol × RowCol) :=
  match i.start, i.stop with
  | some a, some b => some (a, b)
  | some a, none => some (a, a)
  | none, some a => some (a, a)
  | none, none => none

end Tinymist.Jump
