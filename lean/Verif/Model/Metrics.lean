/-!
# Metrics of a document: the fonts it uses

Models crates/tinymist-query/src/document_metrics.rs: which fonts the texts of the pages use, how often, and where each of
them is used first.

Simplifications: the sources, the ranges of the spans and the conversion of offsets to lines and columns are those of
typst and are parameters; the names and the variant that stand in a font are left out; the `HashMap` of fonts
(line 136) is a list with one entry per font, and the order of the answer is the order of that list, where the real one
is arbitrary.
-/

namespace Tinymist.Metrics

/-- A place in a file as the answer gives it (crates/tinymist-query/src/document_metrics.rs:68-76): path, line, column. -/
structure Place (P : Type) where
  path : P
  line : Nat
  column : Nat
  deriving DecidableEq, Repr

/-- The span of a glyph: `(Span, u16)` (crates/tinymist-query/src/document_metrics.rs:183). -/
structure Mark (S : Type) where
  span : S
  offset : Nat
  deriving DecidableEq, Repr

/-- `FrameItem` (crates/tinymist-query/src/document_metrics.rs:161-170): a text in a font with the spans of its glyphs, a
group of items, or something else. -/
inductive Item (F S : Type) where
  | text (font : F) (glyphs : List (Mark S))
  | group (items : List (Item F S))
  | other

/-- A compiled document (crates/tinymist-query/src/document_metrics.rs:141-150): pages of items, or not paged. -/
inductive Document (F S : Type) where
  | paged (pages : List (List (Item F S)))
  | html

/-- What is asked of the world (crates/tinymist-query/src/document_metrics.rs:205-219, 236). -/
structure World (F S I P R : Type) where
  /-- `span.id()`, `world.source(..)`, `source.range(span)`: the file and the range of a span. -/
  range : S → Option (I × Nat × Nat)
  /-- `source.byte_to_line` and `source.byte_to_column`. -/
  lineColumn : I → Nat → Option (Nat × Nat)
  /-- `path_for_id`. -/
  pathOf : I → Option P
  /-- `font_info`: where a font comes from. -/
  origin : F → Option R

/-- `FontInfoValue` (crates/tinymist-query/src/document_metrics.rs:124-130). The three fields of the place are always set
together (lines 189-194). -/
structure Value (P : Type) where
  uses : Nat
  first : Option (Place P)
  deriving DecidableEq, Repr

section

variable {F S I P R : Type} [DecidableEq F] [DecidableEq R]

/-- `source_code_file_line` (crates/tinymist-query/src/document_metrics.rs:205-219). `range.end - 1` is taken as zero for
an empty range at the start of a file, which no glyph has. -/
def place (w : World F S I P R) (m : Mark S) : Option (Place P) :=
  match w.range m.span with
  | none => none
  | some (id, lo, hi) =>
    match w.lineColumn id (min (lo + m.offset) (hi - 1)) with
    | none => none
    | some (l, c) =>
      match w.pathOf id with
      | none => none
      | some p => some { path := p, line := l + 1, column := c + 1 }

/-- The entry of a font in the map. -/
def get (m : List (F × Value P)) (f : F) : Option (Value P) := m.lookup f

/-- `HashMap::insert`. -/
def set (m : List (F × Value P)) (f : F) (v : Value P) : List (F × Value P) :=
  (f, v) :: m.filter (fun e => e.1 ≠ f)

/-- `work_text` (crates/tinymist-query/src/document_metrics.rs:172-203). `none` is the whole request being given up. -/
def workText (w : World F S I P R) (m : List (F × Value P)) (f : F) (glyphs : List (Mark S)) : Option (List (F × Value P)) :=
  let old := (get m f).getD { uses := 0, first := none }
  let first :=
    match old.first with
    | some p => some p
    | none =>
      match glyphs with
      | [] => none
      | g :: _ => place w g
  if old.uses + glyphs.length % 2 ^ 32 < 2 ^ 32 then
    some (set m f { uses := old.uses + glyphs.length % 2 ^ 32, first := first })
  else none

mutual
/-- `work_elem` (crates/tinymist-query/src/document_metrics.rs:161-170). -/
def workItem (w : World F S I P R) (m : List (F × Value P)) : Item F S → Option (List (F × Value P))
  | .text f glyphs => workText w m f glyphs
  | .group items => workItems w m items
  | .other => some m

/-- `work_frame` (crates/tinymist-query/src/document_metrics.rs:153-159). -/
def workItems (w : World F S I P R) (m : List (F × Value P)) : List (Item F S) → Option (List (F × Value P))
  | [] => some m
  | i :: rest =>
    match workItem w m i with
    | none => none
    | some m' => workItems w m' rest
end

/-- The pages of a document (crates/tinymist-query/src/document_metrics.rs:142-148). -/
def workPages (w : World F S I P R) (m : List (F × Value P)) : List (List (Item F S)) → Option (List (F × Value P))
  | [] => some m
  | p :: rest =>
    match workItems w m p with
    | none => none
    | some m' => workPages w m' rest

/-- `work` (crates/tinymist-query/src/document_metrics.rs:140-151). -/
def work (w : World F S I P R) : Document F S → Option (List (F × Value P))
  | .paged pages => workPages w [] pages
  | .html => none

/-- An entry of the answer (crates/tinymist-query/src/document_metrics.rs:35-77, 238-254). -/
structure Info (F P : Type) where
  font : F
  uses : Nat
  first : Option (Place P)
  /-- An index into the sources of the answer. -/
  source : Option Nat
  deriving DecidableEq, Repr

/-- `internal_source` (crates/tinymist-query/src/document_metrics.rs:221-229): the number of a source, which is added
when it is new. `span_info` is the inverse of `span_info2`. -/
def number (sources : List R) (r : R) : Nat × List R :=
  if r ∈ sources then (sources.idxOf r, sources) else (sources.length, sources ++ [r])

/-- `compute` (crates/tinymist-query/src/document_metrics.rs:231-259). -/
def compute (w : World F S I P R) : List (F × Value P) → List R → List (Info F P) × List R
  | [], sources => ([], sources)
  | (f, v) :: rest, sources =>
    match w.origin f with
    | none =>
      let r := compute w rest sources
      ({ font := f, uses := v.uses, first := v.first, source := none } :: r.1, r.2)
    | some o =>
      let n := number sources o
      let r := compute w rest n.2
      ({ font := f, uses := v.uses, first := v.first, source := some n.1 } :: r.1, r.2)

/-- `DocumentMetricsRequest::request` (crates/tinymist-query/src/document_metrics.rs:101-121). There is no answer without
a document that compiled. -/
def request (w : World F S I P R) (doc : Option (Document F S)) : Option (List (Info F P) × List R) :=
  match doc with
  | none => none
  | some d =>
    match work w d with
    | none => none
    | some m => some (compute w m [])

end

end Tinymist.Metrics
