/-!
# Colors in a document

Models crates/tinymist-query/src/analysis/color_expr.rs, document_color.rs and color_presentation.rs: which calls in a
file are shown as colors, and which texts the client may put in their place.

Simplifications: a syntax tree has the calls, the nodes that are skipped and all others, each with its children; the
evaluation of a call on its own (`mini_eval`), the reading of a hexadecimal color and the printing of one belong to typst
and are parameters; a color is a value of a type `C`.
-/

namespace Tinymist.Colors

/-- The callee of a call (crates/tinymist-query/src/analysis/color_expr.rs:51-77): a name, a field of something that may
be a name, or something else. -/
inductive Callee where
  | ident (name : List Char)
  | field (target : Option (List Char)) (name : List Char)
  | other
  deriving DecidableEq, Repr

/-- An argument (crates/tinymist-query/src/analysis/color_expr.rs:82-96): a string, or something else. -/
inductive Arg where
  | str (s : List Char)
  | other
  deriving DecidableEq, Repr

/-- A call: `id` stands for the expression that is evaluated. -/
structure Call where
  callee : Callee
  args : List Arg
  range : Nat × Nat
  id : Nat
  deriving DecidableEq, Repr

/-- A node of the syntax tree. -/
inductive Node where
  | call (c : Call) (children : List Node)
  /-- Trivia, keywords and errors (crates/tinymist-query/src/analysis/color_expr.rs:38). -/
  | skipped (children : List Node)
  | other (children : List Node)

section

variable {C : Type}

/-- What belongs to typst. -/
structure Typst (C : Type) where
  /-- `mini_eval(..)?.cast().ok()?` of a call. -/
  eval : Nat → Option C
  /-- `Color::from_str`. -/
  hex : List Char → Option C

/-- The names of the functions (crates/tinymist-query/src/analysis/color_expr.rs:68-69). -/
def rgbName : List Char := ['r', 'g', 'b']
/-- The other names (crates/tinymist-query/src/analysis/color_expr.rs:69). -/
def constNames : List (List Char) :=
  [['l', 'u', 'm', 'a'], ['o', 'k', 'l', 'a', 'b'], ['o', 'k', 'l', 'c', 'h'],
    ['l', 'i', 'n', 'e', 'a', 'r', '-', 'r', 'g', 'b'], ['c', 'm', 'y', 'k'], ['h', 's', 'l'], ['h', 's', 'v']]
/-- The module (crates/tinymist-query/src/analysis/color_expr.rs:59). -/
def colorName : List Char := ['c', 'o', 'l', 'o', 'r']

/-- `on_rgb` (crates/tinymist-query/src/analysis/color_expr.rs:81-99). -/
def onRgb (t : Typst C) (c : Call) : Option C :=
  match c.args with
  | [] => none
  | [.str s] => t.hex s
  | [.other] => none
  | _ :: _ :: _ => t.eval c.id

/-- The name part of `on_call` (crates/tinymist-query/src/analysis/color_expr.rs:65-74). -/
def onName (t : Typst C) (c : Call) (name : List Char) : Option C :=
  if name = rgbName then onRgb t c
  else if name ∈ constNames then t.eval c.id
  else none

/-- `on_call` (crates/tinymist-query/src/analysis/color_expr.rs:49-79): the color that is pushed. The function itself
always returns `None`, so that the children of a call are always looked at. -/
def onCall (t : Typst C) (c : Call) : Option C :=
  match c.callee with
  | .ident n => onName t c n
  | .field (some target) n => if target = colorName then onName t c n else none
  | .field none _ => none
  | .other => none

mutual
/-- `work` (crates/tinymist-query/src/analysis/color_expr.rs:29-47). -/
def work (t : Typst C) : Node → List ((Nat × Nat) × C)
  | .call c children =>
    match onCall t c with
    | some v => (c.range, v) :: workAll t children
    | none => workAll t children
  | .skipped _ => []
  | .other children => workAll t children

/-- The children (crates/tinymist-query/src/analysis/color_expr.rs:42-44). -/
def workAll (t : Typst C) : List Node → List ((Nat × Nat) × C)
  | [] => []
  | n :: rest => work t n ++ workAll t rest
end

/-- A text that is offered for a color (crates/tinymist-query/src/color_presentation.rs:36-56): the hexadecimal digits in
quotes, or a call of a function with arguments that typst prints. -/
inductive Label where
  | quoted (hex : List Char)
  | rgbHex (hex : List Char)
  | printed (function : List Char) (color : C)

/-- `ColorPresentationRequest::request` (crates/tinymist-query/src/color_presentation.rs:36-56). The printed form of an
RGB color is `rgb("#..")`. -/
def presentations (toHex : C → List Char) (c : C) : List (Label (C := C)) :=
  [.quoted (toHex c), .rgbHex (toHex c), .printed ['l', 'u', 'm', 'a'] c, .printed ['o', 'k', 'l', 'a', 'b'] c,
    .printed ['o', 'k', 'l', 'c', 'h'] c, .rgbHex (toHex c),
    .printed ['c', 'o', 'l', 'o', 'r', '.', 'l', 'i', 'n', 'e', 'a', 'r', '-', 'r', 'g', 'b'] c,
    .printed ['c', 'm', 'y', 'k'] c, .printed ['c', 'o', 'l', 'o', 'r', '.', 'h', 's', 'l'] c,
    .printed ['c', 'o', 'l', 'o', 'r', '.', 'h', 's', 'v'] c]

end

end Tinymist.Colors
