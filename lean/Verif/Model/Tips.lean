import Verif.Model.Pointer

/-!
# What is said about an argument under the mouse

Models `tooltip_`, `named_param_tooltip`, `find_string_doc`, `font_tooltip` and `closure_tooltip` of
`crates/tinymist-analysis/src/upstream/tooltip.rs`. The leaf that `leaf_at_compat` finds is given as a place in the tree.

Parameters: what the library has under a name and what is known of its parameters (`library`, from typst), the text of a string
between its quotes without escapes (`unquote`), the fonts in the order of the book and lower case, the values sampled for an
expression (`sampled`, see `Sampled`), the names that typst's `CapturesVisitor` finds and their order. `plain_docs_sentence`
(see `DocText`) and `summarize_font_family` (see `FontSummary`) are left to be applied to what is found here.
-/

namespace Tinymist.Tips

open Mode (Kind trivia)
open Pointer

/-- `CastInfo` of typst: of values, only strings matter. -/
inductive CastInfo where
  | any
  | str (s docs : Text)
  | other
  | union (options : List CastInfo)

/-- `ParamInfo` of typst, as far as it is used. -/
structure Param where
  docs : Text
  input : CastInfo

/-- The parameters of a function by their names: `Func::param`. -/
abbrev Func := Text → Option Param

/-- What is known outside of the file. -/
structure World where
  /-- the functions in `library().global.scope()` -/
  library : Text → Option Func
  unquote : Text → Text
  lower : Text → Text
  /-- the families and what is said about them -/
  fonts : List (Text × Text)
  sampled : Place → Option Text
  captures : Place → List Text
  le : Text → Text → Bool

/-- What is shown. -/
inductive Tip where
  /-- the first sentence of the docs of a parameter -/
  | param (docs : Text)
  /-- the docs of a string that a parameter takes -/
  | option (docs : Text)
  /-- a font -/
  | font (detail : Text)
  /-- values -/
  | values (t : Text)
  /-- "This closure captures …" -/
  | captures (names : List Text)
deriving DecidableEq

mutual
/-- `find_string_doc` (tooltip.rs:225-233). -/
def findString (string : Text) : CastInfo → Option Text
  | .str s docs => if s = string then some docs else none
  | .union options => findIn string options
  | .any => none
  | .other => none

/-- The `find_map` in `find_string_doc` (tooltip.rs:228-230). -/
def findIn (string : Text) : List CastInfo → Option Text
  | [] => none
  | o :: os => (findString string o).or (findIn string os)
end

/-- `FuncCall::callee` and `Set::target` of typst: the first expression. -/
def callee (cs : List Tree) : Option Tree := cs.find? fun t => isExpr t.kind

/-- `Named::name` of typst: the first name. -/
def argName (cs : List Tree) : Option Tree := cs.find? fun t => t.kind == .ident

/-- The function of the library and the children of the named argument (tooltip.rs:180-200). -/
def argOf (w : World) (p : Place) : Option (Func × List Tree) :=
  match p.up with
  | n :: a :: c :: _ =>
    if n.kind = .named ∧ a.kind = .args ∧ (c.kind = .funcCall ∨ c.kind = .setRule) then
      match callee (c.left ++ .inner a.kind (a.left ++ .inner n.kind (n.left ++ p.tree :: n.right) :: a.right) :: c.right) with
      | some (.leaf .ident f) => (w.library f).map fun g => (g, n.left ++ p.tree :: n.right)
      | _ => none
    else none
  | _ => none

/-- `leaf.index()`. -/
def index (p : Place) : Nat :=
  match p.up with
  | [] => 0
  | f :: _ => f.left.length

/-- `named_param_tooltip` (tooltip.rs:179-222). -/
def paramTip (w : World) (p : Place) : Option Tip :=
  match argOf w p with
  | none => none
  | some (f, cs) =>
    let name : Option Tip :=
      if index p = 0 ∧ p.tree.kind = .ident then (f p.tree.text).map fun q => .param q.docs else none
    let string : Option Tip :=
      if p.tree.kind = .str then
        (argName cs).bind fun n => (f n.text).bind fun q => (findString (w.unquote p.tree.text) q.input).map .option
      else none
    name.or string

/-- `font_tooltip` (tooltip.rs:236-260). -/
def fontTip (w : World) (p : Place) : Option Tip :=
  if p.tree.kind = .str then
    match p.up with
    | n :: _ =>
      if n.kind = .named ∧ (argName (n.left ++ p.tree :: n.right)).map Tree.text = some ['f', 'o', 'n', 't'] then
        (w.fonts.find? fun x => w.lower x.1 = w.lower (w.unquote p.tree.text)).map fun x => .font x.2
      else none
    | [] => none
  else none

/-- `closure_tooltip` (tooltip.rs:134-164). -/
def closureTip (w : World) (p : Place) : Option Tip :=
  if p.tree.kind = .eq ∨ p.tree.kind = .arrow then
    match p.up with
    | c :: up =>
      if c.kind = .closure then
        let names := w.captures ⟨.inner c.kind (c.left ++ p.tree :: c.right), up⟩
        if names = [] then none else some (.captures (names.mergeSort w.le))
      else none
    | [] => none
  else none

/-- `tooltip_` (tooltip.rs:22-34). -/
def tip (w : World) (p : Place) : Option Tip :=
  if trivia p.tree.kind then none
  else (((paramTip w p).or (fontTip w p)).or ((w.sampled p).map .values)).or (closureTip w p)

end Tinymist.Tips
