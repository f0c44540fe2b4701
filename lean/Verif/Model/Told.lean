/-!
# What hovering shows

Models `HoverRequest::request` and `HoverWorker` (crates/tinymist-query/src/hover.rs:31-76, 90-117, 119-215, 220-256, 303-318): what is said about a
definition, about the star of an import and about links, in which order the parts stand and when nothing is shown.

Taken as given: what is defined at the place (`def_of_syntax`), its documentation, the names of the module that a star imports, the links at the
place and what they resolve to (`Hover`), the preview, the tooltip of typst (`Tips`), and the texts of the actions (`Hover`). `separated_list` is
that of typst.
-/

namespace Tinymist.Told

abbrev Text := List Char

/-- `DefKind` (crates/tinymist-analysis/src/syntax/def.rs:313-327). -/
inductive DefKind where
  | constant | function | variable_ | module_ | struct | reference
  deriving DecidableEq, Repr

/-- `DefDocs`, as far as it is looked at (hover.rs:166-175): the short type of a variable, the parameters of a function as they are printed, with
the short type of its result, and what is said about it, `hover_docs`. -/
inductive Docs where
  | variable_ (ty : Option Text) (hover : Text)
  | function (params : Text) (ret : Option Text) (hover : Text)
  | other (hover : Text)
  deriving Repr

/-- `hover_docs` (crates/tinymist-analysis/src/docs/def.rs:112-117). -/
def Docs.hover : Docs → Text
  | .variable_ _ h => h
  | .function _ _ h => h
  | .other h => h

/-- A definition: a label with the value it stands for, an entry of a bibliography with its citation and item, or something else, with its
documentation and the link to the documentation of typst. -/
inductive Def where
  | label (name : Text) (value : Option Text)
  | bib (name : Text) (details : Option (Text × Text))
  | other (kind : DefKind) (name : Text) (docs : Option Docs) (link : Option Text)
  deriving Repr

/-- A link that resolves: the texts of the two actions, and the kind of the file. -/
structure Target where
  inTab : Text
  outside : Text
  kind : Option Text
  deriving Repr

/-- `Tooltip` of typst. -/
inductive Tip where
  | text (t : Text)
  | code (t : Text)
  deriving Repr

/-- What is known about a place. `star` are the names of the module, in the order of its scope, if the place is the star of an import whose module
is known; `links` are the links at the place, with what they resolve to, if there are any. -/
structure Place where
  definition : Option Def
  star : Option (List Text)
  links : Option (List (Option Target))
  preview : Option Text
  tip : Option Tip

/-- The parts of `HoverWorker` (hover.rs:78-88). -/
structure Parts where
  defs : List Text := []
  value : List Text := []
  preview : List Text := []
  docs : List Text := []
  actions : List Text := []
  deriving DecidableEq, Repr

/-- `trim().is_empty()`; `is_whitespace` is that of Unicode, of which those below are all. -/
def white (c : Char) : Bool :=
  (9 ≤ c.toNat && c.toNat ≤ 13) || c.toNat == 32 || c.toNat == 0x85 || c.toNat == 0xa0 || c.toNat == 0x1680 ||
    (0x2000 ≤ c.toNat && c.toNat ≤ 0x200a) || c.toNat == 0x2028 || c.toNat == 0x2029 || c.toNat == 0x202f || c.toNat == 0x205f || c.toNat == 0x3000

def blank (t : Text) : Bool := t.all white

/-- `push_result_ty` (hover.rs:303-318). -/
def resultTy (name : Text) (ty : Option Text) : Text :=
  match ty with
  | none => []
  | some short => if short = name then [] else " = ".toList ++ short

/-- The line with the type (hover.rs:157-178). -/
def typeLine (name : Text) (docs : Option Docs) : Text :=
  "let ".toList ++ name ++
    match docs with
    | some (.variable_ ty _) => resultTy name ty
    | some (.function params ret _) => params ++ resultTy name ret
    | _ => []

/-- `definition` (hover.rs:119-193). -/
def define (d : Def) (w : Parts) : Parts :=
  match d with
  | .label n (some v) => { w with defs := w.defs ++ ["Ref: `".toList ++ n ++ "`\n".toList, "```typc\n".toList ++ v ++ "\n```".toList] }
  | .label n none => { w with defs := w.defs ++ ["Label: `".toList ++ n ++ "`\n".toList] }
  | .bib n (some (cite, item)) => { w with defs := w.defs ++ ["Bibliography: `".toList ++ n ++ "` ".toList ++ cite, item] }
  | .bib n none => { w with defs := w.defs ++ ["Bibliography: `".toList ++ n ++ "`".toList] }
  | .other k n docs link =>
    let w := if (k = .function ∨ k = .variable_ ∨ k = .constant) ∧ n ≠ [] then
        { w with defs := w.defs ++ ["```typc\n".toList ++ typeLine n docs ++ ";\n```".toList] } else w
    let w := match docs with
      | some d => if blank d.hover then w else { w with docs := w.docs ++ [d.hover] }
      | none => w
    match link with
    | some l => { w with actions := w.actions ++ [l] }
    | none => w

/-- `separated_list` of typst, behind the first piece of at least three. -/
def listTail (last : Text) : List Text → Text
  | [] => []
  | [z] => ", ".toList ++ last ++ " ".toList ++ z
  | b :: rest => ", ".toList ++ b ++ listTail last rest

/-- `separated_list` of typst. -/
def separated (last : Text) : List Text → Text
  | [] => []
  | [a] => a
  | [a, b] => a ++ " ".toList ++ last ++ " ".toList ++ b
  | a :: rest => a ++ listTail last rest

/-- Strings are compared by their bytes, which is the order of their characters. -/
def nameLe (a b : Text) : Bool := decide (a ≤ b)

/-- What is said about a star (hover.rs:211-213). -/
def starText (names : List Text) : Text := "This star imports ".toList ++ separated "and".toList (names.mergeSort nameLe)

/-- The loop of `link` (hover.rs:234-255). -/
def linkParts (w : Parts) : List (Option Target) → Parts
  | [] => w
  | none :: rest => linkParts w rest
  | some t :: rest =>
    let w := { w with actions := w.actions ++ [t.inTab, t.outside] }
    linkParts (match t.kind with | some k => { w with defs := w.defs ++ ["A `".toList ++ k ++ "` file.".toList] } | none => w) rest

/-- `static_analysis` (hover.rs:98-105). -/
def static (p : Place) (w : Parts) : Parts :=
  match p.definition with
  | some d => define d w
  | none =>
    match p.star with
    | some names => { w with defs := w.defs ++ [starText names] }
    | none =>
      match p.links with
      | some links => linkParts w links
      | none => w

/-- `dynamic_analysis` (hover.rs:108-115). -/
def dynamic (p : Place) (w : Parts) : Parts :=
  match p.tip with
  | some (.text t) => { w with value := w.value ++ [t] }
  | some (.code t) => { w with value := w.value ++ ["### Sampled Values\n```typc\n".toList ++ t ++ "\n```".toList] }
  | none => w

/-- `preview` (hover.rs:285-287). -/
def previewed (p : Place) (w : Parts) : Parts :=
  match p.preview with
  | some t => { w with preview := w.preview ++ [t] }
  | none => w

/-- `work` (hover.rs:91-95). -/
def work (p : Place) : Parts := dynamic p (previewed p (static p {}))

/-- `join`. -/
def join (sep : Text) : List Text → Text
  | [] => []
  | [a] => a
  | a :: rest => a ++ sep ++ join sep rest

/-- `request` (hover.rs:54-74): the text that is shown. -/
def hover (p : Place) : Option Text :=
  let w := work p
  let contents := w.defs ++ w.value ++ w.preview ++ w.docs ++ if w.actions = [] then [] else [join " | ".toList w.actions]
  if contents = [] then none else some (join "\n\n---\n\n".toList contents)

end Tinymist.Told
