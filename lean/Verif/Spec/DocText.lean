import Verif.Model.DocText

/-!
# Documentation as a text with code and links
-/

namespace Tinymist.DocText.Spec

/-- A part of a text: words, or a piece of code between backticks. -/
inductive Part where
  | words (cs : List Char)
  | code (cs : List Char)
  deriving DecidableEq, Repr

/-- A part of documentation. -/
inductive Seg where
  | part (p : Part)
  /-- `[label](target)` -/
  | link (label : List Part) (target : List Char)
  /-- `[label][target]` -/
  | ref (label : List Part) (target : List Char)
  /-- `[label]` -/
  | bracket (label : List Part)
  deriving DecidableEq, Repr

/-- How code is written. -/
def Part.source : Part → List Char
  | .words cs => cs
  | .code cs => '`' :: cs ++ ['`']

/-- The documentation as it is written. -/
def Seg.source : Seg → List Char
  | .part p => p.source
  | .link label target => '[' :: label.flatMap Part.source ++ ']' :: '(' :: target ++ [')']
  | .ref label target => '[' :: label.flatMap Part.source ++ ']' :: '[' :: target ++ [']']
  | .bracket label => '[' :: label.flatMap Part.source ++ [']']

/-- Code is shown without the braces or brackets that say which kind of code it is. -/
inductive Bare : List Char → List Char → Prop where
  | braces (cs : List Char) : Bare ('{' :: cs ++ ['}']) cs
  | brackets (cs : List Char) : Bare ('[' :: cs ++ [']']) cs
  | plain (cs : List Char) : (∀ ds, cs ≠ '{' :: ds ++ ['}']) → (∀ ds, cs ≠ '[' :: ds ++ [']']) → Bare cs cs

/-- What is shown of a part. -/
inductive Part.Shown : Part → List Char → Prop where
  | words (cs) : Part.Shown (.words cs) cs
  | code {cs ds} : Bare cs ds → Part.Shown (.code cs) ('`' :: ds ++ ['`'])

/-- What is shown of parts. -/
inductive Shown : List Part → List Char → Prop where
  | nil : Shown [] []
  | cons {p ps a b} : Part.Shown p a → Shown ps b → Shown (p :: ps) (a ++ b)

/-- What is shown of documentation: everything as it is, and links with their targets resolved. -/
inductive Seg.Shown (resolve : List Char → List Char) : Seg → List Char → Prop where
  | part {p a} : Part.Shown p a → Seg.Shown resolve (.part p) a
  | link {label target a} : Spec.Shown label a → Seg.Shown resolve (.link label target) ('[' :: a ++ ']' :: '(' :: resolve target ++ [')'])
  | ref {label target a} : Spec.Shown label a → Seg.Shown resolve (.ref label target) ('[' :: a ++ ']' :: '[' :: target ++ [']'])
  | bracket {label a} : Spec.Shown label a → Seg.Shown resolve (.bracket label) ('[' :: a ++ [']'])

inductive AllShown (resolve : List Char → List Char) : List Seg → List Char → Prop where
  | nil : AllShown resolve [] []
  | cons {s ss a b} : Seg.Shown resolve s a → AllShown resolve ss b → AllShown resolve (s :: ss) (a ++ b)

/-- The marks are used for nothing else in a label. -/
def Part.InLabel : Part → Prop
  | .words cs => '`' ∉ cs ∧ '[' ∉ cs ∧ ']' ∉ cs
  | .code cs => '`' ∉ cs

/-- The marks are used for nothing else; a closing bracket alone does no harm. -/
def Seg.Valid : Seg → Prop
  | .part (.words cs) => '`' ∉ cs ∧ '[' ∉ cs
  | .part (.code cs) => '`' ∉ cs
  | .link label target => (∀ p ∈ label, p.InLabel) ∧ ')' ∉ target
  | .ref label target => (∀ p ∈ label, p.InLabel) ∧ ']' ∉ target
  | .bracket label => ∀ p ∈ label, p.InLabel

/-- What is behind a bracket does not make it a link. -/
def Separate : List Seg → Prop
  | [] => True
  | .bracket _ :: rest =>
    ((rest.flatMap Seg.source).head? ≠ some '(' ∧ (rest.flatMap Seg.source).head? ≠ some '[') ∧ Separate rest
  | _ :: rest => Separate rest

/-- The pages that have a name of their own, and where they are. -/
def pages : List (List Char × List Char) :=
  [("$tutorial", "https://typst.app/docs/tutorial"), ("$reference", "https://typst.app/docs/reference"),
    ("$category", "https://typst.app/docs/reference"), ("$syntax", "https://typst.app/docs/reference/syntax"),
    ("$styling", "https://typst.app/docs/reference/styling"), ("$scripting", "https://typst.app/docs/reference/scripting"),
    ("$context", "https://typst.app/docs/reference/context"), ("$guides", "https://typst.app/docs/guides"),
    ("$changelog", "https://typst.app/docs/changelog"), ("$community", "https://typst.app/docs/community"),
    ("$universe", "https://typst.app/universe")].map fun p => (p.1.toList, p.2.toList)

end Tinymist.DocText.Spec
