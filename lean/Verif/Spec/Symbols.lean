import Verif.Spec.Sections
import Verif.Model.Symbols

/-!
# What a search of the workspace should find
-/

namespace Tinymist.Symbols

open Sections (Info Node Tree Kind infos)

/-- A text is part of a name. -/
def Part (text name : List Char) : Prop := ∃ a b, name = a ++ text ++ b

/-- Headings and definitions are symbols. -/
def IsSymbol (i : Info) : Prop := (∃ l, i.kind = .heading l) ∨ i.kind = .symbol

/-- Only symbols have a name; other items of the hierarchy, such as comments and list items, have none. -/
def Named (doc : List Node) : Prop := ∀ i ∈ infos doc, i.name ≠ [] → IsSymbol i

/-- No tree is more than two levels high. -/
def Shallow (ts : List Tree) : Prop := ∀ t ∈ ts, match t with
  | .node _ children => ∀ c ∈ children, match c with | .node _ grand => grand = []

/-- The levels of the headings at the top of a document, as the compiler gives them, begin with one. -/
def Levels (doc : List Node) : Prop := ∀ i ∈ infos doc, ∀ l, i.kind = .heading l → 1 ≤ l

end Tinymist.Symbols
