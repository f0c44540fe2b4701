import Verif.Model.ImportCursor
import Verif.Spec.Context

/-!
# Lists of imported names
-/

namespace Tinymist.ImportCursor

open Mode (Kind)
open Pointer
open Context (Child)

/-- The names among some nodes, in order. -/
inductive Idents : List Tree → List Text → Prop where
  | nil : Idents [] []
  | name {n cs ns} : Idents cs ns → Idents (.leaf .ident n :: cs) (n :: ns)
  | skip {t cs ns} : t.kind ≠ .ident → Idents cs ns → Idents (t :: cs) ns

/-- The items among some nodes, each by the names of its path: `a.b` or `a.b as c`. -/
inductive Items : List Tree → List (List Text) → Prop where
  | nil : Items [] []
  | plain {p cs ns ps} : Idents p ns → Items cs ps → Items (.inner .importItemPath p :: cs) (ns :: ps)
  | renamed {p rest cs ns ps} : Idents p ns → Items cs ps → Items (.inner .renamedImportItem (.inner .importItemPath p :: rest) :: cs) (ns :: ps)
  | skip {t cs ps} : t.kind ∉ [Kind.importItemPath, .renamedImportItem] → Items cs ps → Items (t :: cs) ps

/-- Neither `*` nor a list of items. -/
def Neither (cs : List Tree) : Prop := ∀ x ∈ cs, x.kind ≠ .star ∧ x.kind ≠ .importItems

/-- An import with a list of items: the import, the list, what is imported from, and the paths. -/
inductive ListOf : Place → Place → Place → List (List Text) → Prop where
  | mk {pre mid post is : List Tree} {src : Tree} {up : List Frame} {paths : List (List Text)} :
      Neither pre → (∀ x ∈ pre, isExpr x.kind = false) → isExpr src.kind = true → Neither mid → Items is paths →
      ListOf ⟨.inner .moduleImport (pre ++ src :: (mid ++ .inner .importItems is :: post)), up⟩
        ⟨.inner .importItems is, ⟨.moduleImport, pre ++ src :: mid, post⟩ :: up⟩
        ⟨src, ⟨.moduleImport, pre, mid ++ .inner .importItems is :: post⟩ :: up⟩ paths

/-- An import of which no items are written, from this source. -/
inductive Bare : Place → Place → Prop where
  | mk {pre mid : List Tree} {src : Tree} {up : List Frame} :
      Neither pre → (∀ x ∈ pre, isExpr x.kind = false) → isExpr src.kind = true → Neither mid →
      Bare ⟨.inner .moduleImport (pre ++ src :: mid), up⟩ ⟨src, ⟨.moduleImport, pre, mid⟩ :: up⟩

/-- The names that can be imported behind a path: those of what it leads to that are not imported by an item, and everything if there is no
item. -/
def Offers (all : Option (List Text)) (paths : List (List Text)) (path : List Text) (l : List Text) : Prop :=
  match all with
  | none => l = []
  | some names => ∃ rest, l = (if paths = [] then [['*']] else []) ++ rest ∧ rest.Sublist names ∧ ∀ n, n ∈ rest ↔ n ∈ names ∧ path ++ [n] ∉ paths

end Tinymist.ImportCursor
