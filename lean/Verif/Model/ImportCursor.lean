import Verif.Model.Context
import Verif.Model.CompleteMore

/-!
# Completing in a list of imported names

Models `complete_imports` (crates/tinymist-query/src/analysis/completion/import.rs 6-88): of which import the cursor is in the list, what is
before the cursor in the path of an item, and what is completed. The names offered then are `Complete.importItems`
(`import_item_completions`, import.rs 91-138). The functions of typst on imports (`ModuleImport::imports`, `ImportItems::iter`,
`ImportItemPath::iter`) are modelled as they are in typst 0.13.

Simplifications: as in `Pointer`; spans tell nodes of one path from each other.
-/

namespace Tinymist.ImportCursor

open Mode (Kind)
open Pointer

/-- `ImportItemPath::iter`. -/
def names (cs : List Tree) : List Text := (cs.filter fun t => t.kind == .ident).map Tree.text

def childrenOf : Tree → List Tree
  | .leaf .. => []
  | .inner _ cs => cs

/-- `ImportItem::path`: of an item, or of an item with a new name. -/
def itemPath (t : Tree) : Option (List Text) :=
  if t.kind = .importItemPath then some (names (childrenOf t))
  else if t.kind = .renamedImportItem then
    match (childrenOf t).find? fun c => c.kind == .importItemPath with
    | some p => some (names (childrenOf p))
    | none => some []
  else none

/-- `ast::Imports`. -/
inductive Imports where
  | wildcard
  | items (paths : List (List Text))
  deriving DecidableEq, Repr

/-- `ModuleImport::imports`. -/
def importsOf : List Tree → Option Imports
  | [] => none
  | c :: cs =>
    if c.kind = .star then some .wildcard
    else if c.kind = .importItems then some (.items ((childrenOf c).filterMap itemPath))
    else importsOf cs

/-- What is completed: the place it replaces from, if it is set here, the items there are, the path before the cursor, the source of the import
and what is put before and behind each completion (`enrich`). -/
structure Hit where
  start : Option Nat
  items : List (List Text)
  path : List Text
  source : Place
  before : Text
  behind : Text

/-- The first child that is an expression. -/
def sourceOf (p : Place) : Option Place := Context.first (fun t => isExpr t.kind) p

/-- On the colon (import.rs 10-30). -/
def onColon (leaf : Place) (cursor : Nat) : Option Hit :=
  if leaf.tree.kind = .colon then
    leaf.parent.bind fun parent =>
      if parent.tree.kind = .moduleImport then
        match importsOf (Context.children parent) with
        | some .wildcard => none
        | some (.items l) => (sourceOf parent).map fun s => ⟨some cursor, l, [], s, [], if l.isEmpty then [] else [',', ' ']⟩
        | none => (sourceOf parent).map fun s => ⟨some cursor, [], [], s, [], []⟩
      else none
  else none

/-- Behind the list (import.rs 35-46). -/
def behindList (text : Text) (leaf : Place) (cursor : Nat) : Option Hit :=
  leaf.prevSibling.bind fun prev =>
    if prev.tree.kind = .moduleImport then
      if ((text.drop prev.offset).take (cursor - prev.offset)).contains '\n' then none
      else
        match importsOf (Context.children prev) with
        | some (.items l) => (sourceOf prev).map fun s => ⟨some cursor, l, [], s, [], []⟩
        | _ => none
    else none

/-- The import that a list of items is in. -/
def importAround (items : Place) : Option (List (List Text) × Place) :=
  if items.tree.kind = .importItems then
    items.parent.bind fun grand =>
      if grand.tree.kind = .moduleImport then
        match importsOf (Context.children grand) with
        | some (.items l) => (sourceOf grand).map fun s => (l, s)
        | _ => none
      else none
  else none

/-- Behind a comma (import.rs 50-62). -/
def onComma (leaf : Place) : Option Hit :=
  if leaf.tree.kind = .comma then
    leaf.parent.bind fun parent => (importAround parent).map fun r => ⟨none, r.1, [], r.2, [' '], []⟩
  else none

/-- The names of the path that are taken while they are not the leaf (import.rs 81). -/
def taken (leaf : Place) : List Text :=
  match leaf.up with
  | [] => []
  | f :: _ => if leaf.tree.kind = .ident then names f.left else names f.left ++ names f.right

/-- In the path of an item (import.rs 66-85). -/
def inPath (leaf : Place) : Option Hit :=
  if leaf.tree.kind = .ident ∨ leaf.tree.kind = .dot then
    leaf.parent.bind fun path =>
      if path.tree.kind = .importItemPath then
        path.parent.bind fun parent =>
          (importAround parent).map fun r => ⟨if leaf.tree.kind = .ident then some leaf.offset else none, r.1, taken leaf, r.2, [], []⟩
      else none
  else none

/-- `complete_imports` (import.rs 6-88). -/
def completeImports (text : Text) (leaf : Place) (cursor : Nat) : Option Hit :=
  match onColon leaf cursor with
  | some h => some h
  | none =>
    match behindList text leaf cursor with
    | some h => some h
    | none =>
      match onComma leaf with
      | some h => some h
      | none => inPath leaf

/-- The names offered. `scope` gives the names of what the path leads to in the module that the source stands for. -/
def offered (scope : Place → List Text → Option (List Text)) (text : Text) (leaf : Place) (cursor : Nat) : Option (List Text) :=
  (completeImports text leaf cursor).map fun h => Complete.importItems (scope h.source) h.items h.path

end Tinymist.ImportCursor
