import Verif.Model.Sections

/-!
# Searching symbols and labels of the workspace

Models the requests `workspace/symbol` (`crates/tinymist-query/src/symbol.rs` 34-101, `crates/tinymist/src/lsp/query.rs`
268-275) and `tinymist.getWorkspaceLabels` (`crates/tinymist-query/src/workspace_label.rs` 15-74). Both look at the
hierarchy of each file, see `Model/Sections.lean`; `None` for a file that cannot be analysed (`symbol.rs` 48-58) is left
out. The position of a symbol is kept as it is in the hierarchy.
-/

namespace Tinymist.Symbols

open Sections (Info Node Tree hierarchy isSymbol)

/-- `str::contains`. -/
def contains (needle : List Char) : List Char → Bool
  | [] => needle.isEmpty
  | c :: cs => needle.isPrefixOf (c :: cs) || contains needle cs

def root : Tree → Info
  | .node i _ => i

/-- The items that are looked at (`symbol.rs` 72-78, `workspace_label.rs` 49-55): those at the top and the children of
these. -/
def lookedAt : List Tree → List Info
  | [] => []
  | .node i children :: ts => i :: (children.map root ++ lookedAt ts)

/-- `query_string.is_some_and(|s| !hierarchy.info.name.contains(s))` negated (`symbol.rs` 80-82). -/
def matchesQuery (query : Option (List Char)) (i : Info) : Bool :=
  match query with
  | none => true
  | some q => contains q i.name

/-- `filter_document_symbols` (`symbol.rs` 63-101). `none`: the panic of `try_into().unwrap()` (88). -/
def filterSymbols (query : Option (List Char)) : List Info → Option (List Info)
  | [] => some []
  | i :: is =>
    if !matchesQuery query i then filterSymbols query is
    else if !isSymbol i.kind then none
    else (filterSymbols query is).map (i :: ·)

/-- A file of the compilation: its text, if it can be read, and its address, if it has one. -/
structure File (U : Type) where
  source : Option (List Node)
  uri : Option U

/-- `SymbolRequest::request` (`symbol.rs` 37-61). `none`: a panic, there or at `uri_for_id(id).unwrap()` (46). -/
def request {U : Type} (query : Option (List Char)) : List (File U) → Option (List (U × Info))
  | [] => some []
  | f :: fs =>
    match f.source with
    | none => request query fs
    | some doc =>
      match f.uri with
      | none => none
      | some u =>
        match filterSymbols query (lookedAt (hierarchy doc)), request query fs with
        | some l, some r => some (l.map (u, ·) ++ r)
        | _, _ => none

/-- The request as it is sent (`query.rs` 268-275): an empty text is no query. -/
def search {U : Type} (text : List Char) (fs : List (File U)) : Option (List (U × Info)) :=
  request (if text.isEmpty then none else some text) fs

/-- `WorkspaceLabelRequest::request` (`workspace_label.rs` 18-40) and `filter_document_labels` (43-74). `label`: whether
an item is a label. -/
def labels {U : Type} (label : Info → Bool) : List (File U) → List (U × Info)
  | [] => []
  | f :: fs =>
    match f.source, f.uri with
    | some doc, some u => ((lookedAt (hierarchy doc)).filter label).map (u, ·) ++ labels label fs
    | _, _ => labels label fs

end Tinymist.Symbols
