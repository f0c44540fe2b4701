import Verif.Model.Workspace

/-!
# The links of a document

Models `get_link_exprs` (crates/tinymist-query/src/analysis/link_expr.rs) and `DocumentLinkRequest`
(crates/tinymist-query/src/document_link.rs).

Syntax trees are kept as far as it matters: a string literal has the place of its node (with the quotes) and its value.
A spread item of an array is a node of another kind. `LinkedNode::find` of the span of a string finds the string (typst).
Urls of paths are not modelled, they are paths here, and the project is on disk.
-/

namespace Tinymist.Links

open Paths Workspace

/-- A syntax node. -/
inductive Node where
  | str (start stop : Nat) (text : Text)
  | ident (name : Text)
  | field (target : Node) (name : Text)
  | array (items : List Node)
  | call (callee : Node) (args : List Node)
  /-- A named argument. -/
  | named (name : Text) (value : Node)
  /-- A spread argument. -/
  | spread (value : Node)
  | incl (source : Node)
  /-- Trivia, a keyword or an error. -/
  | quiet
  | other (children : List Node)

/-- `LinkTarget` (link_expr.rs:45-54; urls are never made). -/
inductive Target where
  | package (spec : Text)
  | path (text : Text)
  deriving DecidableEq, Repr

/-- `LinkObject` (link_expr.rs:34-43). -/
structure Link where
  start : Nat
  stop : Nat
  target : Target
  deriving DecidableEq, Repr

/-- `analyze_path_str` (link_expr.rs:176-203); `isSpec`: `PackageSpec::from_str` accepts the text. -/
def strLink (isSpec : Text → Bool) : Node → List Link
  | .str start stop text =>
    if start + 1 < stop - 1 then
      if text.head? = some '@' then
        if isSpec text then [⟨start + 1, stop - 1, .package text⟩] else []
      else [⟨start + 1, stop - 1, .path text⟩]
    else []
  | _ => []

/-- `analyze_path_expr` (link_expr.rs:161-174). -/
def pathLinks (isSpec : Text → Bool) : Node → List Link
  | .str start stop text => strLink isSpec (.str start stop text)
  | .array items => items.flatMap (strLink isSpec)
  | _ => []

/-- The argument is a positional one. -/
def isPos : Node → Bool
  | .named _ _ => false
  | .spread _ => false
  | _ => true

/-- The links of an argument with a certain name (link_expr.rs:149-157). -/
def namedLinks (isSpec : Text → Bool) (key : Text) : Node → List Link
  | .named name value => if name = key then pathLinks isSpec value else []
  | _ => []

/-- `analyze_reader` (link_expr.rs:135-159). -/
def readerLinks (isSpec : Text → Bool) (args : List Node) (key : Text) (pos : Bool) : List Link :=
  match args with
  | [] => []
  | a :: _ => (if isPos a && pos then pathLinks isSpec a else []) ++ args.flatMap (namedLinks isSpec key)

/-- The name of the function that is called (link_expr.rs:101-131): a name, or a field of `std`. -/
def calleeName : Node → Option Text
  | .ident name => some name
  | .field (.ident m) name => if m = "std".toList then some name else none
  | _ => none

/-- `analyze_call` (link_expr.rs:98-133). -/
def callLinks (isSpec : Text → Bool) (callee : Node) (args : List Node) : List Link :=
  match calleeName callee with
  | none => []
  | some f =>
    if f = "raw".toList then readerLinks isSpec args "theme".toList false ++ readerLinks isSpec args "syntaxes".toList false
    else if f = "bibliography".toList then
      readerLinks isSpec args "cite".toList false ++ readerLinks isSpec args "style".toList false ++
        readerLinks isSpec args "path".toList true
    else if f ∈ ["cbor".toList, "csv".toList, "image".toList, "read".toList, "json".toList, "yaml".toList, "xml".toList] then
      readerLinks isSpec args "path".toList true
    else []

mutual
/-- `collect_links` (link_expr.rs:72-96). `analyze_call` never says that a call is done with, so the parts of calls are
looked at, too. -/
def collectLinks (isSpec : Text → Bool) : Node → List Link
  | .str _ _ _ => []
  | .ident _ => []
  | .field target _ => collectLinks isSpec target
  | .array items => collectAll isSpec items
  | .call callee args => callLinks isSpec callee args ++ (collectLinks isSpec callee ++ collectAll isSpec args)
  | .named _ value => collectLinks isSpec value
  | .spread value => collectLinks isSpec value
  | .incl source => pathLinks isSpec source ++ collectLinks isSpec source
  | .quiet => []
  | .other children => collectAll isSpec children

/-- The loop over children (link_expr.rs:91-93). -/
def collectAll (isSpec : Text → Bool) : List Node → List Link
  | [] => []
  | n :: ns => collectLinks isSpec n ++ collectAll isSpec ns
end

/-- `LinkTarget::resolve` (link_expr.rs:57-68) for a file in the directory `dir` of a project at `root`: the directory of
the file, and the text joined to it as a path of the file system. -/
def resolveLink (root : Text) (dir : List Text) : Target → Option Text
  | .package _ => none
  | .path text => (vpathResolve root (dir.map Comp.normal)).map (Paths.join · text)

/-- `DocumentLinkRequest` (document_link.rs:22-43): places between bytes, and targets. -/
def documentLinks (isSpec : Text → Bool) (root : Text) (dir : List Text) (doc : Node) :
    Option (List (Nat × Nat × Option Text)) :=
  match collectLinks isSpec doc with
  | [] => none
  | l :: ls => some ((l :: ls).map fun l => (l.start, l.stop, resolveLink root dir l.target))

end Tinymist.Links
