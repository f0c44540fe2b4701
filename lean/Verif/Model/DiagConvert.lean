import Verif.Model.Position

/-!
# From the compiler's diagnostics to the editor's

Models `DiagWorker` (`crates/tinymist-query/src/diagnostics.rs` 19-262). The files of the snapshot are a parameter.
-/

namespace Tinymist.DiagConvert

open Position (Text len8 Encoding)

/-- A span: detached, or a number in a file. `F` is the type of file ids. -/
abbrev Span (F : Type) := Option (F × Nat)

inductive Severity where
  | error
  | warning
deriving DecidableEq

/-- `typst::diag::SourceDiagnostic`; a trace point is its span and what is shown of it. -/
structure Diag (F : Type) where
  severity : Severity
  span : Span F
  message : Text
  trace : List (Span F × Text)
  hints : List Text

/-- A file that can be read as a source: its text, and for a span number where the node is: the text before it and the
node's own. -/
structure Source where
  text : Text
  find : Nat → Option (Text × Text)

/-- `uri_for_id`, `source_by_id`, the main file and the refiner that looks for messages of older versions
(`diagnostics.rs` 204-233, a regular expression set and the hint it adds). -/
structure World (F U : Type) where
  uri : F → Option U
  source : F → Option Source
  main : F
  deprecated : Text → Bool
  deprecation : Text

abbrev Range := (Nat × Nat) × (Nat × Nat)

/-- `DiagnosticRelatedInformation`. -/
structure Related (U : Type) where
  uri : U
  range : Option Range
  message : Text

/-- `lsp_types::Diagnostic`. A range is `none` when its computation panics. -/
structure LspDiag (U : Type) where
  range : Option Range
  severity : Severity
  message : Text
  related : Option (List (Related U))

variable {F U : Type}

/-- `str::contains`. -/
def contains (pat : Text) : Text → Bool
  | [] => pat.isEmpty
  | c :: s => pat.isPrefixOf (c :: s) || contains pat s

def outOfRootMessage : Text := "failed to load file (access denied)".toList
def outOfRootHint : Text := "cannot read file outside of project root".toList
def outOfRootAdvice : Text := "Cannot read file outside of project root.".toList

/-- `OutOfRootHintRefiner` (`diagnostics.rs` 235-251). -/
def outOfRoot (d : Diag F) : Diag F :=
  if contains outOfRootMessage d.message && d.hints.any (contains outOfRootHint) then
    { d with hints := [outOfRootAdvice] }
  else d

/-- `DeprecationRefiner` (`diagnostics.rs` 216-233). -/
def deprecation (w : World F U) (d : Diag F) : Diag F :=
  if w.deprecated d.message then { d with hints := d.hints ++ [w.deprecation] } else d

/-- The refiners in turn (`diagnostics.rs` 96-110). -/
def refine (w : World F U) (d : Diag F) : Diag F := outOfRoot (deprecation w d)

/-- `diagnostic_span_id` (`diagnostics.rs` 159-164). -/
def spanId (w : World F U) (d : Diag F) : F × Span F :=
  match (d.span :: d.trace.map (·.1)).find? Option.isSome with
  | some (some (f, n)) => (f, some (f, n))
  | _ => (w.main, none)

/-- `to_lsp_range` of a node. -/
def nodeRange (enc : Encoding) (s : Source) (n : Text × Text) : Option Range := do
  let a ← Position.toLsp enc s.text (len8 n.1)
  let b ← Position.toLsp enc s.text (len8 (n.1 ++ n.2))
  pure (a, b)

/-- `diagnostic_range` (`diagnostics.rs` 166-179). -/
def range (enc : Encoding) (s : Source) (span : Span F) : Option Range :=
  match span.bind (fun x => s.find x.2) with
  | some n => nodeRange enc s n
  | none => some ((0, 0), (0, 0))

/-- `to_related_info` (`diagnostics.rs` 138-157). -/
def related (enc : Encoding) (w : World F U) (t : Span F × Text) : Option (Related U) := do
  let (f, n) ← t.1
  let uri ← w.uri f
  let s ← w.source f
  let node ← s.find n
  pure ⟨uri, nodeRange enc s node, t.2⟩

/-- `diagnostic_message` (`diagnostics.rs` 188-195). -/
def message (d : Diag F) : Text := d.hints.foldl (fun m h => m ++ "\nHint: ".toList ++ h) d.message

/-- `convert_diagnostic` (`diagnostics.rs` 92-136); `none`: an error, which is logged. -/
def convert (enc : Encoding) (w : World F U) (raw : Diag F) : Option (U × LspDiag U) := do
  let uri ← w.uri (spanId w (refine w raw)).1
  let s ← w.source (spanId w (refine w raw)).1
  pure (uri, ⟨range enc s (spanId w (refine w raw)).2, (refine w raw).severity, message (refine w raw),
    if (refine w raw).trace.isEmpty then none else some ((refine w raw).trace.filterMap (related enc w))⟩)

/-- `DiagnosticsMap`. -/
abbrev DiagMap (U : Type) := List (U × List (LspDiag U))

variable [DecidableEq U]

/-- `results.entry(uri).or_default().push(diagnostic)`. -/
def push (m : DiagMap U) (u : U) (d : LspDiag U) : DiagMap U :=
  match m with
  | [] => [(u, [d])]
  | (v, ds) :: m => if v = u then (v, ds ++ [d]) :: m else (v, ds) :: push m u d

/-- `handle` (`diagnostics.rs` 81-90). -/
def handle (enc : Encoding) (w : World F U) (m : DiagMap U) (d : Diag F) : DiagMap U :=
  match convert enc w d with
  | some (u, x) => push m u x
  | none => m

/-- `convert_all` (`diagnostics.rs` 69-78). -/
def convertAll (enc : Encoding) (w : World F U) (m : DiagMap U) (ds : List (Diag F)) : DiagMap U :=
  ds.foldl (handle enc w) m

/-- `check` (`diagnostics.rs` 49-66): the lints of the files the document depends on, but for those of packages and
those that cannot be read. -/
def check (enc : Encoding) (w : World F U) (isPackage : F → Bool) (lint : F → List (Diag F)) (deps : List F) : DiagMap U :=
  deps.foldl (fun m f =>
    if isPackage f then m
    else if (w.source f).isNone then m
    else convertAll enc w m (lint f)) []

/-- The value for a key of the map. -/
def get (m : DiagMap U) (u : U) : List (LspDiag U) := ((m.find? (fun x => x.1 = u)).map (·.2)).getD []

end Tinymist.DiagConvert
