import Verif.Model.Answer
import Verif.Spec.Workspace

/-!
# In which project a request should be answered
-/

namespace Tinymist.Answer

open Paths Workspace

/-- A main file is pinned: by the user, or by a preview of a file. -/
def Pinned (s : Server) : Prop := s.pinUser = true ∨ (s.pinPreview = true ∧ s.snap.entry.main ≠ none)

/-- The requests about syntax only. -/
def Syntactic (k : Kind) : Prop := k ∈ [Kind.foldingRange, .selectionRange, .documentSymbol, .onEnter]

/-- The requests that are not about a file. -/
def Global (k : Kind) : Prop := k ∈ [Kind.willRenameFiles, .symbol, .workspaceLabel]

/-- The requests about a file and what it means. -/
def Semantic (k : Kind) : Prop :=
  k ∈ [Kind.hover, .gotoDefinition, .gotoDeclaration, .references, .inlayHint, .documentColor, .documentLink, .documentHighlight, .codeAction,
    .codeLens, .completion, .signatureHelp, .rename, .prepareRename, .semanticTokensFull, .semanticTokensDelta, .interactCodeContext,
    .documentMetrics]

/-- The lock files, if they are used, name a document for a file: the one with the id that the route in `dir` leads to. -/
def Names (env : Env) (s : Server) (path dir : Text) (d : Input) : Prop :=
  s.lockDatabase = true ∧ ∃ docs before after, env.route path = some (dir, d.id) ∧ env.lock dir = some docs ∧
    docs = before ++ d :: after ∧ ∀ x ∈ before, x.id ≠ d.id

/-- A file of a lock file in a directory. -/
inductive Written (dir : Text) : ResourcePath.ResPath → Text → Prop where
  | absolute {p} : isAbsolute p = true → Written dir ⟨"file".toList, p⟩ p
  | relative {p} : isAbsolute p = false → Written dir ⟨"file".toList, p⟩ (join dir p)

/-- No more ids of roots are left. -/
def Full (i : Interner) : Prop := ∃ root, workspaceId i root = none

/-- The main file of an entry is this one on disk, inside its root. -/
def Main (pkg : PackageSpec → Option Text) (i : Interner) (e : EntryState) (file : Text) : Prop :=
  (∃ f t, e.main = some f ∧ pathForId i pkg f = .resolved t ∧ denotes [] t = denotes [] file) ∧
    ∃ root, e.root = some root ∧ denotes [] root <+: denotes [] file

/-- An absolute path of a file, without `..`. -/
def FilePath (p : Text) : Prop := isAbsolute p = true ∧ Comp.parent ∉ components p ∧ fileName p ≠ none

/-- The server has a sound state: reachable tables, and absolute paths for its roots. -/
structure Sound (s : Server) : Prop where
  interner : Reachable s.interner
  resolver : ∃ rootPath roots, ResolverReachable rootPath roots s.resolver ∧ (∀ x, rootPath = some x → isAbsolute x = true) ∧
    ∀ x ∈ roots, isAbsolute x = true

end Tinymist.Answer
