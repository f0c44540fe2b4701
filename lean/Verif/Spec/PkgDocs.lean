import Verif.Model.PkgDocs

/-!
# What the documentation of a package has to tell
-/

namespace Tinymist.PkgDocs

/-- An export is a declaration, or refers to it. -/
inductive Means : Exp → Decl → Prop
  | decl (d) : Means (.decl d) d
  | ref {e d} : Means e d → Means (.ref e) d

/-- The kind an export is shown with. -/
def kindOf : Exp → Kind
  | .decl d => d.kind
  | .ref e => kindOf e
  | .select => .module
  | .other => .constant

/-- The file `f` exports the declaration under the name. -/
def Exports (w : World) (f : Nat) (n : Text) (d : Decl) : Prop :=
  ∃ es e, w.exports f = some es ∧ (n, e) ∈ es ∧ Means e d

/-- The files of the package that have something to do with what it exports: the entry point, and the files of modules and
definitions that are exported by such files. -/
inductive Reach (w : World) : Nat → Prop
  | root : Reach w w.root
  | step {f n d g} : Reach w f → Exports w f n d → d.file = some g → w.same g = true → w.exports g ≠ none → Reach w g

/-- A path leads to a file: by names of modules, from the entry point, or by the name of a definition of the file;
all files on the way are in the package. -/
inductive Leads (w : World) : Path → Nat → Prop
  | root : Leads w [] w.root
  | module {p f n d g} : Leads w p f → Exports w f n d → d.isModule = true → d.file = some g → w.same g = true →
    Leads w (p ++ [n]) g
  | inside {p f n d g} : Leads w p f → Exports w f n d → d.file = some g → w.same g = true → Leads w (p ++ [n] ++ [['-'], n]) g

/-- A name is before another one: it is shorter, in bytes, or as long and before it in the alphabet. -/
def Before (a b : Text) : Prop :=
  (a.map Char.utf8Size).sum < (b.map Char.utf8Size).sum ∨ (a.map Char.utf8Size).sum = (b.map Char.utf8Size).sum ∧ a ≤ b

/-- A section lists the exports: their kinds and names, in order. -/
def Lists (s : Section) (es : List (Text × Exp)) : Prop :=
  s.entries.map (fun e => (e.heading.name, e.heading.kind)) = es.map (fun e => (e.1, kindOf e.2))

/-- There is a heading. -/
def HasHeading (ss : List Section) (a : Anchor) : Prop := ∃ s ∈ ss, ∃ e ∈ s.entries, e.heading = a

/-- A list of files has all files of the package. -/
def AllFiles (w : World) (files : List Nat) : Prop := ∀ g, w.same g = true → w.exports g ≠ none → g ∈ files

end Tinymist.PkgDocs
