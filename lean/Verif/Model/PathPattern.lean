import Verif.Model.Workspace
/-!
# Output path patterns

Models `PathPattern::substitute_impl`, `crates/tinymist-task/src/primitives.rs:124-169`, for Unix paths.
-/
namespace Tinymist.PathPattern
open Paths Workspace

/-- `str::replace` (std) with a non-empty pattern. -/
def replaceAll (pat rep : Text) : Text → Text
  | [] => []
  | c :: s =>
    if pat.isPrefixOf (c :: s) then rep ++ replaceAll pat rep (s.drop (pat.length - 1))
    else c :: replaceAll pat rep s
termination_by s => s.length
decreasing_by
  · simp; omega
  · simp

/-- primitives.rs:157, 160, 163. -/
def kwRoot : Text := ['$', 'r', 'o', 'o', 't']
def kwDir : Text := ['$', 'd', 'i', 'r']
def kwName : Text := ['$', 'n', 'a', 'm', 'e']

/-- primitives.rs:156-163: the placeholders are replaced one kind after the other. -/
def replaceKinds (pattern root : Text) (dir : Option Text) (name : Text) : Text :=
  let path := replaceAll kwRoot root pattern
  let path := match dir with
    | some d => replaceAll kwDir d path
    | none => path
  replaceAll kwName name path

/-- `substitute_impl`, primitives.rs:130-168; `tmp` is `std::env::temp_dir()`. -/
def substitute (tmp pattern : Text) (e : EntryState) : Option Text :=
  match e.root, e.main with
  | some root, some main =>
    if isPackageFile main then none
    else
      match vpathResolve root main.vpath with
      | none => none
      | some path =>
        match stripPrefix path ['/', 'u', 'n', 't', 'i', 't', 'l', 'e', 'd'] with
        | some rest => some (join (join tmp ['t', 'y', 'p', 's', 't']) rest)
        | none =>
          if pattern = [] then some (clean path)
          else
            match stripPrefix path root with
            | none => none
            | some rel => some (clean (replaceKinds pattern root (parent rel) ((fileName rel).getD [])))
  | _, _ => none

end Tinymist.PathPattern
