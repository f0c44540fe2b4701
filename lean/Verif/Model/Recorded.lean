import Verif.Model.Answer

/-!
# What compiling a document writes into the lock file

Models `LockFileUpdate::compiled` (crates/tinymist-project/src/lock.rs:241-284) and `Id::from_world`
(crates/tinymist-task/src/primitives.rs:79-93). The fonts that are recorded are left out.
-/

namespace Tinymist.Recorded

open Paths Answer ResourcePath

/-- What of a world matters: the path of the main file in its root (`as_rootless_path`), and the path on disk
(`path_for_id`, which can fail). -/
structure World where
  rootless : Text
  disk : Option Text

/-- `ResourcePath::from_user_sys` (primitives.rs:305-314) in the current directory; `none` if it panics. -/
def resource (cwd inp : Text) : Option ResPath := (fromUserSys cwd inp).map fun p => ⟨['f', 'i', 'l', 'e'], p⟩

/-- `Id::from_world` (primitives.rs:80-86) for a main file; `none` if it panics. -/
def idOf (cwd : Text) (w : World) : Option Text := (resource cwd (unixSlash w.rootless)).map display

/-- What becomes of recording. -/
inductive Outcome where
  | recorded (d : Input)
  | nothing
  | panic

/-- `compiled` (lock.rs:241-284) in the current directory, for the world of the main file, if there is one. -/
def compiled (cwd : Text) (w : Option World) : Outcome :=
  match w with
  | none => .nothing
  | some w =>
    match idOf cwd w with
    | none => .panic
    | some id =>
      match resource cwd ['.'] with
      | none => .panic
      | some root =>
        match w.disk with
        | none => .nothing
        | some path =>
          match resource cwd path with
          | none => .panic
          | some main => .recorded { id := id, root := some root, main := main, inputs := [] }

end Tinymist.Recorded
