/-!
# Resource paths

Models `ResourcePath`'s text form, `crates/tinymist-task/src/primitives.rs:259-302`.
-/
namespace Tinymist.ResourcePath

/-- `ResourcePath(scheme, path)`, primitives.rs:259-261. -/
structure ResPath where
  scheme : List Char
  path : List Char
  deriving DecidableEq, Repr

/-- `fmt::Display`, primitives.rs:263-267. -/
def display (r : ResPath) : List Char := r.scheme ++ ':' :: r.path

/-- `str::split(c)`: the pieces between occurrences of `c` (never empty). -/
def splitOn (c : Char) : List Char → List (List Char)
  | [] => [[]]
  | x :: xs =>
    if x = c then [] :: splitOn c xs
    else match splitOn c xs with
      | [] => [[x]]
      | p :: ps => (x :: p) :: ps

/-- `FromStr`, primitives.rs:269-282: exactly two parts, else an error (`none`). -/
def parse (s : List Char) : Option ResPath :=
  match splitOn ':' s with
  | [scheme, path] => some ⟨scheme, path⟩
  | _ => none

end Tinymist.ResourcePath
