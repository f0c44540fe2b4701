import Verif.Model.Paths
/-! What a path means: where one ends up by following it from a directory. (Symbolic links are not followed.) -/
namespace Tinymist.Paths

/-- A directory, as the names on the way to it from the file system root. -/
abbrev Dir := List Text

/-- Follow one component. The root is its own parent. -/
def follow (d : Dir) : Comp → Dir
  | .root => []
  | .cur => d
  | .parent => d.dropLast
  | .normal n => d ++ [n]

/-- Follow components from a directory. -/
def walk (d : Dir) (cs : List Comp) : Dir := cs.foldl follow d

/-- The file a path text denotes in a current directory. -/
def denotes (cwd : Dir) (s : Text) : Dir := walk cwd (components s)

/-- Two path texts denote the same file wherever they are used. -/
def Same (s t : Text) : Prop := ∀ cwd, denotes cwd s = denotes cwd t

end Tinymist.Paths
