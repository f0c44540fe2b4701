import Verif.Model.Paths
/-! What an output path pattern means. -/
namespace Tinymist.PathPattern
open Paths

/-- A piece of a pattern. -/
inductive Piece where
  | text (s : Text)
  | root
  | dir
  | name

/-- How a piece is written. -/
def Piece.write : Piece → Text
  | .text s => s
  | .root => "$root".toList
  | .dir => "$dir".toList
  | .name => "$name".toList

/-- What a piece stands for: the root, the names of the directories below it with slashes between, the file name. -/
def Piece.value (root : Text) (dirs : List Text) (name : Text) : Piece → Text
  | .text s => s
  | .root => root
  | .dir => ['/'].intercalate dirs
  | .name => name

/-- A dollar sign always starts a placeholder. -/
def Clear (ps : List Piece) : Prop := ∀ s, Piece.text s ∈ ps → '$' ∉ s

end Tinymist.PathPattern
